import Verif.Grammar.Specification

/-! Whether a module has one of the shapes that the formatter gets wrong is decidable. -/

namespace Verif.Grammar

mutual

def Ty.decSafe : (t : Ty) → Decidable t.Safe
  | .function as r =>
    have := allDecSafeTypes as
    have := r.decSafe
    inferInstanceAs (Decidable (_ ∧ _))
  | .list t => t.decSafe
  | .map k v =>
    have := k.decSafe
    have := v.decSafe
    inferInstanceAs (Decidable (_ ∧ _))
  | .reference _ => inferInstanceAs (Decidable True)
  | .union l r =>
    have := l.decSafe
    have := r.decSafe
    inferInstanceAs (Decidable (_ ∧ _ ∧ _ ∧ _))

def allDecSafeTypes : (ts : List Ty) → Decidable (allSafeTypes ts)
  | [] => inferInstanceAs (Decidable True)
  | t :: ts =>
    have := t.decSafe
    have := allDecSafeTypes ts
    inferInstanceAs (Decidable (_ ∧ _))

end

instance : DecidablePred Ty.Safe := Ty.decSafe

def decRightOperand (o : BinOp) : (r : Expr) →
    Decidable (∀ o' a b, r = .binary o' a b → o'.priority ≠ o.priority)
  | .binary o' _ _ =>
    if h : o'.priority = o.priority then isFalse fun h' => h' _ _ _ rfl h
    else isTrue fun _ _ _ e => by cases e; exact h
  | .call .. => isTrue fun _ _ _ e => by cases e
  | .if_ .. => isTrue fun _ _ _ e => by cases e
  | .ifList .. => isTrue fun _ _ _ e => by cases e
  | .ifMap .. => isTrue fun _ _ _ e => by cases e
  | .ifType .. => isTrue fun _ _ _ e => by cases e
  | .lambda .. => isTrue fun _ _ _ e => by cases e
  | .list .. => isTrue fun _ _ _ e => by cases e
  | .comprehension .. => isTrue fun _ _ _ e => by cases e
  | .map .. => isTrue fun _ _ _ e => by cases e
  | .number .. => isTrue fun _ _ _ e => by cases e
  | .record .. => isTrue fun _ _ _ e => by cases e
  | .field .. => isTrue fun _ _ _ e => by cases e
  | .string .. => isTrue fun _ _ _ e => by cases e
  | .unary .. => isTrue fun _ _ _ e => by cases e
  | .variable .. => isTrue fun _ _ _ e => by cases e

instance (e f : Expr) : Decidable (Apart e f) := inferInstanceAs (Decidable (_ ∧ _))

instance (e : Expr) : (s : Statement) → Decidable (ApartStatement e s)
  | .mk none f => inferInstanceAs (Decidable (Apart e f))
  | .mk (some _) _ => inferInstanceAs (Decidable True)

def decAllApart : (ss : List Statement) → (e : Expr) → Decidable (AllApart ss e)
  | [], _ => inferInstanceAs (Decidable True)
  | [s], e => inferInstanceAs (Decidable (Apart s.expr e))
  | s :: t :: ss, e =>
    have := decAllApart (t :: ss) e
    inferInstanceAs (Decidable (_ ∧ _))

instance (bs : List Branch) : Decidable (FirstCondition bs) :=
  match bs with
  | [] => inferInstanceAs (Decidable False)
  | .mk c _ :: _ => inferInstanceAs (Decidable (opening c ≠ .bracket))

instance {α : Type} : (l : List α) → Decidable (l ≠ [])
  | [] => isFalse fun h => h rfl
  | _ :: _ => isTrue fun h => by cases h

mutual

def Expr.decSafe : (e : Expr) → Decidable e.Safe
  | .binary o l r =>
    have := l.decSafe
    have := r.decSafe
    have := decRightOperand o r
    inferInstanceAs (Decidable (_ ∧ _ ∧ _))
  | .call f as =>
    have := f.decSafe
    have := allDecSafe as
    inferInstanceAs (Decidable (_ ∧ _ ∧ _))
  | .if_ bs e =>
    have := allDecSafeBranches bs
    have := e.decSafe
    inferInstanceAs (Decidable (_ ∧ _ ∧ _))
  | .ifList l _ _ t e =>
    have := l.decSafe
    have := t.decSafe
    have := e.decSafe
    inferInstanceAs (Decidable (_ ∧ _ ∧ _))
  | .ifMap _ m k t e =>
    have := m.decSafe
    have := k.decSafe
    have := t.decSafe
    have := e.decSafe
    inferInstanceAs (Decidable (_ ∧ _ ∧ _ ∧ _))
  | .ifType _ e bs f =>
    have := e.decSafe
    have := allDecSafeTypeBranches bs
    have := decSafeElse f
    inferInstanceAs (Decidable (_ ∧ _ ∧ _))
  | .lambda as t b =>
    have := b.decSafe
    inferInstanceAs (Decidable ((∀ a ∈ as, a.2.Safe) ∧ t.Safe ∧ b.Safe))
  | .list t es =>
    have := allDecSafeListElements es
    inferInstanceAs (Decidable (t.Safe ∧ _))
  | .comprehension t e bs =>
    have := e.decSafe
    have := allDecSafeCompBranches bs
    inferInstanceAs (Decidable (t.Safe ∧ _ ∧ _))
  | .map k v es =>
    have := allDecSafeMapElements es
    have := k.decSafe
    have := v.decSafe
    inferInstanceAs (Decidable (_ ∧ _ ∧ _))
  | .number _ => inferInstanceAs (Decidable True)
  | .record _ r fs =>
    have := decSafeOption r
    have := allDecSafeFields fs
    inferInstanceAs (Decidable (_ ∧ _))
  | .field r _ =>
    have := r.decSafe
    inferInstanceAs (Decidable (_ ∧ _ ∧ _))
  | .string _ => inferInstanceAs (Decidable True)
  | .unary .not e => e.decSafe
  | .unary .try_ e =>
    have := e.decSafe
    inferInstanceAs (Decidable (_ ∧ (_ ∨ _)))
  | .variable _ => inferInstanceAs (Decidable True)

def allDecSafe : (es : List Expr) → Decidable (allSafe es)
  | [] => inferInstanceAs (Decidable True)
  | e :: es =>
    have := e.decSafe
    have := allDecSafe es
    inferInstanceAs (Decidable (_ ∧ _))

def allDecSafeBranches : (bs : List Branch) → Decidable (allSafeBranches bs)
  | [] => inferInstanceAs (Decidable True)
  | .mk c b :: bs =>
    have := c.decSafe
    have := b.decSafe
    have := allDecSafeBranches bs
    inferInstanceAs (Decidable (_ ∧ _ ∧ _))

def allDecSafeTypeBranches : (bs : List TypeBranch) → Decidable (allSafeTypeBranches bs)
  | [] => inferInstanceAs (Decidable True)
  | .mk t b :: bs =>
    have := t.decSafe
    have := b.decSafe
    have := allDecSafeTypeBranches bs
    inferInstanceAs (Decidable (_ ∧ _ ∧ _))

def decSafeElse : (b : Option Block) → Decidable (safeElse b)
  | none => inferInstanceAs (Decidable True)
  | some b => b.decSafe

def Block.decSafe : (b : Block) → Decidable b.Safe
  | .mk ss e =>
    have := allDecSafeStatements ss
    have := e.decSafe
    have := decAllApart ss e
    inferInstanceAs (Decidable (_ ∧ _ ∧ _))

def allDecSafeStatements : (ss : List Statement) → Decidable (allSafeStatements ss)
  | [] => inferInstanceAs (Decidable True)
  | .mk _ e :: ss =>
    have := e.decSafe
    have := allDecSafeStatements ss
    inferInstanceAs (Decidable (_ ∧ _))

def allDecSafeListElements : (es : List ListElement) → Decidable (allSafeListElements es)
  | [] => inferInstanceAs (Decidable True)
  | .multiple e :: es =>
    have := e.decSafe
    have := allDecSafeListElements es
    inferInstanceAs (Decidable (_ ∧ _))
  | .single e :: es =>
    have := e.decSafe
    have := allDecSafeListElements es
    inferInstanceAs (Decidable (_ ∧ _))

def allDecSafeMapElements : (es : List MapElement) → Decidable (allSafeMapElements es)
  | [] => inferInstanceAs (Decidable True)
  | .multiple e :: es =>
    have := e.decSafe
    have := allDecSafeMapElements es
    inferInstanceAs (Decidable (_ ∧ _))
  | .entry k v :: es =>
    have := k.decSafe
    have := v.decSafe
    have := allDecSafeMapElements es
    inferInstanceAs (Decidable (_ ∧ _ ∧ _))

def decSafeOption : (e : Option Expr) → Decidable (safeOption e)
  | none => inferInstanceAs (Decidable True)
  | some e => e.decSafe

def allDecSafeFields : (fs : List Field) → Decidable (allSafeFields fs)
  | [] => inferInstanceAs (Decidable True)
  | .mk _ e :: fs =>
    have := e.decSafe
    have := allDecSafeFields fs
    inferInstanceAs (Decidable (_ ∧ _))

def allDecSafeCompBranches : (bs : List CompBranch) → Decidable (allSafeCompBranches bs)
  | [] => inferInstanceAs (Decidable True)
  | .mk _ es c :: bs =>
    have := allDecSafe es
    have := decSafeOption c
    have := allDecSafeCompBranches bs
    inferInstanceAs (Decidable (_ ∧ _ ∧ _))

end

instance : DecidablePred Expr.Safe := Expr.decSafe

instance : DecidablePred SafeTypeDefinition
  | .record _ fs => inferInstanceAs (Decidable (∀ f ∈ fs, f.2.Safe))
  | .alias_ _ t => inferInstanceAs (Decidable t.Safe)

instance : DecidablePred Module.Safe := fun _ => inferInstanceAs (Decidable (_ ∧ _ ∧ _))

end Verif.Grammar
