import Verif.Hir.AnalyzedModules

/-!
# Checking that a program is tame

A procedure that finds out whether `Tame` holds. It is not part of the compiler.
-/

namespace Verif.Hir

open Verif.Res

/-- Whether a variable does not occur. -/
def omits (x : String) : Nat → Expr → Bool
  | 0, _ => false
  | _ + 1, .variable y => x != y
  | n + 1, e => (kids e).all (omits x n)

theorem omits_sound {x : String} : ∀ {n : Nat} {e : Expr}, omits x n e = true → Omits x e
  | n + 1, e, h => by
    by_cases he : ∃ y, e = .variable y
    · obtain ⟨y, rfl⟩ := he
      have h' : x ≠ y := by simpa [omits] using h
      exact .mk (by simpa using fun e => h' e.symm) (by simp [kids])
    · have h' : (kids e).all (omits x n) = true := by
        cases e <;> first | exact absurd ⟨_, rfl⟩ he | exact h
      refine .mk (fun e' => he ⟨x, e'⟩) fun k hk => omits_sound (List.all_eq_true.mp h' k hk)

/-- Whether no name of a branch occurs in a later iteratee. -/
def apart (n : Nat) : List (String × (Option Ty × Expr)) → Bool
  | [] => true
  | (x, _) :: is => is.all (fun i => omits x n i.2.2) && apart n is

theorem apart_sound {n : Nat} : ∀ {is : List (String × (Option Ty × Expr))}, apart n is = true → Apart is
  | [], _ => trivial
  | (x, _) :: is, h => by
    simp only [apart, Bool.and_eq_true, List.all_eq_true] at h
    exact ⟨fun i hi => omits_sound (h.1 i hi), apart_sound h.2⟩

/-- Whether a type is known not to be `error`. -/
def notError (n : Nat) (A : Aliases) (t : Ty) : Bool :=
  match canonicalize n A t with
  | .ok c => c != .error
  | _ => false

theorem notError_sound {n : Nat} {A : Aliases} {t : Ty} (h : notError n A t = true) : ¬ Canon A t .error := by
  unfold notError at h
  split at h
  · rename_i c hc
    intro h'
    cases h'.det (Canon.of_ok hc)
    simp at h
  · cases h

/-- Whether an expression is tame. -/
def tame (A : Aliases) : Nat → Bool → Expr → Bool
  | 0, _, _ => false
  | n + 1, o, e =>
    match e with
    | .boolean _ | .none | .number _ | .string _ | .variable _ | .builtIn _ => true
    | .call _ f args => tame A n o f && args.all (tame A n o)
    | .builtInCall _ f args => args.all (tame A n (o && !f.deferred))
    | .if_ c a b => tame A n o c && tame A n o a && tame A n o b
    | .ifList _ l _ _ a b => tame A n o l && tame A n o a && tame A n o b
    | .ifMap _ _ _ m k a b => tame A n o m && tame A n o k && tame A n o a && tame A n o b
    | .ifType _ e bs else_ => tame A n o e && bs.all (fun p => tame A n o p.2) && else_.all (fun p => tame A n o p.2)
    | .lambda _ r b => tame A n false b || (notError n A r && tame A n true b)
    | .let_ _ _ a b => tame A n o a && tame A n o b
    | .list _ es => es.all (fun e => tame A n o (listElem e))
    | .comprehension _ e b bs => tame A n o e && (b :: bs).all (fun p => apart n (p.names.zip p.iteratees) &&
        p.iteratees.all (fun i => tame A n o i.2) && p.condition.all (tame A n o))
    | .map _ _ es => es.all (fun e => (mapElem e).all (tame A n o))
    | .addition _ a b => tame A n o a && tame A n o b
    | .arithmetic _ a b => tame A n o a && tame A n o b
    | .booleanOp _ a b => tame A n o a && tame A n o b
    | .equality _ _ a b => tame A n o a && tame A n o b
    | .not a => tame A n o a
    | .order _ a b => tame A n o a && tame A n o b
    | .try_ _ a => o && tame A n true a
    | .record _ fs => fs.all (fun f => tame A n o f.2)
    | .deconstruct _ e _ => tame A n o e
    | .update _ e fs => tame A n o e && fs.all (fun f => tame A n o f.2)
    | .coercion _ _ _ => false

theorem tame_sound {A : Aliases} : ∀ {n : Nat} {o : Bool} {e : Expr}, tame A n o e = true → Tame A o e
  | n + 1, o, e, h => by
    cases e with
    | boolean => exact .boolean _
    | none => exact .none
    | number => exact .number _
    | string => exact .string _
    | «variable» => exact .var _
    | builtIn => exact .builtIn _
    | call t f args =>
      simp only [tame, Bool.and_eq_true, List.all_eq_true] at h
      exact .call (tame_sound h.1) fun a ha => tame_sound (h.2 a ha)
    | builtInCall t f args =>
      simp only [tame, List.all_eq_true] at h
      exact .builtInCall fun a ha => tame_sound (h a ha)
    | if_ =>
      simp only [tame, Bool.and_eq_true] at h
      exact .if_ (tame_sound h.1.1) (tame_sound h.1.2) (tame_sound h.2)
    | ifList =>
      simp only [tame, Bool.and_eq_true] at h
      exact .ifList (tame_sound h.1.1) (tame_sound h.1.2) (tame_sound h.2)
    | ifMap =>
      simp only [tame, Bool.and_eq_true] at h
      exact .ifMap (tame_sound h.1.1.1) (tame_sound h.1.1.2) (tame_sound h.1.2) (tame_sound h.2)
    | ifType x e bs f =>
      simp only [tame, Bool.and_eq_true, List.all_eq_true] at h
      cases f with
      | none => exact .ifType (tame_sound h.1.1) fun p hp => tame_sound (h.1.2 p hp)
      | some f => exact .ifTypeElse (tame_sound h.1.1) (fun p hp => tame_sound (h.1.2 p hp)) (tame_sound (by simpa using h.2))
    | lambda ps r b =>
      simp only [tame, Bool.or_eq_true, Bool.and_eq_true] at h
      rcases h with h | h
      · exact .lambda (tame_sound h)
      · exact .lambdaTry (notError_sound h.1) (tame_sound h.2)
    | let_ =>
      simp only [tame, Bool.and_eq_true] at h
      exact .let_ (tame_sound h.1) (tame_sound h.2)
    | list =>
      simp only [tame, List.all_eq_true] at h
      exact .list (fun e he => tame_sound (h _ he)) (fun e he => tame_sound (h _ he))
    | comprehension =>
      simp only [tame, Bool.and_eq_true, List.all_eq_true] at h
      refine .comprehension (tame_sound h.1) (fun p hp => apart_sound (h.2 p hp).1.1)
        (fun p hp i hi => tame_sound ((h.2 p hp).1.2 i hi)) fun p hp c hc => tame_sound (n := n) ?_
      have := (h.2 p hp).2
      simpa [hc] using this
    | map =>
      simp only [tame, List.all_eq_true] at h
      exact .map (fun a b hab => tame_sound (h _ hab a (by simp [mapElem])))
        (fun a b hab => tame_sound (h _ hab b (by simp [mapElem]))) (fun e he => tame_sound (h _ he e (by simp [mapElem])))
    | addition =>
      simp only [tame, Bool.and_eq_true] at h
      exact .addition (tame_sound h.1) (tame_sound h.2)
    | arithmetic =>
      simp only [tame, Bool.and_eq_true] at h
      exact .arithmetic (tame_sound h.1) (tame_sound h.2)
    | booleanOp =>
      simp only [tame, Bool.and_eq_true] at h
      exact .booleanOp (tame_sound h.1) (tame_sound h.2)
    | equality =>
      simp only [tame, Bool.and_eq_true] at h
      exact .equality (tame_sound h.1) (tame_sound h.2)
    | not => exact .not (tame_sound h)
    | order =>
      simp only [tame, Bool.and_eq_true] at h
      exact .order (tame_sound h.1) (tame_sound h.2)
    | try_ =>
      simp only [tame, Bool.and_eq_true] at h
      obtain ⟨rfl, h⟩ := h
      exact .try_ (tame_sound h)
    | record =>
      simp only [tame, List.all_eq_true] at h
      exact .record fun f hf => tame_sound (h f hf)
    | deconstruct => exact .deconstruct (tame_sound h)
    | update =>
      simp only [tame, Bool.and_eq_true, List.all_eq_true] at h
      exact .update (tame_sound h.1) fun f hf => tame_sound (h.2 f hf)
    | coercion => simp [tame] at h

theorem tameModule_sound {n : Nat} {m : Module}
    (h : m.definitions.all (fun d => tame m.ctx.types n false (.lambda d.params d.result d.body)) = true) :
    TameModule m := fun d hd => tame_sound (List.all_eq_true.mp h d hd)

end Verif.Hir
