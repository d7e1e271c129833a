import Verif.Front.Convert
import Verif.Grammar.Specification
import Verif.Names.VisibilitySpec

/-
What the conversion of syntax trees makes: which trees are converted, and that what they are converted
to is as name resolution expects it.
-/

namespace Verif.Front

open Verif.Grammar (allMade allMadeBranches allMadeTypeBranches madeElse allMadeStatements
  allMadeListElements allMadeMapElements madeOption allMadeFields allMadeCompBranches IsNumber
  IsIdentifier)

/-! ## Numbers -/

/-- The value of a digit of a number literal. -/
def digitValue (c : Char) : Nat := "0123456789abcdef".toList.idxOf c

/-- The value of digits in a positional system. -/
def valueOf (radix : Nat) (s : List Char) : Nat := s.foldl (fun n c => n * radix + digitValue c) 0

/-- The number fits in a word. Decimal literals always do: they are rounded. -/
def Fits : Grammar.Number → Prop
  | .binary s => valueOf 2 s < 2 ^ 64
  | .hexadecimal s => valueOf 16 s < 2 ^ 64
  | .floatingPoint _ => True

theorem foldl_le {radix : Nat} (hr : 1 ≤ radix) : ∀ (s : List Char) (n : Nat),
    n ≤ s.foldl (fun n c => n * radix + digitValue c) n
  | [], _ => Nat.le_refl _
  | c :: s, n => by
    refine Nat.le_trans ?_ (foldl_le hr s (n * radix + digitValue c))
    have := Nat.le_mul_of_pos_right n hr
    omega

theorem fromStrRadix_spec {radix : Nat} (hr : 1 ≤ radix) : ∀ (s : List Char) (n : Nat), n < 2 ^ 64 →
    (∀ c ∈ s, digit c = digitValue c) →
    fromStrRadix radix n s = if s.foldl (fun n c => n * radix + digitValue c) n < 2 ^ 64 then
      some (s.foldl (fun n c => n * radix + digitValue c) n) else none
  | [], n, hn, _ => by rw [fromStrRadix, List.foldl_nil, if_pos hn]
  | c :: s, n, hn, h => by
    have hc := h c List.mem_cons_self
    have hs := fun d hd => h d (List.mem_cons_of_mem _ hd)
    have hle := foldl_le hr s (n * radix + digitValue c)
    rw [fromStrRadix, List.foldl_cons, hc]
    by_cases h1 : n * radix + digitValue c < 2 ^ 64
    · have h2 : n * radix < 2 ^ 64 := Nat.lt_of_le_of_lt (Nat.le_add_right _ _) h1
      rw [if_pos h2, if_pos h1, fromStrRadix_spec hr s _ h1 hs]
    · rw [if_neg (fun h => h1 (Nat.lt_of_le_of_lt hle h)), if_neg h1]
      split <;> rfl

theorem digit_binary {c : Char} (h : c = '0' ∨ c = '1') : digit c = digitValue c := by
  rcases h with rfl | rfl <;> rfl

theorem digit_hex {c : Char} (h : Grammar.isHex c = true) (h' : c.isUpper = false) :
    digit c = digitValue c := by
  have hm : c ∈ "0123456789abcdefABCDEF".toList := by simpa [Grammar.isHex] using h
  have : ∀ c ∈ "0123456789abcdefABCDEF".toList, c.isUpper = false → digit c = digitValue c := by decide
  exact this c hm h'

theorem fromStrRadix_value {radix : Nat} (hr : 1 ≤ radix) {s : List Char}
    (h : ∀ c ∈ s, digit c = digitValue c) :
    fromStrRadix radix 0 s = if valueOf radix s < 2 ^ 64 then some (valueOf radix s) else none :=
  fromStrRadix_spec hr s 0 (by decide) h

/-- Literals are rounded values of their digits if they fit, and errors otherwise. -/
theorem convertNumber_spec (R : Rounding) {n : Grammar.Number} (h : IsNumber n) :
    convertNumber R n = match n with
      | .binary s => if valueOf 2 s < 2 ^ 64 then some (R.natural (valueOf 2 s)) else none
      | .hexadecimal s => if valueOf 16 s < 2 ^ 64 then some (R.natural (valueOf 16 s)) else none
      | .floatingPoint s => some (R.decimal s) := by
  cases n with
  | binary s =>
    rw [convertNumber, fromStrRadix_value (by decide) (fun c hc => digit_binary (h.2 c hc))]
    by_cases hv : valueOf 2 s < 2 ^ 64
    · simp only [if_pos hv]; rfl
    · simp only [if_neg hv]; rfl
  | hexadecimal s =>
    rw [convertNumber, fromStrRadix_value (by decide)
      (fun c hc => digit_hex (h.2 c hc).1 (h.2 c hc).2)]
    by_cases hv : valueOf 16 s < 2 ^ 64
    · simp only [if_pos hv]; rfl
    · simp only [if_neg hv]; rfl
  | floatingPoint s => rfl

theorem convertNumber_iff (R : Rounding) {n : Grammar.Number} (h : IsNumber n) :
    (∃ v, convertNumber R n = some v) ↔ Fits n := by
  rw [convertNumber_spec R h]
  cases n with
  | binary s => simp only [Fits]; split <;> simp_all
  | hexadecimal s => simp only [Fits]; split <;> simp_all
  | floatingPoint s => simp [Fits]

/-! ## The number literals of a module -/

mutual

/-- The number literals of an expression. -/
def numbersOf : Grammar.Expr → List Grammar.Number
  | .binary _ a b => numbersOf a ++ numbersOf b
  | .call f as => numbersOf f ++ numbersOfAll as
  | .if_ bs e => numbersOfBranches bs ++ numbersOfBlock e
  | .ifList e _ _ t f => numbersOf e ++ (numbersOfBlock t ++ numbersOfBlock f)
  | .ifMap _ m k t f => numbersOf m ++ (numbersOf k ++ (numbersOfBlock t ++ numbersOfBlock f))
  | .ifType _ e bs f => numbersOf e ++ (numbersOfTypeBranches bs ++ numbersOfElse f)
  | .lambda _ _ b => numbersOfBlock b
  | .list _ es => numbersOfListElements es
  | .comprehension _ e bs => numbersOf e ++ numbersOfCompBranches bs
  | .map _ _ es => numbersOfMapElements es
  | .number n => [n]
  | .record _ r fs => numbersOfOption r ++ numbersOfFields fs
  | .field r _ => numbersOf r
  | .string _ => []
  | .unary _ e => numbersOf e
  | .variable _ => []

def numbersOfAll : List Grammar.Expr → List Grammar.Number
  | [] => []
  | e :: es => numbersOf e ++ numbersOfAll es

def numbersOfBranches : List Grammar.Branch → List Grammar.Number
  | [] => []
  | .mk c b :: bs => numbersOf c ++ (numbersOfBlock b ++ numbersOfBranches bs)

def numbersOfTypeBranches : List Grammar.TypeBranch → List Grammar.Number
  | [] => []
  | .mk _ b :: bs => numbersOfBlock b ++ numbersOfTypeBranches bs

def numbersOfElse : Option Grammar.Block → List Grammar.Number
  | none => []
  | some b => numbersOfBlock b

def numbersOfBlock : Grammar.Block → List Grammar.Number
  | .mk ss e => numbersOfStatements ss ++ numbersOf e

def numbersOfStatements : List Grammar.Statement → List Grammar.Number
  | [] => []
  | .mk _ e :: ss => numbersOf e ++ numbersOfStatements ss

def numbersOfListElements : List Grammar.ListElement → List Grammar.Number
  | [] => []
  | .multiple e :: es => numbersOf e ++ numbersOfListElements es
  | .single e :: es => numbersOf e ++ numbersOfListElements es

def numbersOfMapElements : List Grammar.MapElement → List Grammar.Number
  | [] => []
  | .multiple e :: es => numbersOf e ++ numbersOfMapElements es
  | .entry k v :: es => numbersOf k ++ (numbersOf v ++ numbersOfMapElements es)

def numbersOfOption : Option Grammar.Expr → List Grammar.Number
  | none => []
  | some e => numbersOf e

def numbersOfFields : List Grammar.Field → List Grammar.Number
  | [] => []
  | .mk _ e :: fs => numbersOf e ++ numbersOfFields fs

def numbersOfCompBranches : List Grammar.CompBranch → List Grammar.Number
  | [] => []
  | .mk _ es c :: bs => numbersOfAll es ++ (numbersOfOption c ++ numbersOfCompBranches bs)

end

/-- The number literals of a module. -/
def numbersOfModule (m : Grammar.Module) : List Grammar.Number :=
  m.functions.flatMap fun f => numbersOfBlock f.lambda.body

/-- All of them fit. -/
def AllFit (ns : List Grammar.Number) : Prop := ∀ n ∈ ns, Fits n

theorem allFit_append {xs ys : List Grammar.Number} : AllFit (xs ++ ys) ↔ AllFit xs ∧ AllFit ys := by
  simp [AllFit, or_imp, forall_and]

@[simp] theorem allFit_nil : AllFit [] := by simp [AllFit]

@[simp] theorem allFit_single {n : Grammar.Number} : AllFit [n] ↔ Fits n := by simp [AllFit]

/-! ## Conversion succeeds if and only if literals fit -/

section

variable (R : Rounding)

theorem convertCompBranches_length : ∀ {bs : List Grammar.CompBranch} {hs},
    convertCompBranches R bs = some hs → hs.length = bs.length
  | [], _, h => by simp [convertCompBranches] at h; subst h; rfl
  | .mk xs es c :: bs, _, h => by
    simp only [convertCompBranches, Option.bind_eq_bind, Option.bind_eq_some_iff, Option.some.injEq] at h
    obtain ⟨_, _, _, _, hs, h2, rfl⟩ := h
    simp [convertCompBranches_length h2]

mutual

theorem convert_iff : ∀ (e : Grammar.Expr), e.Made →
    ((∃ h, convert R e = some h) ↔ AllFit (numbersOf e))
  | .binary o a b, h => by
    simp [convert, numbersOf, allFit_append, Option.bind_eq_some_iff, ← convert_iff a h.1, ← convert_iff b h.2]
  | .call f as, h => by
    simp [convert, numbersOf, allFit_append, Option.bind_eq_some_iff, ← convert_iff f h.1,
      ← convertAll_iff as h.2]
  | .if_ bs e, h => by
    simp only [convert, numbersOf, allFit_append, Option.bind_eq_bind, Option.bind_eq_some_iff,
      ← convertBlock_iff e h.2.2]
    constructor
    · rintro ⟨x, y, h1, h2⟩
      exact ⟨(convertIf_iff y bs h.1 h.2.1).mp ⟨_, h2⟩, _, h1⟩
    · rintro ⟨h1, y, h2⟩
      obtain ⟨x, hx⟩ := (convertIf_iff y bs h.1 h.2.1).mpr h1
      exact ⟨x, y, h2, hx⟩
  | .ifList e x y t f, h => by
    simp [convert, numbersOf, allFit_append, Option.bind_eq_some_iff, ← convert_iff e h.1,
      ← convertBlock_iff t h.2.2.2.1, ← convertBlock_iff f h.2.2.2.2]
  | .ifMap x m k t f, h => by
    simp [convert, numbersOf, allFit_append, Option.bind_eq_some_iff, ← convert_iff m h.2.1,
      ← convert_iff k h.2.2.1, ← convertBlock_iff t h.2.2.2.1, ← convertBlock_iff f h.2.2.2.2]
  | .ifType x e bs f, h => by
    simp [convert, numbersOf, allFit_append, Option.bind_eq_some_iff, ← convert_iff e h.2.1,
      ← convertTypeBranches_iff bs h.2.2.2.1, ← convertElse_iff f h.2.2.2.2]
  | .lambda as t b, h => by
    simp [convert, numbersOf, Option.bind_eq_some_iff, ← convertBlock_iff b h.2.2]
  | .list t es, h => by
    simp [convert, numbersOf, Option.bind_eq_some_iff, ← convertListElements_iff es h.2]
  | .comprehension t e bs, h => by
    simp only [convert, numbersOf, allFit_append, Option.bind_eq_bind, Option.bind_eq_some_iff,
      ← convert_iff e h.2.1, ← convertCompBranches_iff bs h.2.2.2]
    constructor
    · rintro ⟨x, y, h1, z, h2, _⟩
      exact ⟨⟨_, h1⟩, _, h2⟩
    · rintro ⟨⟨y, h1⟩, z, h2⟩
      have hl := convertCompBranches_length R h2
      cases hz : z.reverse with
      | nil =>
        have : z.length = 0 := by simpa using congrArg List.length hz
        exact absurd (List.length_eq_zero_iff.mp (hl.symm.trans this)) h.2.2.1
      | cons b bs => exact ⟨_, y, h1, z, h2, by rw [hz]⟩
  | .map k v es, h => by
    simp [convert, numbersOf, Option.bind_eq_some_iff, ← convertMapElements_iff es h.2.2]
  | .number n, h => by
    simp [convert, numbersOf, Option.bind_eq_some_iff, convertNumber_iff R (n := n) h]
  | .record x r fs, h => by
    simp only [convert, numbersOf, allFit_append, Option.bind_eq_bind, Option.bind_eq_some_iff]
    rw [← convertFields_iff fs h.2.2.2.1]
    constructor
    · rintro ⟨x, y, h1, h2⟩
      exact ⟨(convertRecord_iff _ y r h.2.1).mp ⟨_, h2⟩, _, h1⟩
    · rintro ⟨h1, y, h2⟩
      obtain ⟨z, hz⟩ := (convertRecord_iff (.reference (text x)) y r h.2.1).mpr h1
      exact ⟨z, y, h2, hz⟩
  | .field r x, h => by
    simp [convert, numbersOf, Option.bind_eq_some_iff, ← convert_iff r h.1]
  | .string s, h => by simp [convert, numbersOf]
  | .unary o e, h => by simp [convert, numbersOf, Option.bind_eq_some_iff, ← convert_iff e h]
  | .variable x, h => by simp [convert, numbersOf]

theorem convertAll_iff : ∀ (es : List Grammar.Expr), allMade es →
    ((∃ hs, convertAll R es = some hs) ↔ AllFit (numbersOfAll es))
  | [], _ => by simp [convertAll, numbersOfAll]
  | e :: es, h => by
    simp [convertAll, numbersOfAll, allFit_append, Option.bind_eq_some_iff, ← convert_iff e h.1,
      ← convertAll_iff es h.2]

theorem convertIf_iff (f : Hir.Expr) : ∀ (bs : List Grammar.Branch), bs ≠ [] → allMadeBranches bs →
    ((∃ h, convertIf R f bs = some h) ↔ AllFit (numbersOfBranches bs))
  | [], h, _ => absurd rfl h
  | [.mk c b], _, h => by
    simp [convertIf, numbersOfBranches, allFit_append, Option.bind_eq_some_iff, ← convert_iff c h.1,
      ← convertBlock_iff b h.2.1]
  | .mk c b :: d :: bs, _, h => by
    have ih := convertIf_iff f (d :: bs) (by simp) h.2.2
    rw [numbersOfBranches, allFit_append, allFit_append, ← ih, ← convert_iff c h.1, ← convertBlock_iff b h.2.1,
      convertIf]
    simp [Option.bind_eq_some_iff]

theorem convertTypeBranches_iff : ∀ (bs : List Grammar.TypeBranch), allMadeTypeBranches bs →
    ((∃ hs, convertTypeBranches R bs = some hs) ↔ AllFit (numbersOfTypeBranches bs))
  | [], _ => by simp [convertTypeBranches, numbersOfTypeBranches]
  | .mk t b :: bs, h => by
    simp [convertTypeBranches, numbersOfTypeBranches, allFit_append, Option.bind_eq_some_iff,
      ← convertBlock_iff b h.2.1, ← convertTypeBranches_iff bs h.2.2]

theorem convertElse_iff : ∀ (b : Option Grammar.Block), madeElse b →
    ((∃ h, convertElse R b = some h) ↔ AllFit (numbersOfElse b))
  | none, _ => by simp [convertElse, numbersOfElse]
  | some b, h => by
    simp [convertElse, numbersOfElse, Option.bind_eq_some_iff, ← convertBlock_iff b h]

theorem convertBlock_iff : ∀ (b : Grammar.Block), b.Made →
    ((∃ h, convertBlock R b = some h) ↔ AllFit (numbersOfBlock b))
  | .mk ss e, h => by
    simp only [convertBlock, numbersOfBlock, allFit_append, Option.bind_eq_bind, Option.bind_eq_some_iff,
      ← convert_iff e h.2]
    constructor
    · rintro ⟨x, y, h1, h2⟩
      exact ⟨(convertStatements_iff y ss h.1).mp ⟨_, h2⟩, _, h1⟩
    · rintro ⟨h1, y, h2⟩
      obtain ⟨x, hx⟩ := (convertStatements_iff y ss h.1).mpr h1
      exact ⟨x, y, h2, hx⟩

theorem convertStatements_iff (f : Hir.Expr) : ∀ (ss : List Grammar.Statement), allMadeStatements ss →
    ((∃ h, convertStatements R f ss = some h) ↔ AllFit (numbersOfStatements ss))
  | [], _ => by simp [convertStatements, numbersOfStatements]
  | .mk x e :: ss, h => by
    rw [numbersOfStatements, allFit_append, ← convert_iff e h.2.1, ← convertStatements_iff f ss h.2.2,
      convertStatements]
    simp [Option.bind_eq_some_iff, and_comm]

theorem convertListElements_iff : ∀ (es : List Grammar.ListElement), allMadeListElements es →
    ((∃ hs, convertListElements R es = some hs) ↔ AllFit (numbersOfListElements es))
  | [], _ => by simp [convertListElements, numbersOfListElements]
  | .multiple e :: es, h => by
    simp [convertListElements, numbersOfListElements, allFit_append, Option.bind_eq_some_iff,
      ← convert_iff e h.1, ← convertListElements_iff es h.2]
  | .single e :: es, h => by
    simp [convertListElements, numbersOfListElements, allFit_append, Option.bind_eq_some_iff,
      ← convert_iff e h.1, ← convertListElements_iff es h.2]

theorem convertMapElements_iff : ∀ (es : List Grammar.MapElement), allMadeMapElements es →
    ((∃ hs, convertMapElements R es = some hs) ↔ AllFit (numbersOfMapElements es))
  | [], _ => by simp [convertMapElements, numbersOfMapElements]
  | .multiple e :: es, h => by
    simp [convertMapElements, numbersOfMapElements, allFit_append, Option.bind_eq_some_iff,
      ← convert_iff e h.1, ← convertMapElements_iff es h.2]
  | .entry k v :: es, h => by
    simp [convertMapElements, numbersOfMapElements, allFit_append, Option.bind_eq_some_iff,
      ← convert_iff k h.1, ← convert_iff v h.2.1, ← convertMapElements_iff es h.2.2]

theorem convertRecord_iff (t : Hir.Ty) (fs : List (String × Hir.Expr)) : ∀ (r : Option Grammar.Expr),
    madeOption r → ((∃ h, convertRecord R t fs r = some h) ↔ AllFit (numbersOfOption r))
  | none, _ => by simp [convertRecord, numbersOfOption]
  | some e, h => by
    simp [convertRecord, numbersOfOption, Option.bind_eq_some_iff, ← convert_iff e h]

theorem convertFields_iff : ∀ (fs : List Grammar.Field), allMadeFields fs →
    ((∃ hs, convertFields R fs = some hs) ↔ AllFit (numbersOfFields fs))
  | [], _ => by simp [convertFields, numbersOfFields]
  | .mk x e :: fs, h => by
    simp [convertFields, numbersOfFields, allFit_append, Option.bind_eq_some_iff, ← convert_iff e h.2.1,
      ← convertFields_iff fs h.2.2]

theorem convertCompBranches_iff : ∀ (bs : List Grammar.CompBranch), allMadeCompBranches bs →
    ((∃ hs, convertCompBranches R bs = some hs) ↔ AllFit (numbersOfCompBranches bs))
  | [], _ => by simp [convertCompBranches, numbersOfCompBranches]
  | .mk xs es c :: bs, h => by
    simp [convertCompBranches, numbersOfCompBranches, allFit_append, Option.bind_eq_some_iff,
      ← convertAll_iff es h.2.2.2.1, ← convertCondition_iff c h.2.2.2.2.1,
      ← convertCompBranches_iff bs h.2.2.2.2.2]

theorem convertCondition_iff : ∀ (c : Option Grammar.Expr), madeOption c →
    ((∃ h, convertCondition R c = some h) ↔ AllFit (numbersOfOption c))
  | none, _ => by simp [convertCondition, numbersOfOption]
  | some e, h => by
    simp [convertCondition, numbersOfOption, Option.bind_eq_some_iff, ← convert_iff e h]

end

theorem convertFunctions_iff : ∀ (fs : List Grammar.FunctionDefinition),
    (∀ f ∈ fs, f.lambda.expression.Made) →
    ((∃ hs, convertFunctions R fs = some hs) ↔ ∀ f ∈ fs, AllFit (numbersOfBlock f.lambda.body))
  | [], _ => by simp [convertFunctions]
  | f :: fs, h => by
    have hb : f.lambda.body.Made := (h f List.mem_cons_self).2.2
    rw [List.forall_mem_cons, ← convertFunctions_iff fs (fun g hg => h g (List.mem_cons_of_mem _ hg)),
      ← convertBlock_iff R _ hb]
    simp [convertFunctions, convertFunction, Option.bind_eq_some_iff]

/-- A module the parser makes is converted if and only if its number literals fit. -/
theorem convertModule_iff {m : Grammar.Module} (hm : m.Made) :
    (∃ h, convertModule R m = some h) ↔ AllFit (numbersOfModule m) := by
  have := convertFunctions_iff R m.functions (fun f hf => (hm.2.2.2 f hf).2)
  simp only [convertModule, Option.bind_eq_bind, Option.bind_eq_some_iff, numbersOfModule, AllFit,
    List.mem_flatMap, forall_exists_index, and_imp] at this ⊢
  constructor
  · rintro ⟨_, fs, h, _⟩ n f hf hn
    exact this.mp ⟨_, h⟩ f hf n hn
  · intro h
    obtain ⟨fs, hfs⟩ := this.mpr fun f hf n hn => h n f hf hn
    exact ⟨_, fs, hfs, rfl⟩

end

end Verif.Front
