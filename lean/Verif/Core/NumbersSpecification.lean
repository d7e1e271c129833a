import Verif.Core.Numbers
/-
What the properties of numbers and lists of numbers are stated in.
-/
namespace Verif.Core.Numbers

/-- The number `x` is the integer `n`. (Zero has two patterns.) -/
def IsInteger (x : Number) (n : Int) : Prop := isFinite x = true ∧ units x = n * one

/-- The number `x` is negative zero. -/
def IsNegativeZero (x : Number) : Prop := x = pattern true 0

/-- The lazy list whose node in a state `s` is `node s` ends, after the elements. -/
inductive Elements {σ α : Type} (node : σ → Option (α × σ)) : σ → List α → Prop where
  | nil {s : σ} : node s = none → Elements node s []
  | cons {s t : σ} {x : α} {xs : List α} : node s = some (x, t) → Elements node t xs → Elements node s (x :: xs)

/-- The lazy list never ends: after any number of steps there is one more element. -/
def Endless {σ α : Type} (node : σ → Option (α × σ)) (s : σ) : Prop := ∀ xs, ¬ Elements node s xs

/-- The integers from `a` to `b`. -/
def integers (a b : Int) : List Int := (List.range (b - a + 1).toNat).map fun i : Nat => a + i

end Verif.Core.Numbers
