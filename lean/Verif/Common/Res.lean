import Mathlib.Data.List.Forall2

/-!
# Results of fuelled computations

Source functions that can fail to terminate on some inputs, or that return `Result`, are modelled as
functions with a fuel argument and result type `Res`. `more` means "the fuel ran out": a source call
terminates exactly when some fuel gives a result other than `more`.
-/

namespace Verif

inductive Res (ε α : Type) where
  | ok (a : α)
  | err (e : ε)
  | more
  deriving Repr, DecidableEq

namespace Res

def bind {ε α β : Type} (x : Res ε α) (f : α → Res ε β) : Res ε β :=
  match x with
  | ok a => f a
  | err e => err e
  | more => more

instance {ε : Type} : Monad (Res ε) where
  pure := ok
  bind := bind

variable {ε α β : Type}

@[simp] theorem ok_bind (a : α) (f : α → Res ε β) : (ok a >>= f) = f a := rfl
@[simp] theorem err_bind (e : ε) (f : α → Res ε β) : (err e >>= f) = err e := rfl
@[simp] theorem more_bind (f : α → Res ε β) : ((more : Res ε α) >>= f) = more := rfl
@[simp] theorem pure_eq (a : α) : (pure a : Res ε α) = ok a := rfl

theorem bind_eq_ok {x : Res ε α} {f : α → Res ε β} {b : β} :
    (x >>= f) = ok b ↔ ∃ a, x = ok a ∧ f a = ok b := by
  cases x <;> simp

theorem bind_eq_err {x : Res ε α} {f : α → Res ε β} {e : ε} :
    (x >>= f) = err e ↔ x = err e ∨ ∃ a, x = ok a ∧ f a = err e := by
  cases x <;> simp

/-- Left-to-right traversal stopping at the first error: `iter().map(f).collect::<Result<_, _>>()`. -/
def mapList (f : α → Res ε β) : List α → Res ε (List β)
  | [] => ok []
  | a :: as => do
    let b ← f a
    let bs ← mapList f as
    ok (b :: bs)

theorem mapList_eq_ok {f : α → Res ε β} : ∀ {as : List α} {bs : List β},
    mapList f as = ok bs ↔ List.Forall₂ (fun a b => f a = ok b) as bs
  | [], bs => by
    cases bs with
    | nil => simp [mapList]
    | cons b bs => simp [mapList]
  | a :: as, bs => by
    cases bs with
    | nil => simp [mapList, bind_eq_ok]
    | cons b bs => simp [mapList, bind_eq_ok, ← mapList_eq_ok (as := as) (bs := bs)]

theorem mapList_eq_err {f : α → Res ε β} {e : ε} : ∀ {as : List α}, mapList f as = err e →
    ∃ a ∈ as, f a = err e
  | [], h => by simp [mapList] at h
  | a :: as, h => by
    simp only [mapList, bind_eq_err] at h
    rcases h with h | ⟨b, h1, h2⟩
    · exact ⟨a, by simp, h⟩
    · rcases h2 with h2 | ⟨_, _, h3⟩
      · obtain ⟨c, hc, h⟩ := mapList_eq_err h2
        exact ⟨c, by simp [hc], h⟩
      · cases h3

/-- `x ⊑ y`: `y` is what `x` becomes with more fuel. -/
def Le (x y : Res ε α) : Prop := x = more ∨ x = y

theorem Le.refl (x : Res ε α) : Le x x := Or.inr rfl

theorem Le.bind {x y : Res ε α} {f g : α → Res ε β} (h : Le x y) (hf : ∀ a, Le (f a) (g a)) :
    Le (x >>= f) (y >>= g) := by
  rcases h with h | h
  · subst h; exact Or.inl rfl
  · subst h
    cases x with
    | ok a => exact hf a
    | err e => exact Or.inr rfl
    | more => exact Or.inl rfl

theorem Le.mapList {f g : α → Res ε β} : ∀ (as : List α), (∀ a ∈ as, Le (f a) (g a)) →
    Le (mapList f as) (mapList g as)
  | [], _ => Le.refl _
  | a :: as, h => by
    unfold Res.mapList
    refine Le.bind (h a (by simp)) fun b => Le.bind (Le.mapList as fun a ha => h a (by simp [ha])) ?_
    intro bs; exact Le.refl _

theorem Le.ok {x y : Res ε α} {a : α} (h : Le x y) (hx : x = ok a) : y = ok a := by
  rcases h with h | h
  · rw [h] at hx; cases hx
  · rw [← h, hx]

theorem Le.ne_more {x y : Res ε α} (h : Le x y) (hx : x ≠ more) : y = x := by
  rcases h with h | h
  · exact absurd h hx
  · exact h.symm

/-- The fuelled computation `f` terminates with result `x`: all large enough fuels give `x`. -/
def Settles (f : Nat → Res ε α) (x : Res ε α) : Prop := ∃ N, ∀ n, N ≤ n → f n = x

theorem Settles.bind {f : Nat → Res ε α} {g : Nat → α → Res ε β} {a : α} {y : Res ε β}
    (hf : Settles f (.ok a)) (hg : Settles (fun n => g n a) y) :
    Settles (fun n => f n >>= g n) y := by
  obtain ⟨N1, h1⟩ := hf
  obtain ⟨N2, h2⟩ := hg
  refine ⟨max N1 N2, fun n hn => ?_⟩
  show (f n >>= g n) = y
  rw [h1 n (Nat.le_trans (Nat.le_max_left _ _) hn)]
  exact h2 n (Nat.le_trans (Nat.le_max_right _ _) hn)

theorem Settles.const (x : Res ε α) : Settles (fun _ => x) x := ⟨0, fun _ _ => rfl⟩

theorem Settles.congr {f g : Nat → Res ε α} {x : Res ε α} (h : Settles f x) (hfg : ∀ n, f n = g n) :
    Settles g x := by
  obtain ⟨N, h⟩ := h
  exact ⟨N, fun n hn => by rw [← hfg, h n hn]⟩

theorem Settles.unique {f : Nat → Res ε α} {x y : Res ε α} (hx : Settles f x) (hy : Settles f y) :
    x = y := by
  obtain ⟨N1, h1⟩ := hx
  obtain ⟨N2, h2⟩ := hy
  rw [← h1 _ (Nat.le_max_left N1 N2), h2 _ (Nat.le_max_right N1 N2)]

theorem le_of_step {f : Nat → Res ε α} (h : ∀ n, Le (f n) (f (n + 1))) {n m : Nat} (hnm : n ≤ m) :
    Le (f n) (f m) := by
  induction hnm with
  | refl => exact Le.refl _
  | step _ ih =>
    rcases ih with ih | ih
    · exact Or.inl ih
    · rw [ih]; exact h _

/-- Any fuel that gives a result gives the result. -/
theorem settles_of_eq {f : Nat → Res ε α} (h : ∀ n, Le (f n) (f (n + 1))) {n : Nat} {x : Res ε α}
    (hx : f n = x) (hne : x ≠ .more) : Settles f x :=
  ⟨n, fun m hm => by
    rcases le_of_step h hm with h1 | h1
    · rw [hx] at h1; exact absurd h1 hne
    · rw [← h1, hx]⟩

end Res
end Verif
