import Verif.Prelude.ListModel
import Mathlib.Data.List.Forall2

/-!
# Lists: C18, and the list part of C19

The mathematical sequence of a list is what repeated `FirstRest` yields (`seq`, defined by iterating
`firstRest`).
-/
namespace Verif.Prelude.Lists

variable {ε α β : Type}

/-- The element thunks of a list, read off with `firstRest`. -/
inductive Seq : PenList ε α → List (Thunk ε α) → Prop
  | nil {l log} : firstRest l = (log, none) → Seq l []
  | cons {l log x r xs} : firstRest l = (log, some (x, r)) → Seq r xs → Seq l (x :: xs)

/-- Every (finite) list has exactly one sequence. -/
theorem seq_exists_unique (l : PenList ε α) : ∃ xs, Seq l xs ∧ ∀ ys, Seq l ys → ys = xs := by
  obtain ⟨n⟩ := l
  induction n with
  | nil log =>
    refine ⟨[], .nil (log := log) rfl, ?_⟩
    intro ys h
    cases h with
    | nil _ => rfl
    | cons h _ => simp [firstRest, force] at h
  | cons log x r ih =>
    obtain ⟨xs, h, hu⟩ := ih
    refine ⟨x :: xs, .cons (log := log) rfl h, ?_⟩
    intro ys h'
    cases h' with
    | nil h => simp [firstRest, force] at h
    | cons h1 h2 =>
      simp only [firstRest, force, Prod.mk.injEq, Option.some.injEq] at h1
      obtain ⟨-, rfl, rfl⟩ := h1
      rw [hu _ h2]

theorem Seq.unique {l : PenList ε α} {xs ys : List (Thunk ε α)} (h1 : Seq l xs) (h2 : Seq l ys) : xs = ys := by
  obtain ⟨zs, _, h⟩ := seq_exists_unique l
  rw [h _ h1, h _ h2]

theorem seq_nil_iff {log : List ε} {xs : List (Thunk ε α)} : Seq ⟨.nil log⟩ xs ↔ xs = [] := by
  constructor
  · intro h
    cases h with
    | nil _ => rfl
    | cons h _ => simp [firstRest, force] at h
  · rintro rfl; exact .nil (log := log) rfl

theorem seq_cons_iff {log : List ε} {x : Thunk ε α} {r : Nodes ε α} {xs : List (Thunk ε α)} :
    Seq ⟨.cons log x r⟩ xs ↔ ∃ ys, xs = x :: ys ∧ Seq ⟨r⟩ ys := by
  constructor
  · intro h
    cases h with
    | nil h => simp [firstRest, force] at h
    | cons h1 h2 =>
      simp only [firstRest, force, Prod.mk.injEq, Option.some.injEq] at h1
      obtain ⟨-, rfl, rfl⟩ := h1
      exact ⟨_, rfl, h2⟩
  · rintro ⟨ys, rfl, h⟩; exact .cons (log := log) rfl h

theorem seq_delay {log : List ε} {n : Nodes ε α} {xs : List (Thunk ε α)} :
    Seq ⟨delay log n⟩ xs ↔ Seq ⟨n⟩ xs := by
  cases n with
  | nil _ => simp only [delay, seq_nil_iff]
  | cons _ _ _ => simp only [delay, seq_cons_iff]

theorem seq_concatenateNodes (x y : Nodes ε α) {xs ys : List (Thunk ε α)} (hx : Seq ⟨x⟩ xs)
    (hy : Seq ⟨y⟩ ys) : Seq ⟨concatenateNodes x y⟩ (xs ++ ys) := by
  induction x generalizing xs with
  | nil log =>
    rw [seq_nil_iff] at hx
    subst hx
    simp only [concatenateNodes, seq_delay, List.nil_append]
    exact hy
  | cons log a r ih =>
    obtain ⟨zs, rfl, hz⟩ := seq_cons_iff.1 hx
    simp only [concatenateNodes, List.cons_append, seq_cons_iff]
    exact ⟨_, rfl, ih hz⟩

/-- **C18**, constructors: the empty list is empty, prepending conses the (unevaluated) element, a lazy list
is the list, concatenation is concatenation of sequences. -/
theorem c18_constructors {l y : PenList ε α} {xs ys : List (Thunk ε α)} (hl : Seq l xs) (hy : Seq y ys)
    (x : Thunk ε α) (log : List ε) :
    Seq (emptyList : PenList ε α) [] ∧ Seq (prependToList x l) (x :: xs) ∧ Seq (lazyList ⟨log, l⟩) xs ∧
      Seq (concatenateLists ⟨log, l⟩ y) (xs ++ ys) := by
  refine ⟨seq_nil_iff.2 rfl, seq_cons_iff.2 ⟨xs, rfl, hl⟩, seq_delay.2 hl, seq_delay.2 ?_⟩
  exact seq_concatenateNodes _ _ hl hy

/-- **C18**, laziness: looking at the first element of a concatenation causes exactly the events of producing
the left list and looking at its first element; the right list is only touched if the left one is empty. No
element is evaluated. -/
theorem c18_concatenation_lazy (x : Thunk ε (PenList ε α)) (y : PenList ε α) :
    (firstRest (concatenateLists x y)).1 = x.log ++ (firstRest x.val).1 ++
      (if (firstRest x.val).2.isSome then [] else (firstRest y).1) := by
  obtain ⟨log, ⟨n⟩⟩ := x
  obtain ⟨m⟩ := y
  cases n <;> cases m <;> simp [firstRest, force, concatenateLists, concatenateNodes, delay]

/-- Prepending to a list and looking at the result evaluates nothing at all. -/
theorem c18_prepend_lazy (x : Thunk ε α) (l : PenList ε α) :
    firstRest (prependToList x l) = ([], some (x, l)) := rfl

theorem nodeSize_eq (n : Nodes ε α) {xs : List (Thunk ε α)} (h : Seq ⟨n⟩ xs) (s : Nat) :
    (nodeSize n s).2 = s + xs.length := by
  induction n generalizing s xs with
  | nil log => rw [seq_nil_iff] at h; simp [nodeSize, h]
  | cons log x r ih =>
    obtain ⟨zs, rfl, hz⟩ := seq_cons_iff.1 h
    simp only [nodeSize, ih hz, List.length_cons]
    omega

/-- **C18**, size: the size of a list is the length of its sequence. -/
theorem c18_size {l : PenList ε α} {xs : List (Thunk ε α)} (h : Seq l xs) : (listSize l).2 = xs.length := by
  obtain ⟨n⟩ := l
  simpa [listSize] using nodeSize_eq n h 0

/-- Replace the elements' values and events, keeping the spine. -/
def mapElements (g : Thunk ε α → Thunk ε β) : Nodes ε α → Nodes ε β
  | .nil log => .nil log
  | .cons log x r => .cons log (g x) (mapElements g r)

/-- **C18**: computing a size evaluates no element: its events do not depend on the elements. -/
theorem c18_size_lazy (n : Nodes ε α) (g : Thunk ε α → Thunk ε β) :
    listSize ⟨mapElements g n⟩ = listSize ⟨n⟩ := by
  unfold listSize
  simp only
  generalize 0 = s
  induction n generalizing s with
  | nil log => rfl
  | cons log x r ih => simp only [mapElements, nodeSize, ih]

theorem equalNodes_eq (f : α → α → Bool) (x y : Nodes ε α) {xs ys : List (Thunk ε α)} (hx : Seq ⟨x⟩ xs)
    (hy : Seq ⟨y⟩ ys) :
    (equalNodes (fun a b => some (f a b)) x y).2 = some true ↔
      List.Forall₂ (fun a b => f a.val b.val = true) xs ys := by
  induction x generalizing y xs ys with
  | nil log =>
    rw [seq_nil_iff] at hx
    subst hx
    cases y with
    | nil _ => rw [seq_nil_iff] at hy; subst hy; simp [equalNodes]
    | cons _ _ _ => obtain ⟨zs, rfl, hz⟩ := seq_cons_iff.1 hy; simp [equalNodes]
  | cons log a r ih =>
    obtain ⟨zs, rfl, hz⟩ := seq_cons_iff.1 hx
    cases y with
    | nil _ => rw [seq_nil_iff] at hy; subst hy; simp [equalNodes]
    | cons _ b s =>
      obtain ⟨ws, rfl, hw⟩ := seq_cons_iff.1 hy
      simp only [equalNodes, List.forall₂_cons]
      cases hf : f a.val b.val with
      | true => simp only [true_and]; exact ih s hz hw
      | false => simp

theorem equalNodes_some (f : α → α → Bool) (x y : Nodes ε α) :
    ∃ b, (equalNodes (fun a b => some (f a b)) x y).2 = some b := by
  induction x generalizing y with
  | nil log => cases y <;> simp [equalNodes]
  | cons log a r ih =>
    cases y with
    | nil _ => simp [equalNodes]
    | cons _ b s =>
      simp only [equalNodes]
      cases hf : f a.val b.val with
      | true => exact ih s
      | false => exact ⟨false, rfl⟩

/-- **C18**, equality: lists are equal iff their sequences are, element by element. -/
theorem c18_equal (f : α → α → Bool) {x y : PenList ε α} {xs ys : List (Thunk ε α)} (hx : Seq x xs)
    (hy : Seq y ys) :
    equalLists f x y = true ↔ List.Forall₂ (fun a b => f a.val b.val = true) xs ys := by
  rw [← equalNodes_eq f x.node y.node hx hy]
  unfold equalLists
  obtain ⟨b, hb⟩ := equalNodes_some f x.node y.node
  rw [hb]
  simp

/-- **C18**, three-valued equality: `MaybeEqualLists` answers `true` iff all the elements compare `true`, and
`none` iff the first pair that does not compare `true` compares `none`. -/
theorem c18_maybe_equal (f : α → α → Option Bool) (x y : Nodes ε α) {xs ys : List (Thunk ε α)}
    (hx : Seq ⟨x⟩ xs) (hy : Seq ⟨y⟩ ys) :
    (maybeEqualLists f ⟨x⟩ ⟨y⟩ = some true ↔ List.Forall₂ (fun a b => f a.val b.val = some true) xs ys) ∧
    (maybeEqualLists f ⟨x⟩ ⟨y⟩ = none ↔ ∃ ps qs a b ps' qs', xs = ps ++ a :: ps' ∧ ys = qs ++ b :: qs' ∧
      List.Forall₂ (fun a b => f a.val b.val = some true) ps qs ∧ f a.val b.val = none) := by
  unfold maybeEqualLists
  induction x generalizing y xs ys with
  | nil log =>
    rw [seq_nil_iff] at hx
    subst hx
    cases y with
    | nil _ => rw [seq_nil_iff] at hy; subst hy; simp [equalNodes]
    | cons _ _ _ => obtain ⟨zs, rfl, hz⟩ := seq_cons_iff.1 hy; simp [equalNodes]
  | cons log a r ih =>
    obtain ⟨zs, rfl, hz⟩ := seq_cons_iff.1 hx
    cases y with
    | nil _ => rw [seq_nil_iff] at hy; subst hy; simp [equalNodes]
    | cons _ b s =>
      obtain ⟨ws, rfl, hw⟩ := seq_cons_iff.1 hy
      have key : (∃ ps qs a' b' ps' qs', a :: zs = ps ++ a' :: ps' ∧ b :: ws = qs ++ b' :: qs' ∧
          List.Forall₂ (fun a b => f a.val b.val = some true) ps qs ∧ f a'.val b'.val = none) ↔
          f a.val b.val = none ∨ (f a.val b.val = some true ∧ ∃ ps qs a' b' ps' qs', zs = ps ++ a' :: ps' ∧
            ws = qs ++ b' :: qs' ∧
            List.Forall₂ (fun a b => f a.val b.val = some true) ps qs ∧ f a'.val b'.val = none) := by
        constructor
        · rintro ⟨ps, qs, a', b', ps', qs', h1, h2, h3, h4⟩
          cases h3 with
          | nil =>
            simp only [List.nil_append, List.cons.injEq] at h1 h2
            left
            rw [h1.1, h2.1]
            exact h4
          | cons h5 h6 =>
            simp only [List.cons_append, List.cons.injEq] at h1 h2
            right
            exact ⟨by rw [h1.1, h2.1]; exact h5, _, _, a', b', ps', qs', h1.2, h2.2, h6, h4⟩
        · rintro (h | ⟨h, ps, qs, a', b', ps', qs', h1, h2, h3, h4⟩)
          · exact ⟨[], [], a, b, zs, ws, rfl, rfl, .nil, h⟩
          · exact ⟨a :: ps, b :: qs, a', b', ps', qs', by simp [h1], by simp [h2], .cons h h3, h4⟩
      rw [key]
      simp only [equalNodes, List.forall₂_cons]
      rcases hf : f a.val b.val with _ | ⟨_ | _⟩
      · simp
      · simp
      · simpa using ih s hz hw

/-- `[1, 2]` by prepending and by concatenation; the elements and the left list have events. -/
def exampleList : PenList String Nat := prependToList ⟨["one"], 1⟩ (prependToList ⟨["two"], 2⟩ emptyList)

def exampleConcatenation : PenList String Nat :=
  concatenateLists ⟨["left"], prependToList ⟨["one"], 1⟩ emptyList⟩
    (lazyList ⟨["right"], prependToList ⟨["two"], 2⟩ emptyList⟩)

example : Seq exampleList [⟨["one"], 1⟩, ⟨["two"], 2⟩] ∧ Seq exampleConcatenation [⟨["one"], 1⟩, ⟨["two"], 2⟩] :=
  ⟨.cons (log := []) rfl (.cons (log := []) rfl (.nil (log := []) rfl)),
   .cons (log := ["left"]) rfl (.cons (log := ["right"]) rfl (.nil (log := []) rfl))⟩

example : equalLists (fun a b => a == b) exampleList exampleConcatenation = true ∧
    (listSize exampleConcatenation) = (["left", "right"], 2) ∧
    (firstRest exampleConcatenation).1 = ["left"] := by decide

/-! ### C19 for lists -/

/-- The list part of C19 fails: computing the hash of any non-empty list runs into an unreachable branch,
whatever the element type and its hash function are. -/
theorem c19_list_hash_unreachable (combine : BitVec 64 → BitVec 64 → BitVec 64) (hash : α → BitVec 64)
    {l : PenList ε α} {xs : List (Thunk ε α)} (h : Seq l xs) :
    hashList combine (generatedHash hash) l = none ↔ xs ≠ [] := by
  obtain ⟨n⟩ := l
  cases n with
  | nil log => rw [seq_nil_iff] at h; subst h; simp [hashList, hashNode]
  | cons log x r =>
    obtain ⟨zs, rfl, _⟩ := seq_cons_iff.1 h
    simp [hashList, hashNode, generatedHash]

/-- Only empty lists have a hash, and equal ones have the same. -/
theorem c19_list_hash_empty (combine : BitVec 64 → BitVec 64 → BitVec 64) (hash : α → BitVec 64)
    {l : PenList ε α} {a : BitVec 64} (h : hashList combine (generatedHash hash) l = some a) : a = 0 := by
  obtain ⟨n⟩ := l
  cases n with
  | nil log => simp only [hashList, hashNode, Option.some.injEq] at h; exact h.symm
  | cons log x r => simp [hashList, hashNode, generatedHash] at h

/-! ### Debug strings -/

/-- The debug string of a list is the element type, and the debug strings of the elements separated by commas,
in brackets. -/
theorem debugList_eq (ty : List Char) (debug : α → List Char) {l : PenList ε α} {xs : List (Thunk ε α)}
    (h : Seq l xs) (hne : xs ≠ []) :
    debugList ty debug l =
      "[".toList ++ ty ++ (" ".toList ++ (", ".toList).intercalate (xs.map fun x => debug x.val)) ++ "]".toList := by
  have key : ∀ (n : Nodes ε α) (xs : List (Thunk ε α)), Seq ⟨n⟩ xs →
      debugNode debug n = (", ".toList).intercalate (xs.map fun x => debug x.val) := by
    intro n
    induction n with
    | nil log => intro xs h; rw [seq_nil_iff] at h; subst h; simp [debugNode]
    | cons log x r ih =>
      intro xs h
      obtain ⟨zs, rfl, hz⟩ := seq_cons_iff.1 h
      cases r with
      | nil _ => rw [seq_nil_iff] at hz; subst hz; simp [debugNode]
      | cons log' y s =>
        obtain ⟨ws, rfl, hw⟩ := seq_cons_iff.1 hz
        rw [debugNode, ih _ hz]
        · simp [List.intercalate]
        · intro _ h; cases h
  obtain ⟨n⟩ := l
  cases n with
  | nil log => rw [seq_nil_iff] at h; exact absurd h hne
  | cons log x r =>
    unfold debugList
    simp only [key _ _ h]

end Verif.Prelude.Lists
