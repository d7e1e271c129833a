import Verif.Pkg.Byte
/-!
# C43: byte slices and views

Specification: `between s lo hi` is the list of the bytes of `s` whose one-based position `i`
satisfies `lo <= i <= hi`.
-/
namespace Verif.Pkg

/-- The bytes of `s` at the one-based positions `lo, …, hi`. -/
def between (s : Bytes) (lo hi : Nat) : Bytes :=
  ((s.zipIdx 1).filter (fun x => decide (lo ≤ x.2) && decide (x.2 ≤ hi))).map (·.1)

/-- The integral part of a number that is at least zero, with infinity above every position. -/
def Num.position (top : Nat) : Num → Nat
  | .fin q => q.floor.toNat
  | .posInf => top
  | _ => 0

theorem zipIdx_filter (s : Bytes) (lo hi k : Nat) :
    ((s.zipIdx k).filter (fun x => decide (lo ≤ x.2) && decide (x.2 ≤ hi))).map (·.1) =
      (s.drop (lo - k)).take (hi + 1 - max lo k) := by
  induction s generalizing k with
  | nil => simp
  | cons b s ih =>
    rw [List.zipIdx_cons, List.filter_cons]
    by_cases h1 : lo ≤ k
    · by_cases h2 : k ≤ hi
      · rw [if_pos (by simp [h1, h2]), List.map_cons, ih]
        have e1 : lo - (k + 1) = 0 := by omega
        have e2 : lo - k = 0 := by omega
        have e3 : hi + 1 - max lo k = (hi + 1 - max lo (k + 1)) + 1 := by omega
        rw [e1, e2, e3]; simp
      · rw [if_neg (by simp [h2]), ih]
        have e3 : hi + 1 - max lo k = 0 := by omega
        have e4 : hi + 1 - max lo (k + 1) = 0 := by omega
        rw [e3, e4]; simp
    · rw [if_neg (by simp [h1]), ih]
      have e1 : lo - k = (lo - (k + 1)) + 1 := by omega
      have e2 : max lo (k + 1) = max lo k := by omega
      rw [e1, e2]; simp

theorem between_eq (s : Bytes) (lo hi : Nat) :
    between s lo hi = (s.drop (lo - 1)).take (hi + 1 - max lo 1) := zipIdx_filter s lo hi 1

theorem range_eq (s : Bytes) (a b : Nat) (h : a + 1 ≤ b + 1) (hb : b ≤ s.length) :
    range s a b = some (between s (a + 1) b) := by
  rw [range, if_pos ⟨by omega, hb⟩, between_eq]
  congr 2
  omega

theorem between_nil (s : Bytes) (lo hi : Nat) (h : hi < lo ∨ s.length < lo ∨ hi = 0) :
    between s lo hi = [] := by
  rw [between_eq]
  rcases h with h | h | h
  · rw [show hi + 1 - max lo 1 = 0 by omega]; simp
  · rw [List.drop_eq_nil_of_le (by omega)]; simp
  · rw [show hi + 1 - max lo 1 = 0 by omega]; simp

theorem between_top (s : Bytes) (lo hi : Nat) :
    between s lo (min hi s.length) = between s lo hi := by
  rw [between_eq, between_eq]
  by_cases h : hi ≤ s.length
  · rw [Nat.min_eq_left h]
  · rw [Nat.min_eq_right (by omega), List.take_of_length_le, List.take_of_length_le] <;>
      simp <;> omega

theorem Num.toUsize_nat (n : Nat) (h : n ≤ usizeMax) : (Num.nat n).toUsize = n := by
  simp only [nat, toUsize, Rat.floor_intCast]
  simp; omega

/-- Which position `min(end, len)` denotes. -/
theorem end_usize (s : Bytes) (hs : s.length ≤ Num.usizeMax) (e : Num) (hn : e ≠ .nan) :
    (Num.rustMin e (byteLength s)).toUsize = min (e.position s.length) s.length := by
  cases e with
  | nan => exact absurd rfl hn
  | negInf => simp [Num.rustMin, byteLength, Num.nat, Num.lt, Num.toUsize, Num.position]
  | posInf =>
    simp only [Num.rustMin, byteLength, Num.nat, Num.lt, if_true, Num.position, Nat.min_self]
    exact Num.toUsize_nat _ hs
  | fin q =>
    have hr : Num.rustMin (.fin q) (byteLength s) =
        if (Num.nat s.length).lt (.fin q) = true then .nat s.length else .fin q := rfl
    rw [hr]
    simp only [Num.position]
    by_cases h : (Num.nat s.length).lt (.fin q) = true
    · rw [if_pos h]
      simp only [Num.nat, Num.lt] at h ⊢
      rw [show (Num.fin (((s.length : Int)) : Rat)).toUsize = s.length from Num.toUsize_nat _ hs]
      have h' : (((s.length : Int)) : Rat) < q := by simpa using h
      have := Rat.le_floor_iff.mpr (Rat.le_of_lt h')
      omega
    · rw [if_neg h]
      simp only [Num.nat, Num.lt] at h
      have h' : ¬ (((s.length : Int)) : Rat) < q := by simpa using h
      have h2 : q ≤ (((s.length : Int)) : Rat) := Rat.not_lt.mp h'
      have h3 := Rat.floor_monotone h2
      rw [Rat.floor_intCast] at h3
      simp only [Num.toUsize]
      omega

/-- C43: slicing a string from a start index of at least one gives exactly the bytes at the
positions between the integral parts of the indexes, whatever the end index. -/
theorem c43_slice (s : Bytes) (hs : s.length < Num.usizeMax) (a : Rat) (ha : 1 ≤ a) (e : Num) (he : e ≠ .nan) :
    byteSlice s (.fin a) e = some (between s a.floor.toNat (e.position s.length)) := by
  have ha' : (1 : Int) ≤ a.floor := Rat.le_floor_iff.mpr (by simpa using ha)
  unfold byteSlice
  simp only [end_usize s (Nat.le_of_lt hs) e he]
  have e1 : (Num.fin a).toUsize = min a.floor.toNat Num.usizeMax := rfl
  rw [e1, ← between_top]
  split
  · rename_i h
    congr 1
    refine (between_nil _ _ _ ?_).symm
    omega
  · rename_i h
    rw [if_neg (by simp only [Num.usizeMax]; omega)]
    rw [range_eq _ _ _ (by omega) (by omega)]
    congr 2
    omega

/-- C43: an infinite start index gives the empty string. -/
theorem c43_slice_infinite (s : Bytes) (hs : s.length < Num.usizeMax) (e : Num) (he : e ≠ .nan) :
    byteSlice s .posInf e = some [] := by
  unfold byteSlice
  simp only [end_usize s (by omega) e he]
  rw [if_pos]
  exact Or.inr (Or.inl (by simpa [Num.toUsize] using hs))

/-- C43, exact panics: a slice panics exactly when the string is not empty, the start index is
below one or not a number, and the end index is at least one or not a number.  So the claim that
slices are clamped to the string is false for start indexes below one (see
`c43_slice_start_zero`). -/
theorem c43_slice_panics_iff (s : Bytes) (hs : s.length ≤ Num.usizeMax) (a e : Num) :
    byteSlice s a e = none ↔ s ≠ [] ∧ a.toUsize = 0 ∧ (e = .nan ∨ 1 ≤ e.position 1) := by
  have hu : 1 ≤ Num.usizeMax := by decide
  unfold byteSlice
  have key : (Num.rustMin e (byteLength s)).toUsize = 0 ↔ (s = [] ∨ (e ≠ .nan ∧ e.position 1 = 0)) := by
    by_cases he : e = .nan
    · subst he
      simp only [Num.rustMin, byteLength, Num.toUsize_nat _ hs]
      simp
    · rw [end_usize s hs e he]
      have : e.position s.length = 0 ↔ (e.position 1 = 0 ∨ (e = .posInf ∧ s = [])) := by
        cases e <;> simp [Num.position]
      simp only [Nat.min_eq_zero_iff, this, List.length_eq_zero_iff]
      constructor
      · rintro ((h | ⟨h, h'⟩) | h)
        · exact Or.inr ⟨he, h⟩
        · exact Or.inl h'
        · exact Or.inl h
      · rintro (h | ⟨_, h⟩)
        · exact Or.inr h
        · exact Or.inl (Or.inl h)
  have le : (Num.rustMin e (byteLength s)).toUsize ≤ s.length := by
    by_cases he : e = .nan
    · subst he
      simp only [Num.rustMin, byteLength, Num.toUsize_nat _ hs]
      omega
    · rw [end_usize s hs e he]; omega
  simp only
  constructor
  · intro h
    split at h
    · simp at h
    · rename_i h1
      have h2 : a.toUsize = 0 := by
        apply Classical.byContradiction; intro h2
        rw [if_neg h2, range, if_pos ⟨by omega, le⟩] at h
        simp at h
      have h3 : ¬ (s = [] ∨ (e ≠ .nan ∧ e.position 1 = 0)) := by rw [← key]; omega
      refine ⟨fun h => h3 (Or.inl h), h2, ?_⟩
      by_cases he : e = .nan
      · exact Or.inl he
      · refine Or.inr ?_
        have : e.position 1 ≠ 0 := fun h => h3 (Or.inr ⟨he, h⟩)
        omega
  · rintro ⟨h1, h2, h3⟩
    have h4 : (Num.rustMin e (byteLength s)).toUsize ≠ 0 := by
      rw [Ne, key]
      rintro (h | ⟨h, h'⟩)
      · exact h1 h
      · rcases h3 with h3 | h3
        · exact h h3
        · omega
    rw [if_neg (by omega), if_pos h2]

/-- C43 is false for a start index of zero: `Byte'Slice("hi", 0, 1)` panics instead of giving a
slice. -/
theorem c43_slice_start_zero : byteSlice [104, 105] (.nat 0) (.nat 1) = none := by decide +kernel

example : byteSlice [104, 101, 108, 108, 111] (.nat 2) (.nat 4) = some [101, 108, 108] := by decide +kernel
example : byteSlice [104, 101, 108, 108, 111] (.nat 2) .posInf = some [101, 108, 108, 111] := by decide +kernel
example : (1 : Rat) ≤ 5 / 2 ∧ (Num.int (-3)) ≠ .nan := by decide +kernel

/-! ## Views -/

/-- A view with start and end positions `i`, `j` inside its string. -/
structure View.At (v : View) (i j : Nat) : Prop where
  start : v.start = .nat i
  fin : v.fin = .nat j
  one : 1 ≤ i
  order : i ≤ j + 1
  inside : j ≤ v.value.length
  size : v.value.length < Num.usizeMax

/-- What a view shows: a view is sound if its positions lie inside its string, and then shows the
bytes at these positions. -/
def View.Shows (v : View) (s : Bytes) : Prop := ∃ i j, v.At i j ∧ s = between v.value i j

theorem At_new (s : Bytes) (hs : s.length < Num.usizeMax) : (View.new s).At 1 s.length :=
  ⟨rfl, rfl, by omega, by omega, Nat.le_refl _, hs⟩

theorem between_all (s : Bytes) : between s 1 s.length = s := by
  rw [between_eq]; simp

theorem between_length (s : Bytes) (i j : Nat) (h1 : 1 ≤ i) (h : j ≤ s.length) :
    (between s i j).length = j + 1 - i := by
  rw [between_eq]; simp; omega

/-- C43: a new view shows its string. -/
theorem c43_view_new (s : Bytes) (hs : s.length < Num.usizeMax) : (View.new s).Shows s :=
  ⟨1, s.length, At_new s hs, (between_all s).symm⟩

theorem Num.int_sub (a b : Int) : (Num.int a).sub (Num.int b) = Num.int (a - b) := by
  simp only [int, sub, neg, add, Rat.intCast_sub]
  congr 1; rw [Rat.sub_eq_add_neg]

theorem Num.int_add (a b : Int) : (Num.int a).add (Num.int b) = Num.int (a + b) := by
  simp only [int, add, Rat.intCast_add]

theorem Num.int_minimum (a b : Int) : Num.minimum (Num.int a) (Num.int b) = Num.int (min a b) := by
  simp only [int, minimum, lt, reduceCtorEq, or_self, if_false, decide_eq_true_eq, Rat.intCast_lt_intCast]
  split
  · rw [Int.min_eq_left (by omega)]
  · rw [Int.min_eq_right (by omega)]

theorem Num.nat_eq (n : Nat) : Num.nat n = Num.int n := rfl

/-- C43: the length of a view is the number of bytes it shows. -/
theorem c43_view_length (v : View) (s : Bytes) (h : v.Shows s) : v.length = .nat s.length := by
  obtain ⟨i, j, h, rfl⟩ := h
  rw [between_length _ _ _ h.one h.inside, View.length, h.start, h.fin]
  rw [Num.nat_eq, Num.nat_eq, Num.nat_eq, Num.nat_eq, Num.int_sub, Num.int_add]
  have := h.order
  congr 1; omega

/-- C43: converting a view into a string never panics and gives the bytes it shows. -/
theorem c43_view_to_string (v : View) (s : Bytes) (h : v.Shows s) : v.toString = some s := by
  obtain ⟨i, j, h, rfl⟩ := h
  have h1 := h.one; have h2 := h.order; have h3 := h.inside; have h4 := h.size
  rw [View.toString, h.start, h.fin, Num.toUsize_nat _ (by omega), Num.toUsize_nat _ (by omega)]
  rw [if_neg (by omega), range_eq _ _ _ (by omega) h3, show i - 1 + 1 = i by omega]

/-- C43: checking a prefix of a view never panics and looks only at the bytes it shows. -/
theorem c43_view_starts_with (v : View) (s : Bytes) (h : v.Shows s) (p : Bytes) :
    v.startsWith p = some (p.isPrefixOf s) := by
  obtain ⟨i, j, h, rfl⟩ := h
  have h1 := h.one; have h2 := h.order; have h3 := h.inside; have h4 := h.size
  rw [View.startsWith, h.start, h.fin, Num.toUsize_nat _ (by omega), Num.toUsize_nat _ (by omega)]
  rw [if_neg (by omega), range_eq _ _ _ (by omega) (by omega), show i - 1 + 1 = i by omega]
  simp only [Option.map_some, Option.some.injEq]
  have e : between v.value i (min (i - 1 + p.length) j) = (between v.value i j).take p.length := by
    rw [between_eq, between_eq, List.take_take]
    congr 1; omega
  rw [e, Bool.eq_iff_iff, List.isPrefixOf_iff_prefix, beq_iff_eq, List.prefix_iff_eq_take]
  exact eq_comm

/-- An end index for slices of views: a natural number or infinity. -/
inductive End
  | nat (n : Nat)
  | infinity

/-- The number. -/
def End.num : End → Num
  | .nat n => .nat n
  | .infinity => .posInf

/-- The largest position. -/
def End.upTo (top : Nat) : End → Nat
  | .nat n => n
  | .infinity => top

theorem between_between (s : Bytes) (i j a b : Nat) (hi : 1 ≤ i) (ha : 1 ≤ a) :
    between (between s i j) a b = between s (i + a - 1) (min (i + b - 1) j) := by
  simp only [between_eq, List.drop_take, List.drop_drop, List.take_take]
  rw [show i + a - 1 - 1 = i - 1 + (a - 1) by omega]
  congr 1; omega

theorem slice_min (v : View) (i j : Nat) (h : v.At i j) (a : Nat) (e : End) :
    v.slice (.nat a) e.num =
      { value := v.value
        start := .int (min ((i : Int) + a - 1) (min ((i : Int) + e.upTo j - 1) j + 1))
        fin := .int (min ((i : Int) + e.upTo j - 1) j) } := by
  have h1 := h.one
  have hE : Num.minimum ((v.start.add e.num).sub (.nat 1)) v.fin =
      .int (min ((i : Int) + e.upTo j - 1) j) := by
    rw [h.start, h.fin]
    cases e with
    | nat n =>
      simp only [End.num, End.upTo, Num.nat_eq, Num.int_add, Num.int_sub, Num.int_minimum]; rfl
    | infinity =>
      simp only [End.num, End.upTo]
      rw [Int.min_eq_right (by omega)]
      simp [Num.nat, Num.add, Num.sub, Num.neg, Num.minimum, Num.lt, Num.int]
  rw [View.slice]
  simp only [hE]
  congr 1
  rw [h.start]
  simp only [Num.nat_eq, Num.int_add, Num.int_sub, Num.int_minimum]; rfl

/-- C43: a slice of a view from a position of at least one shows the bytes of the view between
the given positions, clamped to the view. -/
theorem c43_view_slice (v : View) (s : Bytes) (h : v.Shows s) (a : Nat) (ha : 1 ≤ a) (e : End) :
    (v.slice (.nat a) e.num).Shows (between s a (e.upTo s.length)) := by
  obtain ⟨i, j, h, rfl⟩ := h
  have h1 := h.one; have h2 := h.order; have h3 := h.inside; have h4 := h.size
  rw [between_length _ _ _ h1 h3]
  have hu : min ((i : Int) + e.upTo j - 1) j = ((min (i + e.upTo (j + 1 - i) - 1) j : Nat) : Int) := by
    cases e with
    | nat n => simp only [End.upTo]; omega
    | infinity => simp only [End.upTo]; omega
  rw [slice_min v i j h, hu, between_between _ _ _ _ _ h1 ha]
  refine ⟨min (i + a - 1) (min (i + e.upTo (j + 1 - i) - 1) j + 1), min (i + e.upTo (j + 1 - i) - 1) j,
    ⟨?_, rfl, ?_, ?_, ?_, h4⟩, ?_⟩
  · simp only [Num.nat_eq]; congr 1; omega
  · omega
  · omega
  · simp only; omega
  · simp only
    by_cases hle : i + a - 1 ≤ min (i + e.upTo (j + 1 - i) - 1) j + 1
    · rw [Nat.min_eq_left hle]
    · rw [between_nil _ _ _ (Or.inl (by omega)), between_nil _ _ _ (Or.inl (by omega))]

/-- C43: seeking in a view drops the given number of bytes. -/
theorem c43_view_seek (v : View) (s : Bytes) (h : v.Shows s) (n : Nat) : (v.seek (.nat n)).Shows (s.drop n) := by
  have := c43_view_slice v s h (n + 1) (by omega) .infinity
  have e : between s (n + 1) s.length = s.drop n := by
    rw [between_eq, List.take_of_length_le]
    · simp
    · simp
  simp only [End.upTo, e] at this
  rw [View.seek, show (Num.nat n).add (.nat 1) = Num.nat (n + 1) by
    simp only [Num.nat_eq, Num.int_add]; rfl]
  exact this

/-- C43 is false for views and a start index below one: the slice shows bytes of the string
before the view. Here the view shows `b` of `abc`, and its slice from -1 to 1 shows `a` too. -/
theorem c43_view_slice_escapes :
    let v := (View.new [97, 98, 99]).slice (.nat 2) (.nat 2)
    v.toString = some [98] ∧ (v.slice (.nat 0) (.nat 1)).toString = some [97, 98] := by decide +kernel

/-- C43 is false for views and an end index below zero: using the slice panics. -/
theorem c43_view_slice_panics :
    ((View.new [97, 98, 99]).slice (.nat 1) (.int (-1))).toString = none := by decide +kernel

example : ((View.new [97, 98, 99]).slice (.nat 2) .posInf).Shows [98, 99] :=
  c43_view_slice _ _ (c43_view_new [97, 98, 99] (by decide)) 2 (by decide) .infinity
example : ((View.new [97, 98, 99]).seek (.nat 1)).startsWith [98] = some true := by decide +kernel

/-- `String'StartsWith` decides the prefix relation. -/
theorem c43_starts_with (s p : Bytes) : startsWith s p = true ↔ p <+: s := by
  unfold startsWith
  rw [Bool.and_eq_true, decide_eq_true_iff, beq_iff_eq, List.prefix_iff_eq_take]
  constructor
  · exact fun h => h.2.symm
  · intro h
    refine ⟨?_, h.symm⟩
    have := congrArg List.length h
    rw [List.length_take] at this
    omega

end Verif.Pkg
