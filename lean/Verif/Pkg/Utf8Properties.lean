import Verif.Pkg.Utf8Lemmas

/-!
C61: functions of strings agree with those of sequences of characters. `encode cs` is the string with the characters `cs`; a
string is valid if it is one of them.
-/
namespace Verif.Pkg.Utf8

/-! ### Specification -/

/-- The pattern `p` occurs in `s` first at index `k`. -/
def FirstAt {α : Type} (p s : List α) (k : Nat) : Prop := p <+: s.drop k ∧ k ≤ s.length ∧ ∀ j, j < k → ¬ p <+: s.drop j

/-- `parts` are what is left of `s` when occurrences of `p` are removed, one after the other from the left. -/
inductive Splits {α : Type} (p : List α) : List α → List (List α) → Prop
  | last {s : List α} : ¬ p <:+: s → Splits p s [s]
  | cons {a s : List α} {parts : List (List α)} : FirstAt p (a ++ p ++ s) a.length → Splits p s parts →
      Splits p (a ++ p ++ s) (a :: parts)

/-- Strings with a separator between them. -/
def between {α : Type} (sep : List α) : List (List α) → List α
  | [] => []
  | [s] => s
  | s :: ss => s ++ sep ++ between sep ss

def repeated {α : Type} (p : List α) : Nat → List α
  | 0 => []
  | n + 1 => p ++ repeated p n

/-- Not a string of UTF-8. -/
def Invalid (s : Bytes) : Prop := ∀ cs, s ≠ encode cs

/-! ### Lemmas -/

theorem invalid_iff {s : Bytes} : Invalid s ↔ decode s = none := by
  constructor
  · intro h
    cases hd : decode s with
    | none => rfl
    | some cs => exact absurd (decode_sound hd) (h cs)
  · intro h cs e
    rw [e, decode_encode] at h; cases h

theorem valid_of_not {s : Bytes} (h : ¬ Invalid s) : ∃ cs, s = encode cs := by
  cases hd : decode s with
  | none => exact absurd (invalid_iff.2 hd) h
  | some cs => exact ⟨cs, decode_sound hd⟩

theorem infix_iff {α : Type} {p s : List α} : p <:+: s ↔ ∃ k, p <+: s.drop k := by
  constructor
  · rintro ⟨a, b, rfl⟩
    exact ⟨a.length, b, by rw [List.append_assoc, List.drop_left]⟩
  · rintro ⟨k, b, h⟩
    exact ⟨s.take k, b, by rw [List.append_assoc, h, List.take_append_drop]⟩

theorem FirstAt.unique {α : Type} {p s : List α} {j k : Nat} (hj : FirstAt p s j) (hk : FirstAt p s k) : j = k := by
  rcases Nat.lt_trichotomy j k with h | h | h
  · exact absurd hj.1 (hk.2.2 j h)
  · exact h
  · exact absurd hk.1 (hj.2.2 k h)

theorem findBytes_some {p s : Bytes} {i : Nat} (h : findBytes p s = some i) : FirstAt p s i := by
  induction s generalizing i with
  | nil =>
    rw [findBytes] at h
    split at h
    · rename_i e; cases h; exact ⟨by simp [e], by simp, by simp⟩
    · cases h
  | cons b s ih =>
    rw [findBytes] at h
    split at h
    · rename_i e
      cases h
      exact ⟨by simpa using List.isPrefixOf_iff_prefix.1 e, by simp, by simp⟩
    · rename_i e
      rw [Option.map_eq_some_iff] at h
      obtain ⟨i, h, rfl⟩ := h
      obtain ⟨h1, h2, h3⟩ := ih h
      refine ⟨by simpa using h1, by simp; omega, fun j hj => ?_⟩
      cases j with
      | zero => intro hp; exact e (List.isPrefixOf_iff_prefix.2 (by simpa using hp))
      | succ j => simpa using h3 j (by omega)

theorem findBytes_none {p s : Bytes} (h : findBytes p s = none) : ¬ p <:+: s := by
  induction s with
  | nil =>
    rw [findBytes] at h
    split at h
    · cases h
    · rename_i e; simpa using e
  | cons b s ih =>
    rw [findBytes] at h
    split at h
    · cases h
    · rename_i e
      rw [Option.map_eq_none_iff] at h
      rw [infix_iff]
      rintro ⟨k, hk⟩
      cases k with
      | zero => exact e (List.isPrefixOf_iff_prefix.2 (by simpa using hk))
      | succ k => exact ih h (infix_iff.2 ⟨k, by simpa using hk⟩)

theorem findBytes_isSome {p s : Bytes} : (findBytes p s).isSome = true ↔ p <:+: s := by
  cases h : findBytes p s with
  | none => simpa using findBytes_none h
  | some i => simpa using infix_iff.2 ⟨i, (findBytes_some h).1⟩

/-- The first occurrence in bytes is the first one in characters. -/
theorem first_bytes {p s : List Char} {i : Nat} (h : FirstAt (encode p) (encode s) i) :
    ∃ k, FirstAt p s k ∧ i = (encode (s.take k)).length := by
  by_cases hp : p = []
  · subst hp
    have : i = 0 := by
      rcases Nat.eq_zero_or_pos i with h0 | h0
      · exact h0
      · exact absurd (by simp) (h.2.2 0 h0)
    subst this
    exact ⟨0, ⟨by simp, by simp, by simp⟩, by simp⟩
  · obtain ⟨k, hk, e, hpre⟩ := occurrence hp h.1
    refine ⟨k, ⟨hpre, Nat.le_of_lt hk, fun j hj hp' => ?_⟩, e⟩
    refine h.2.2 (encode (s.take j)).length ?_ ((occurrence_iff j).2 hp')
    rw [e]; exact length_take_mono s hj (Nat.le_of_lt hk)

theorem infix_encode {p s : List Char} : encode p <:+: encode s ↔ p <:+: s := by
  constructor
  · intro h
    by_cases hp : p = []
    · subst hp; exact List.nil_infix
    · obtain ⟨i, hi⟩ := infix_iff.1 h
      obtain ⟨k, _, _, hk⟩ := occurrence hp hi
      exact infix_iff.2 ⟨k, hk⟩
  · rintro ⟨a, b, rfl⟩
    exact ⟨encode a, encode b, by simp⟩

theorem suffix_encode {p s : List Char} : encode p <:+ encode s ↔ p <:+ s := by
  constructor
  · rintro ⟨t, h⟩
    by_cases hp : p = []
    · subst hp; exact List.nil_suffix
    · obtain ⟨k, _, e, _⟩ := occurrence (p := p) (s := s) (i := t.length) hp (by rw [← h, List.drop_left]; exact List.prefix_rfl)
      have h1 := drop_encode s k
      rw [← e, ← h, List.drop_left] at h1
      rw [encode_injective h1]
      exact List.drop_suffix k s
  · rintro ⟨a, rfl⟩
    exact ⟨encode a, by simp⟩

theorem charIndices_get (o : Nat) (cs : List Char) (k : Nat) (hk : k < cs.length) :
    (charIndices o cs)[k]? = some (o + (encode (cs.take k)).length, cs[k]) := by
  induction cs generalizing o k with
  | nil => simp at hk
  | cons c cs ih =>
    cases k with
    | zero => simp [charIndices]
    | succ k =>
      simp only [charIndices, List.getElem?_cons_succ, List.take_succ_cons, encode_cons, List.length_append,
        String.length_utf8EncodeChar, List.getElem_cons_succ]
      rw [ih _ k (by simpa using hk)]
      simp only [Option.some.injEq, Prod.mk.injEq, and_true]
      omega

theorem charIndices_length (o : Nat) (cs : List Char) : (charIndices o cs).length = cs.length := by
  induction cs generalizing o with
  | nil => rfl
  | cons c cs ih => simp [charIndices, ih]

theorem charIndices_find (cs : List Char) (k : Nat) (hk : k < cs.length) :
    (charIndices 0 cs).findIdx? (·.1 == (encode (cs.take k)).length) = some k := by
  rw [List.findIdx?_eq_some_iff_getElem]
  have hl := charIndices_length 0 cs
  have hget : ∀ j (hj : j < cs.length), (charIndices 0 cs)[j]'(by omega) = (0 + (encode (cs.take j)).length, cs[j]) := by
    intro j hj
    have := charIndices_get 0 cs j hj
    rw [List.getElem?_eq_getElem (by omega)] at this
    exact Option.some.inj this
  refine ⟨by omega, ?_, ?_⟩
  · rw [hget k hk]; simp
  · intro j hj
    rw [hget j (by omega)]
    have := length_take_mono cs hj (Nat.le_of_lt hk)
    simp only [Nat.zero_add, Bool.not_eq_true, beq_eq_false_iff_ne, ne_eq]
    omega

theorem byteIndex_encode (cs : List Char) (k : Nat) : byteIndex (encode cs) cs k = (encode (cs.take k)).length := by
  unfold byteIndex
  rcases Nat.lt_or_ge k cs.length with h | h
  · rw [charIndices_get 0 cs k h]; simp
  · rw [List.getElem?_eq_none (by rw [charIndices_length]; exact h), List.take_of_length_le h]

/-! ### Theorems -/

/-- The characters of a valid string; there are none of an invalid one. -/
theorem c61_characters (cs : List Char) : characters (encode cs) = cs.map (fun c => encode [c]) := by
  simp only [characters, decode_encode]
  exact List.map_congr_left fun c _ => by simp

theorem c61_characters_invalid {s : Bytes} (h : Invalid s) : characters s = [] := by
  simp [characters, invalid_iff.1 h]

/-- The length of a valid string is the number of its characters. -/
theorem c61_length (cs : List Char) : length (encode cs) = .nat cs.length := by
  simp [length, decode_encode]

theorem c61_length_invalid {s : Bytes} (h : Invalid s) : length s = .nan := by
  simp [length, invalid_iff.1 h]

theorem c61_starts_with (s p : List Char) : startsWith (encode s) (encode p) = true ↔ p <+: s := by
  simp only [startsWith, decode_encode, List.isPrefixOf_iff_prefix, prefix_iff]

theorem c61_ends_with (s p : List Char) : endsWith (encode s) (encode p) = true ↔ p <:+ s := by
  simp only [endsWith, decode_encode, List.isSuffixOf_iff_suffix, suffix_encode]

theorem c61_contains (s p : List Char) : contains (encode s) (encode p) = true ↔ p <:+: s := by
  simp only [contains, decode_encode, findBytes_isSome, infix_encode]

theorem lt_nat (n : Nat) : Num.lt (.nat n) (.nat 0) = false := by
  simp only [Num.lt, Num.nat, decide_eq_false_iff_not, Rat.not_lt]
  exact Rat.intCast_le_intCast.2 (by omega)

theorem lt_nat_max {j : Nat} (h : j < 2 ^ 64) : Num.lt (.nat (2 ^ 64)) (.nat j) = false := by
  simp only [Num.lt, Num.nat, decide_eq_false_iff_not, Rat.not_lt]
  exact Rat.intCast_le_intCast.2 (by omega)

/-- `Find` results in the index, counted from 1, of the first occurrence of a pattern. Missing: the empty pattern in the empty
string, see `c61_find_empty`. -/
theorem c61_find_partial (s p : List Char) (h : p ≠ [] ∨ s ≠ []) (n : Num) :
    find (encode s) (encode p) = some n ↔ ∃ k, FirstAt p s k ∧ n = .nat (k + 1) := by
  unfold find findNumber findIndex
  simp only [decode_encode]
  cases hf : findBytes (encode p) (encode s) with
  | none =>
    have hn : ¬ p <:+: s := fun h => findBytes_none hf (infix_encode.2 h)
    constructor
    · intro h
      simp only at h
      rw [if_pos (by decide +kernel)] at h; cases h
    · rintro ⟨k, hk, _⟩; exact absurd (infix_iff.2 ⟨k, hk.1⟩) hn
  | some i =>
    obtain ⟨k, hk, e⟩ := first_bytes (findBytes_some hf)
    have hlt : k < s.length := by
      rcases Nat.lt_or_ge k s.length with h' | h'
      · exact h'
      · exfalso
        have hke : k = s.length := Nat.le_antisymm hk.2.1 h'
        have hp := hk.1
        rw [hke, List.drop_length] at hp
        have hp := List.prefix_nil.1 hp
        subst hp
        have : k = 0 := by
          rcases Nat.eq_zero_or_pos k with h0 | h0
          · exact h0
          · exact absurd List.nil_prefix (hk.2.2 0 h0)
        rcases h with h | h
        · exact h rfl
        · exact h (List.length_eq_zero_iff.1 (by omega))
    subst e
    simp only [charIndices_find s k hlt, lt_nat, Bool.false_eq_true, if_false, Option.some.injEq]
    constructor
    · rintro rfl; exact ⟨k, hk, rfl⟩
    · rintro ⟨k', hk', rfl⟩; rw [hk.unique hk']

/-- `Find` results in `none` if the pattern does not occur. -/
theorem c61_find_none (s p : List Char) (h : ¬ p <:+: s) : find (encode s) (encode p) = none := by
  unfold find findNumber findIndex
  simp only [decode_encode]
  cases hf : findBytes (encode p) (encode s) with
  | none => simp only; rw [if_pos (by decide +kernel)]
  | some i => exact absurd (infix_encode.1 (infix_iff.2 ⟨i, (findBytes_some hf).1⟩)) h

/-- The empty string contains the empty string, but `Find` does not find it. -/
theorem c61_find_empty : contains [] [] = true ∧ find [] [] = none := by
  constructor <;> decide +kernel

/-! Slices -/

/-- The characters of `cs` from index `a`, counted from 0, to before index `b`. -/
def sub (cs : List Char) (a b : Nat) : List Char := (cs.take b).drop a

theorem boundary_encode (cs : List Char) (k : Nat) : isBoundary (encode cs) (encode (cs.take k)).length := by
  rcases Nat.lt_or_ge k cs.length with h | h
  · right
    obtain ⟨b, h1, h2⟩ := first_byte cs[k] (encode (cs.drop (k + 1)))
    refine ⟨b, ?_, h2⟩
    rw [← encode_cons, ← List.drop_eq_getElem_cons h, ← drop_encode, List.getElem?_drop] at h1
    simpa using h1
  · left; rw [List.take_of_length_le h]

theorem strRange_encode (cs : List Char) {a b : Nat} (h : a ≤ b) :
    strRange (encode cs) (encode (cs.take a)).length (encode (cs.take b)).length = some (encode (sub cs a b)) := by
  have e : cs.take b = cs.take a ++ sub cs a b := by
    unfold sub
    conv => lhs; rw [← List.take_append_drop a (cs.take b)]
    rw [List.take_take, Nat.min_eq_left h]
  have e2 : encode cs = encode (cs.take a) ++ (encode (sub cs a b) ++ encode (cs.drop b)) := by
    rw [← List.append_assoc, ← encode_append, ← e, encode_take_drop]
  unfold strRange range
  rw [if_pos ⟨boundary_encode cs a, boundary_encode cs b⟩, if_pos]
  · rw [drop_encode]
    congr 1
    have e3 : cs.drop a = sub cs a b ++ cs.drop b := by
      have := congrArg (List.drop a) (List.take_append_drop b cs)
      rw [List.drop_append] at this
      rcases Nat.lt_or_ge cs.length b with hb | hb
      · unfold sub; rw [List.take_of_length_le (Nat.le_of_lt hb), List.drop_of_length_le (Nat.le_of_lt hb), List.append_nil]
      · rw [List.length_take, Nat.min_eq_left hb, Nat.sub_eq_zero_of_le h, List.drop_zero] at this
        exact this.symm
    rw [e3, encode_append, e, encode_append, List.length_append, Nat.add_sub_cancel_left, List.take_left]
  · constructor
    · rw [e, encode_append, List.length_append]; omega
    · have := congrArg List.length (encode_take_drop cs b)
      rw [List.length_append] at this; omega

/-- `Slice` never fails, whatever numbers it is given; it results in a range of characters. -/
theorem c61_slice_total (cs : List Char) (start fin : Num) :
    ∃ a b, slice (encode cs) start fin = some (encode (sub cs a b)) := by
  unfold slice
  simp only [decode_encode]
  generalize (rustMax (start.sub (.nat 1)) (.nat 0)).toUsize = a
  generalize (Num.rustMin fin (.nat (2 ^ 64))).toUsize = b
  split
  · exact ⟨0, 0, by simp [sub]⟩
  · rename_i h
    simp only [not_or, Nat.not_le, ge_iff_le] at h
    rw [byteIndex_encode, byteIndex_encode]
    exact ⟨a, b, strRange_encode cs (Nat.le_of_lt h.2.2)⟩

theorem c61_slice_invalid {s : Bytes} (h : Invalid s) (start fin : Num) : slice s start fin = some [] := by
  simp [slice, invalid_iff.1 h]

theorem toUsize_nat (n : Nat) : (Num.nat n).toUsize = min n Num.usizeMax := by
  simp [Num.toUsize, Num.nat]

/-- With positive whole numbers, it results in the characters from the first index to the second one, counted from 1, as far
as there are any. -/
theorem c61_slice (cs : List Char) (hc : cs.length < 2 ^ 64) (i j : Nat) (hi : 1 ≤ i) (hj : j < 2 ^ 64) :
    slice (encode cs) (.nat i) (.nat j) = some (encode ((cs.take j).drop (i - 1))) := by
  have ha : (rustMax ((Num.nat i).sub (.nat 1)) (.nat 0)).toUsize = min (i - 1) Num.usizeMax := by
    have h1 : (Num.nat i).sub (.nat 1) = .nat (i - 1) := by
      simp only [Num.sub, Num.nat, Num.neg, Num.add]
      congr 1
      have : ((i - 1 : Nat) : Int) = (i : Int) - 1 := by omega
      rw [this, Rat.intCast_sub]
      rw [Rat.sub_eq_add_neg]; rfl
    rw [h1, ← toUsize_nat]
    unfold rustMax
    simp only [Num.nat]
    have := lt_nat (i - 1)
    simp only [Num.nat] at this
    rw [this]; rfl
  have hb : (Num.rustMin (.nat j) (.nat (2 ^ 64))).toUsize = j := by
    have h1 : Num.rustMin (.nat j) (.nat (2 ^ 64)) = .nat j := by
      have := lt_nat_max hj
      unfold Num.rustMin
      simp only [Num.nat] at this ⊢
      rw [this]; rfl
    rw [h1, toUsize_nat, Num.usizeMax]; omega
  unfold slice
  simp only [decode_encode, ha, hb]
  split
  · rename_i h
    rw [Num.usizeMax] at h
    congr 1
    symm
    rw [encode_eq_nil]
    rcases h with h | h | h
    · rw [encode_eq_nil.1 h]; simp
    · exact List.drop_of_length_le (by rw [List.length_take]; omega)
    · exact List.drop_of_length_le (by rw [List.length_take]; omega)
  · rename_i h
    simp only [not_or, Nat.not_le, ge_iff_le] at h
    have e : min (i - 1) Num.usizeMax = i - 1 := by
      rw [Num.usizeMax] at h ⊢; omega
    rw [e] at h ⊢
    rw [byteIndex_encode, byteIndex_encode, strRange_encode cs (Nat.le_of_lt h.2.2)]
    rfl

theorem floor_nonpos {q : Rat} (h : q < 0) : q.floor.toNat = 0 := by
  have : q.floor ≤ 0 := by
    rcases Int.lt_or_le 0 q.floor with h0 | h0
    · exact absurd h (Rat.not_lt.2 (Rat.le_floor_iff.1 (Int.le_of_lt h0)))
    · exact h0
  omega

theorem sliceStart (q : Rat) : (rustMax ((Num.fin q).sub (.nat 1)) (.nat 0)).toUsize = min (q - 1).floor.toNat Num.usizeMax := by
  have h1 : (Num.fin q).sub (.nat 1) = .fin (q - 1) := by
    simp only [Num.sub, Num.nat, Num.neg, Num.add]
    congr 1
    rw [Rat.sub_eq_add_neg]; rfl
  rw [h1]
  by_cases h : q - 1 < (((0 : Nat) : Int) : Rat)
  · have e : rustMax (.fin (q - 1)) (.nat 0) = .nat 0 := if_pos (decide_eq_true h)
    rw [e, toUsize_nat, floor_nonpos (q := q - 1) h]
  · have e : rustMax (.fin (q - 1)) (.nat 0) = .fin (q - 1) := if_neg fun h' => h (of_decide_eq_true h')
    rw [e]; rfl

theorem sliceEnd (q : Rat) : (Num.rustMin (.fin q) (.nat (2 ^ 64))).toUsize = min q.floor.toNat Num.usizeMax := by
  by_cases h : (((2 ^ 64 : Nat) : Int) : Rat) < q
  · have e : Num.rustMin (.fin q) (.nat (2 ^ 64)) = .nat (2 ^ 64) := if_pos (decide_eq_true h)
    have h2 : ((2 ^ 64 : Nat) : Int) ≤ q.floor := Rat.le_floor_iff.2 (Rat.le_of_lt h)
    have h3 : 2 ^ 64 ≤ q.floor.toNat := by omega
    rw [e, toUsize_nat, Num.usizeMax]; omega
  · have e : Num.rustMin (.fin q) (.nat (2 ^ 64)) = .fin q := if_neg fun h' => h (of_decide_eq_true h')
    rw [e]; rfl

/-- With any finite numbers, the indices are rounded down, and those before the first character mean the first character. -/
theorem c61_slice_finite (cs : List Char) (hc : cs.length < 2 ^ 64) (q r : Rat) :
    slice (encode cs) (.fin q) (.fin r) = some (encode ((cs.take r.floor.toNat).drop (q - 1).floor.toNat)) := by
  unfold slice
  simp only [decode_encode, sliceStart, sliceEnd]
  generalize (q - 1).floor.toNat = a
  generalize r.floor.toNat = b
  split
  · rename_i h
    rw [Num.usizeMax] at h
    congr 1
    symm
    rw [encode_eq_nil]
    rcases h with h | h | h
    · rw [encode_eq_nil.1 h]; simp
    · exact List.drop_of_length_le (by rw [List.length_take]; omega)
    · exact List.drop_of_length_le (by rw [List.length_take]; omega)
  · rename_i h
    simp only [not_or, Nat.not_le, ge_iff_le] at h
    have e : min a Num.usizeMax = a := by
      rw [Num.usizeMax] at h ⊢; omega
    rw [e] at h ⊢
    rw [byteIndex_encode, byteIndex_encode, strRange_encode cs (Nat.le_of_lt h.2.2)]
    unfold sub
    rcases Nat.le_total b Num.usizeMax with hb | hb
    · rw [Nat.min_eq_left hb]
    · rw [Nat.min_eq_right hb, List.take_of_length_le (by rw [Num.usizeMax]; omega),
        List.take_of_length_le (by rw [Num.usizeMax] at hb; omega)]

/-! Splitting, joining and replacing -/

theorem between_cons {α : Type} (sep : List α) (s : List α) {ss : List (List α)} (h : ss ≠ []) :
    between sep (s :: ss) = s ++ sep ++ between sep ss := by
  cases ss with
  | nil => exact absurd rfl h
  | cons => rfl

theorem Splits.ne_nil {α : Type} {p s : List α} {ps : List (List α)} (h : Splits p s ps) : ps ≠ [] := by
  cases h <;> simp

/-- Parts with the pattern between them are the whole. -/
theorem Splits.join {α : Type} {p s : List α} {ps : List (List α)} (h : Splits p s ps) : between p ps = s := by
  induction h with
  | last _ => rfl
  | cons _ h ih => rw [between_cons _ _ h.ne_nil, ih]

/-- There is only one way to split. -/
theorem Splits.unique {α : Type} {p s : List α} {ps qs : List (List α)} (h : Splits p s ps) (h' : Splits p s qs) : ps = qs := by
  induction h generalizing qs with
  | last hn =>
    cases h' with
    | last => rfl
    | cons hf _ => exact absurd (infix_iff.2 ⟨_, hf.1⟩) hn
  | @cons a s parts hf _ ih =>
    generalize e : a ++ p ++ s = t at h'
    cases h' with
    | last hn => subst e; exact absurd (infix_iff.2 ⟨_, hf.1⟩) hn
    | @cons a' s' parts' hf' h' =>
      rw [e] at hf
      have hl := hf.unique hf'
      rw [List.append_assoc, List.append_assoc] at e
      obtain ⟨e1, e2⟩ := List.append_inj e hl
      have e3 := List.append_cancel_left e2
      subst e1; subst e3
      rw [ih h']

/-- No part contains the pattern. -/
theorem Splits.parts {α : Type} {p s : List α} {ps : List (List α)} (hp : p ≠ []) (h : Splits p s ps) : ∀ q ∈ ps, ¬ p <:+: q := by
  induction h with
  | last hn => intro q hq; simp only [List.mem_singleton] at hq; exact hq ▸ hn
  | @cons a s parts hf _ ih =>
    intro q hq
    rcases List.mem_cons.1 hq with rfl | hq
    · intro hi
      obtain ⟨k, hk⟩ := infix_iff.1 hi
      have hlt : k < q.length := by
        rcases Nat.lt_or_ge k q.length with h | h
        · exact h
        · rw [List.drop_of_length_le h] at hk; exact absurd (List.prefix_nil.1 hk) hp
      refine hf.2.2 k hlt ?_
      rw [List.append_assoc, List.drop_append_of_le_length (Nat.le_of_lt hlt)]
      exact hk.trans (List.prefix_append _ _)
    · exact ih q hq

theorem splitN_encode {p : List Char} (hp : p ≠ []) (n : Nat) (s : List Char) (h : (encode s).length ≤ n) :
    ∃ ps, Splits p s ps ∧ splitN (encode p) n (encode s) = ps.map encode ∧
      ∀ r, replaceN (encode p) r n (encode s) = between r (ps.map encode) := by
  induction n generalizing s with
  | zero =>
    have : s = [] := encode_eq_nil.1 (List.length_eq_zero_iff.1 (by omega))
    subst this
    exact ⟨[[]], .last (by simpa using hp), rfl, fun _ => rfl⟩
  | succ n ih =>
    rw [splitN]
    simp only [replaceN]
    cases hf : findBytes (encode p) (encode s) with
    | none => exact ⟨[s], .last fun h => findBytes_none hf (infix_encode.2 h), rfl, fun _ => rfl⟩
    | some i =>
      obtain ⟨k, hk, e⟩ := first_bytes (findBytes_some hf)
      obtain ⟨s', hs'⟩ := hk.1
      have es : s = s.take k ++ p ++ s' := by
        rw [List.append_assoc, hs', List.take_append_drop]
      have hl : (s.take k).length = k := by rw [List.length_take]; exact Nat.min_eq_left hk.2.1
      have ed : (encode s).drop (i + (encode p).length) = encode s' := by
        conv => lhs; rw [es]
        rw [e, ← List.length_append, ← encode_append, encode_append (_ ++ _), List.drop_left]
      have hpos : 0 < (encode p).length := List.length_pos_iff.2 fun h => hp (encode_eq_nil.1 h)
      obtain ⟨ps, h1, h2, h3⟩ := ih s' (by
        have := congrArg List.length ed
        rw [List.length_drop] at this; omega)
      refine ⟨s.take k :: ps, ?_, ?_, fun r => ?_⟩
      · have hc : Splits p (s.take k ++ p ++ s') (s.take k :: ps) := .cons (by rw [← es, hl]; exact hk) h1
        rw [← es] at hc
        exact hc
      · simp only [List.map_cons]
        rw [ed, h2, e, take_encode]
      · simp only [List.map_cons]
        rw [ed, h3, e, take_encode, between_cons]
        simpa using h1.ne_nil

/-- `Split` removes occurrences of the pattern from the left. -/
theorem c61_split {p : List Char} (hp : p ≠ []) (s : List Char) :
    ∃ ps, Splits p s ps ∧ split (encode s) (encode p) = ps.map encode := by
  obtain ⟨ps, h1, h2, _⟩ := splitN_encode hp _ s (Nat.le_refl _)
  refine ⟨ps, h1, ?_⟩
  simp only [split, decode_encode, strSplit]
  rw [if_neg fun h => hp (encode_eq_nil.1 h), h2]

/-- By the empty string, it splits between characters. -/
theorem c61_split_empty (s : List Char) : split (encode s) [] = [] :: s.map (fun c => encode [c]) ++ [[]] := by
  have hd : decode [] = some [] := decode_encode []
  simp only [split, decode_encode, hd, strSplit, if_true]
  congr 2
  exact List.map_congr_left fun c _ => by simp

theorem c61_split_invalid {s p : Bytes} (h : Invalid s ∨ Invalid p) : split s p = [s] := by
  unfold split
  rcases h with h | h
  · rw [invalid_iff.1 h]
  · rw [invalid_iff.1 h]; cases decode s <;> rfl

theorem appendStrings_eq (b ss : List Bytes) : appendStrings b ss = b ++ ss := by
  induction ss generalizing b with
  | nil => simp [appendStrings]
  | cons s ss ih => rw [appendStrings, ih]; simp

theorem joinBytes_eq (sep : Bytes) (ss : List Bytes) : joinBytes sep ss = between sep ss := by
  induction ss with
  | nil => rfl
  | cons s ss ih => cases ss with
    | nil => rfl
    | cons t ss => rw [joinBytes, ih]; rfl; simp

/-- `Join` puts the separator between strings, valid or not. -/
theorem c61_join (ss : List Bytes) (sep : Bytes) : join ss sep = between sep ss := by
  rw [join, appendStrings_eq, joinBytes_eq]; rfl

theorem c61_concatenate (ss : List Bytes) : concatenate ss = ss.flatten := by
  rw [concatenate, c61_join]
  induction ss with
  | nil => rfl
  | cons s ss ih => cases ss with
    | nil => simp [between]
    | cons t ss => rw [between_cons _ _ (by simp), ih]; simp

theorem between_encode (p : List Char) (ps : List (List Char)) : between (encode p) (ps.map encode) = encode (between p ps) := by
  induction ps with
  | nil => rfl
  | cons s ss ih => cases ss with
    | nil => rfl
    | cons t ss =>
      rw [between_cons p s (by simp), List.map_cons, between_cons _ _ (by simp), ih]
      simp

theorem flatten_singletons (s : List Char) : (s.map (fun c => encode [c])).flatten = encode s := by
  induction s with
  | nil => rfl
  | cons c s ih => simp only [List.map_cons, List.flatten_cons, ih]; simp

/-- A string split by a pattern and joined with it is the same string, whatever bytes both are. -/
theorem c61_split_join (s p : Bytes) : join (split s p) p = s := by
  rw [c61_join]
  by_cases hs : Invalid s
  · rw [c61_split_invalid (Or.inl hs)]; rfl
  by_cases hp : Invalid p
  · rw [c61_split_invalid (Or.inr hp)]; rfl
  obtain ⟨cs, rfl⟩ := valid_of_not hs
  obtain ⟨ps, rfl⟩ := valid_of_not hp
  by_cases he : ps = []
  · subst he
    rw [encode_nil, c61_split_empty, ← c61_join, ← concatenate, c61_concatenate]
    simp only [List.cons_append, List.flatten_cons, List.flatten_append, List.nil_append, flatten_singletons]
    simp
  · obtain ⟨qs, h1, h2⟩ := c61_split he cs
    rw [h2, between_encode, h1.join]

/-- `Replace` puts the replacement where `Split` removes the pattern. -/
theorem c61_replace (s p r : List Char) : replace (encode s) (encode p) (encode r) = join (split (encode s) (encode p)) (encode r) := by
  rw [c61_join]
  simp only [replace, split, decode_encode, strReplace, strSplit]
  by_cases hp : p = []
  · subst hp
    simp only [encode_nil, if_true, List.cons_append]
    rw [between_cons _ _ (by simp), List.nil_append]
    congr 1
    induction s with
    | nil => rfl
    | cons c s ih =>
      simp only [List.flatMap_cons, List.map_cons, List.cons_append]
      rw [between_cons _ _ (by simp), ih]
  · have : encode p ≠ [] := fun h => hp (encode_eq_nil.1 h)
    rw [if_neg this, if_neg this]
    obtain ⟨ps, _, h2, h3⟩ := splitN_encode hp _ s (Nat.le_refl _)
    rw [h2, h3]

theorem c61_replace_invalid {s p r : Bytes} (h : Invalid s ∨ Invalid p ∨ Invalid r) : replace s p r = s := by
  unfold replace
  rcases h with h | h | h
  · rw [invalid_iff.1 h]
  · rw [invalid_iff.1 h]; cases decode s <;> rfl
  · rw [invalid_iff.1 h]; cases decode s <;> cases decode p <;> rfl

/-! Trimming -/

theorem trimStartN_encode {p : List Char} (hp : p ≠ []) (n : Nat) (s : List Char) (h : (encode s).length ≤ n) :
    ∃ k t, s = repeated p k ++ t ∧ ¬ p <+: t ∧ trimStartN (encode p) n (encode s) = encode t := by
  induction n generalizing s with
  | zero =>
    have : s = [] := encode_eq_nil.1 (List.length_eq_zero_iff.1 (by omega))
    subst this
    exact ⟨0, [], rfl, by simpa using hp, rfl⟩
  | succ n ih =>
    rw [trimStartN]
    by_cases hpre : p <+: s
    · rw [if_pos ⟨fun h => hp (encode_eq_nil.1 h), List.isPrefixOf_iff_prefix.2 (prefix_iff.2 hpre)⟩]
      obtain ⟨s', rfl⟩ := hpre
      rw [encode_append, List.drop_left]
      have hpos : 0 < (encode p).length := List.length_pos_iff.2 fun h => hp (encode_eq_nil.1 h)
      obtain ⟨k, t, e, h1, h2⟩ := ih s' (by rw [encode_append, List.length_append] at h; omega)
      exact ⟨k + 1, t, by rw [repeated, List.append_assoc, ← e], h1, h2⟩
    · rw [if_neg fun h => hpre (prefix_iff.1 (List.isPrefixOf_iff_prefix.1 h.2))]
      exact ⟨0, s, rfl, hpre, rfl⟩

theorem repeated_comm {α : Type} (p : List α) (k : Nat) : repeated p k ++ p = repeated p (k + 1) := by
  induction k with
  | zero => simp [repeated]
  | succ k ih => rw [repeated, List.append_assoc, ih]; rfl

theorem trimEndN_encode {p : List Char} (hp : p ≠ []) (n : Nat) (s : List Char) (h : (encode s).length ≤ n) :
    ∃ k t, s = t ++ repeated p k ∧ ¬ p <:+ t ∧ trimEndN (encode p) n (encode s) = encode t := by
  induction n generalizing s with
  | zero =>
    have : s = [] := encode_eq_nil.1 (List.length_eq_zero_iff.1 (by omega))
    subst this
    exact ⟨0, [], rfl, by simpa using hp, rfl⟩
  | succ n ih =>
    rw [trimEndN]
    by_cases hsuf : p <:+ s
    · rw [if_pos ⟨fun h => hp (encode_eq_nil.1 h), List.isSuffixOf_iff_suffix.2 (suffix_encode.2 hsuf)⟩]
      obtain ⟨s', rfl⟩ := hsuf
      rw [encode_append, List.length_append, Nat.add_sub_cancel, List.take_left]
      have hpos : 0 < (encode p).length := List.length_pos_iff.2 fun h => hp (encode_eq_nil.1 h)
      obtain ⟨k, t, e, h1, h2⟩ := ih s' (by rw [encode_append, List.length_append] at h; omega)
      exact ⟨k + 1, t, by rw [← repeated_comm, ← List.append_assoc, ← e], h1, h2⟩
    · rw [if_neg fun h => hsuf (suffix_encode.1 (List.isSuffixOf_iff_suffix.1 h.2))]
      exact ⟨0, s, by simp [repeated], hsuf, rfl⟩

/-- `TrimStartMatches` removes occurrences of the pattern from the beginning until there is none. -/
theorem c61_trim_start {p : List Char} (hp : p ≠ []) (s : List Char) :
    ∃ k t, s = repeated p k ++ t ∧ ¬ p <+: t ∧ trimStartMatches (encode s) (encode p) = encode t := by
  obtain ⟨k, t, h1, h2, h3⟩ := trimStartN_encode hp _ s (Nat.le_refl _)
  exact ⟨k, t, h1, h2, by simp only [trimStartMatches, decode_encode, h3]⟩

theorem c61_trim_end {p : List Char} (hp : p ≠ []) (s : List Char) :
    ∃ k t, s = t ++ repeated p k ∧ ¬ p <:+ t ∧ trimEndMatches (encode s) (encode p) = encode t := by
  obtain ⟨k, t, h1, h2, h3⟩ := trimEndN_encode hp _ s (Nat.le_refl _)
  exact ⟨k, t, h1, h2, by simp only [trimEndMatches, decode_encode, h3]⟩

/-- `TrimMatches` does both: of the result, neither end is the pattern. -/
theorem c61_trim {p : List Char} (hp : p ≠ []) (s : List Char) :
    ∃ j k t, s = repeated p j ++ t ++ repeated p k ∧ ¬ p <+: t ∧ ¬ p <:+ t ∧ trimMatches (encode s) (encode p) = encode t := by
  obtain ⟨j, t, h1, h2, h3⟩ := c61_trim_start hp s
  obtain ⟨k, u, h4, h5, h6⟩ := c61_trim_end hp t
  refine ⟨j, k, u, by rw [List.append_assoc, ← h4, ← h1], fun h => h2 ?_, h5, by rw [trimMatches, h3, h6]⟩
  rw [h4]; exact h.trans (List.prefix_append _ _)

theorem c61_trim_empty (s : Bytes) : trimStartMatches s [] = s ∧ trimEndMatches s [] = s := by
  have h1 : ∀ n s, trimStartN [] n s = s := fun n s => by cases n <;> simp [trimStartN]
  have h2 : ∀ n s, trimEndN [] n s = s := fun n s => by cases n <;> simp [trimEndN]
  unfold trimStartMatches trimEndMatches
  constructor
  · split <;> simp [h1]
  · split <;> simp [h2]

theorem c61_trim_invalid {s p : Bytes} (h : Invalid s ∨ Invalid p) : trimStartMatches s p = s ∧ trimEndMatches s p = s := by
  unfold trimStartMatches trimEndMatches
  rcases h with h | h
  · rw [invalid_iff.1 h]; exact ⟨rfl, rfl⟩
  · rw [invalid_iff.1 h]; cases decode s <;> exact ⟨rfl, rfl⟩

/-! Code points -/

theorem toU32_char (c : Char) : toU32 (.nat c.toNat) = c.toNat := by
  have : c.toNat < 2 ^ 32 := c.val.toNat_lt
  simp [toU32, Num.nat]; omega

/-- The code point of a character, and back. -/
theorem c61_code_point (c : Char) :
    fromCodePoint (.nat c.toNat) = encode [c] ∧ toCodePoint (encode [c]) = .nat c.toNat := by
  constructor
  · unfold fromCodePoint
    rw [dif_pos (by rw [toU32_char]; exact c.valid)]
    have : Char.ofNatAux (toU32 (.nat c.toNat)) (by rw [toU32_char]; exact c.valid) = c := by
      apply Char.ext
      apply UInt32.toNat.inj
      simpa [Char.ofNatAux] using toU32_char c
    rw [this]; simp
  · unfold toCodePoint; rw [decode_encode]

/-- The code point of a string is the one of its first character. -/
theorem c61_to_code_point (c : Char) (cs : List Char) : toCodePoint (encode (c :: cs)) = .nat c.toNat := by
  unfold toCodePoint; rw [decode_encode]

/-- There is none of the empty string and of an invalid one. -/
theorem c61_to_code_point_none {s : Bytes} (h : s = [] ∨ Invalid s) : toCodePoint s = .nan := by
  unfold toCodePoint
  rcases h with rfl | h
  · rfl
  · rw [invalid_iff.1 h]

/-- A natural number that is not a code point of a character results in the empty string. -/
theorem c61_from_code_point_none (n : Nat) (h : ∀ c : Char, c.toNat ≠ n) : fromCodePoint (.nat n) = [] := by
  unfold fromCodePoint
  split
  · rename_i hv
    exfalso
    have e : toU32 (.nat n) = min n (2 ^ 32 - 1) := by simp [toU32, Num.nat]
    have hlt : toU32 (.nat n) < 0x110000 := by
      rcases hv with h | h
      · omega
      · exact h.2
    have en : toU32 (.nat n) = n := by omega
    refine h (Char.ofNatAux _ hv) ?_
    exact en
  · rfl

/-- Numbers that are no code points may result in characters: negative ones and "not a number" in the character 0. -/
theorem c61_from_code_point_bad : fromCodePoint (.int (-1)) = [0] ∧ fromCodePoint .nan = [0] := by
  constructor <;> decide +kernel

/-! ### Examples -/

/-- The string `aéb`. -/
def sample : List Char := ['a', 'é', 'b']

example : encode sample = [97, 195, 169, 98] := by decide +kernel
example : length (encode sample) = .nat 3 := by decide +kernel
example : find (encode sample) (encode ['b']) = some (.nat 3) := by decide +kernel
example : ∃ k, FirstAt ['b'] sample k ∧ Num.nat 3 = .nat (k + 1) :=
  (c61_find_partial sample ['b'] (Or.inl (by simp)) (.nat 3)).1 (by decide +kernel)
example : slice (encode sample) (.nat 2) (.nat 2) = some [195, 169] := by decide +kernel
example : split (encode sample) (encode ['é']) = [[97], [98]] := by decide +kernel
example : replace (encode sample) (encode ['é']) (encode ['e']) = [97, 101, 98] := by decide +kernel
example : trimMatches (encode ['é', 'a', 'é', 'é']) (encode ['é']) = [97] := by decide +kernel
example : ¬ ['x'] <:+: sample := by decide
/-- Not UTF-8: the second byte of `é` alone. -/
theorem invalid_sample : Invalid [169] := invalid_iff.2 (by decide +kernel)
example : length [169] = .nan := c61_length_invalid invalid_sample
example : join (split [169, 97, 169] [97]) [97] = [169, 97, 169] := c61_split_join _ _
/-- A surrogate is no character. -/
example : fromCodePoint (.nat 0xD800) = [] := by decide +kernel
example : toCodePoint (encode sample) = .nat 97 := c61_to_code_point _ _
/-- The index 2.5 means the second character. -/
example : slice (encode sample) (.fin (5 / 2)) (.fin 3) = some (encode ['é', 'b']) := by decide +kernel

end Verif.Pkg.Utf8
