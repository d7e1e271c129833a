import Verif.Pkg.Utf8

/-! Lemmas about UTF-8: it is prefix free, and the beginning of a character can be told from its first byte. -/
namespace Verif.Pkg.Utf8

@[simp] theorem encode_nil : encode [] = [] := rfl
@[simp] theorem encode_cons (c : Char) (cs : List Char) : encode (c :: cs) = String.utf8EncodeChar c ++ encode cs := rfl
@[simp] theorem encode_append (a b : List Char) : encode (a ++ b) = encode a ++ encode b := List.flatMap_append

theorem encodeChar_pos (c : Char) : 0 < (String.utf8EncodeChar c).length := by
  rw [String.length_utf8EncodeChar]; exact c.utf8Size_pos

theorem encode_eq_nil {cs : List Char} : encode cs = [] ↔ cs = [] := by
  cases cs with
  | nil => simp
  | cons c cs =>
    have := encodeChar_pos c
    simp only [encode_cons, List.append_eq_nil_iff, reduceCtorEq, iff_false]
    rintro ⟨h, _⟩
    rw [h] at this; simp at this

theorem decodeChar_encode (c : Char) (t : Bytes) : (String.utf8EncodeChar c ++ t).toByteArray.utf8DecodeChar? 0 = some c := by
  rw [List.toByteArray_append]
  exact ByteArray.utf8DecodeChar?_utf8EncodeChar_append

theorem char_prefix {c d : Char} {s t : Bytes} (h : String.utf8EncodeChar c ++ s = String.utf8EncodeChar d ++ t) : c = d ∧ s = t := by
  have h1 := decodeChar_encode c s
  rw [h, decodeChar_encode d t] at h1
  have e : d = c := Option.some.inj h1
  subst e
  exact ⟨rfl, List.append_cancel_left h⟩

theorem encode_injective {a b : List Char} (h : encode a = encode b) : a = b := by
  induction a generalizing b with
  | nil => exact (encode_eq_nil.1 h.symm).symm
  | cons c a ih =>
    cases b with
    | nil => exact absurd (encode_eq_nil.1 h) (by simp)
    | cons d b =>
      obtain ⟨rfl, h'⟩ := char_prefix (c := c) (d := d) h
      rw [ih h']

theorem decodeN_encode (cs : List Char) (n : Nat) (h : (encode cs).length ≤ n) : decodeN n (encode cs) = some cs := by
  induction cs generalizing n with
  | nil => cases n <;> rfl
  | cons c cs ih =>
    have hp := encodeChar_pos c
    rw [encode_cons, List.length_append] at h
    cases n with
    | zero => omega
    | succ n =>
      rw [encode_cons]
      have hne : String.utf8EncodeChar c ++ encode cs ≠ [] := by
        intro e
        have := congrArg List.length e
        rw [List.length_append] at this
        simp only [List.length_nil] at this
        omega
      rw [decodeN]
      · rw [decodeChar_encode]
        simp only
        rw [← String.length_utf8EncodeChar, List.drop_left, ih n (by omega), Option.map_some]
      · exact hne

theorem decode_encode (cs : List Char) : decode (encode cs) = some cs := decodeN_encode cs _ (Nat.le_refl _)

theorem decodeN_sound {n : Nat} {s : Bytes} {cs : List Char} (h : decodeN n s = some cs) : s = encode cs := by
  induction n generalizing s cs with
  | zero =>
    cases s with
    | nil => rw [decodeN] at h; cases h; rfl
    | cons b s => rw [decodeN] at h; cases h; simp
  | succ n ih =>
    cases s with
    | nil => rw [decodeN] at h; cases h; rfl
    | cons b s =>
      rw [decodeN] at h
      · cases hc : (b :: s).toByteArray.utf8DecodeChar? 0 with
        | none => rw [hc] at h; cases h
        | some c =>
          rw [hc] at h
          simp only [Option.map_eq_some_iff] at h
          obtain ⟨cs', h1, rfl⟩ := h
          have h2 := ih h1
          have h3 := String.toByteArray_utf8EncodeChar_of_utf8DecodeChar?_eq_some hc
          have h4 : String.utf8EncodeChar c = (b :: s).take c.utf8Size := by
            have h5 := congrArg (fun x : ByteArray => x.data.toList) h3
            simpa [ByteArray.data_extract] using h5
          rw [encode_cons, ← h2, h4, List.take_append_drop]
      · simp

theorem decode_sound {s : Bytes} {cs : List Char} (h : decode s = some cs) : s = encode cs := decodeN_sound h

theorem decode_iff {s : Bytes} {cs : List Char} : decode s = some cs ↔ s = encode cs :=
  ⟨decode_sound, fun h => h ▸ decode_encode cs⟩

/-- Prefixes of characters are prefixes of bytes. -/
theorem prefix_iff {p s : List Char} : encode p <+: encode s ↔ p <+: s := by
  constructor
  · intro ⟨t, h⟩
    induction p generalizing s with
    | nil => exact List.nil_prefix
    | cons c p ih =>
      cases s with
      | nil =>
        simp only [encode_nil] at h
        exact absurd (encode_eq_nil.1 (List.append_eq_nil_iff.1 h).1) (by simp)
      | cons d s =>
        rw [encode_cons, encode_cons, List.append_assoc] at h
        obtain ⟨rfl, h'⟩ := char_prefix h
        obtain ⟨u, hu⟩ := ih h'
        exact ⟨u, by rw [List.cons_append, hu]⟩
  · rintro ⟨t, rfl⟩
    exact ⟨encode t, (encode_append _ _).symm⟩

/-- A byte that can begin a character does. -/
theorem boundary {s : List Char} {i : Nat} {b : UInt8} (h : (encode s)[i]? = some b) (hb : b.IsUTF8FirstByte) :
    ∃ k, k < s.length ∧ i = (encode (s.take k)).length := by
  induction s generalizing i with
  | nil => simp at h
  | cons c s ih =>
    rw [encode_cons] at h
    rcases Nat.lt_or_ge i (String.utf8EncodeChar c).length with hi | hi
    · rw [List.getElem?_append_left hi, List.getElem?_eq_getElem hi] at h
      have e := Option.some.inj h
      rw [← e, UInt8.isUTF8FirstByte_getElem_utf8EncodeChar] at hb
      exact ⟨0, by simp, by simpa using hb⟩
    · rw [List.getElem?_append_right hi] at h
      obtain ⟨k, hk, e⟩ := ih h
      refine ⟨k + 1, by simp; omega, ?_⟩
      rw [List.take_succ_cons, encode_cons, List.length_append]
      omega

theorem first_byte (c : Char) (t : Bytes) : ∃ b, (String.utf8EncodeChar c ++ t)[0]? = some b ∧ b.IsUTF8FirstByte := by
  have hp := encodeChar_pos c
  refine ⟨_, by rw [List.getElem?_append_left hp, List.getElem?_eq_getElem hp], ?_⟩
  exact UInt8.isUTF8FirstByte_getElem_zero_utf8EncodeChar

theorem encode_take_drop (s : List Char) (k : Nat) : encode (s.take k) ++ encode (s.drop k) = encode s := by
  rw [← encode_append, List.take_append_drop]

theorem drop_encode (s : List Char) (k : Nat) : (encode s).drop (encode (s.take k)).length = encode (s.drop k) := by
  rw [← encode_take_drop s k, List.drop_left]

theorem take_encode (s : List Char) (k : Nat) : (encode s).take (encode (s.take k)).length = encode (s.take k) := by
  conv => lhs; rw [← encode_take_drop s k]
  rw [List.take_left]

/-- Where a pattern occurs in bytes, it occurs in characters. -/
theorem occurrence {p s : List Char} (hp : p ≠ []) {i : Nat} (h : encode p <+: (encode s).drop i) :
    ∃ k, k < s.length ∧ i = (encode (s.take k)).length ∧ p <+: s.drop k := by
  cases p with
  | nil => exact absurd rfl hp
  | cons c p =>
    obtain ⟨t, ht⟩ := h
    obtain ⟨b, h1, h2⟩ := first_byte c (encode p ++ t)
    rw [← List.append_assoc, ← encode_cons, ht, List.getElem?_drop] at h1
    obtain ⟨k, hk, e⟩ := boundary h1 h2
    refine ⟨k, hk, by simpa using e, ?_⟩
    rw [← prefix_iff]
    rw [show i = (encode (s.take k)).length by simpa using e, drop_encode] at ht
    exact ⟨t, ht⟩

theorem occurrence_iff {p s : List Char} (k : Nat) :
    encode p <+: (encode s).drop (encode (s.take k)).length ↔ p <+: s.drop k := by
  rw [drop_encode, prefix_iff]

theorem length_take_mono (s : List Char) {j k : Nat} (hjk : j < k) (hk : k ≤ s.length) :
    (encode (s.take j)).length < (encode (s.take k)).length := by
  have h : s.take k = s.take j ++ (s.drop j).take (k - j) := by
    rw [← List.take_append_drop j (s.take k), List.take_take, Nat.min_eq_left (Nat.le_of_lt hjk), List.drop_take]
  rw [h, encode_append, List.length_append]
  have hne : (s.drop j).take (k - j) ≠ [] := by
    intro e
    have := congrArg List.length e
    rw [List.length_take, List.length_drop, List.length_nil] at this
    omega
  have h0 : (encode ((s.drop j).take (k - j))).length ≠ 0 := fun e => hne (encode_eq_nil.1 (List.length_eq_zero_iff.1 e))
  omega

end Verif.Pkg.Utf8
