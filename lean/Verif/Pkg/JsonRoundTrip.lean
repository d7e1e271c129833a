import Verif.Pkg.JsonProperties
/-!
# C41: decoding what was encoded

The encoder and decoder agree on all values except for some strings and numbers, and the exact
set of strings is given (`StringOk`).
-/
namespace Verif.Pkg.Json

/-- The strings that survive encoding and decoding: a UTF-8 string without backslashes; or a
string that is not UTF-8, has no quotes and does not end with a backslash. -/
def StringOk (s : Bytes) : Prop :=
  if validUtf8 s = true then bBackslash ∉ s else bQuote ∉ s ∧ s.getLast? ≠ some bBackslash

/-- The numbers that survive: their text is a number text and reads back as the number. -/
def NumberOk {N : Type} (enc : N → Bytes) (dec : Bytes → N) (n : N) : Prop :=
  NumberText (enc n) ∧ dec (enc n) = n

section
variable {N : Type}

mutual
/-- All strings and keys in a value. -/
def strings : Json N → List Bytes
  | .str s => [s]
  | .arr vs => stringsList vs
  | .obj es => stringsEntries es
  | _ => []
/-- All strings in a list of values. -/
def stringsList : List (Json N) → List Bytes
  | [] => []
  | v :: vs => strings v ++ stringsList vs
/-- All strings and keys in entries. -/
def stringsEntries : List (Bytes × Json N) → List Bytes
  | [] => []
  | (k, v) :: es => k :: strings v ++ stringsEntries es
end

mutual
/-- All numbers in a value. -/
def numbers : Json N → List N
  | .num n => [n]
  | .arr vs => numbersList vs
  | .obj es => numbersEntries es
  | _ => []
/-- All numbers in a list of values. -/
def numbersList : List (Json N) → List N
  | [] => []
  | v :: vs => numbers v ++ numbersList vs
/-- All numbers in entries. -/
def numbersEntries : List (Bytes × Json N) → List N
  | [] => []
  | (_, v) :: es => numbers v ++ numbersEntries es
end

mutual
/-- The keys of every object in a value are distinct, as they are in every map. -/
def Maps : Json N → Prop
  | .arr vs => MapsList vs
  | .obj es => (es.map (·.1)).Nodup ∧ MapsEntries es
  | _ => True
/-- All values of a list. -/
def MapsList : List (Json N) → Prop
  | [] => True
  | v :: vs => Maps v ∧ MapsList vs
/-- All values of entries. -/
def MapsEntries : List (Bytes × Json N) → Prop
  | [] => True
  | (_, v) :: es => Maps v ∧ MapsEntries es
end
end

/-! ## Strings -/

/-- Escaping of quotes. -/
def escQuote (b : UInt8) : Bytes := if b = bQuote then [bBackslash, bQuote] else [b]

/-- Escaping of backslashes. -/
def escBackslash (b : UInt8) : Bytes := if b = bBackslash then [bBackslash, bBackslash] else [b]

theorem valid_cons (a : UInt8) (r : Bytes) (h : a < 0x80) : validUtf8 (a :: r) = validUtf8 r := by
  rw [validUtf8.eq_def]; simp only [if_pos h]

/-- Doubling the backslashes of a UTF-8 string gives a UTF-8 string. -/
theorem valid_doubled (n : Nat) : ∀ s : Bytes, s.length ≤ n → validUtf8 s = true → validUtf8 (s.flatMap escBackslash) = true := by
  induction n with
  | zero =>
    intro s hs _
    rw [List.length_eq_zero_iff.mp (Nat.le_zero.mp hs)]; rfl
  | succ n ih =>
    intro s hs h
    have ne : ∀ {b : UInt8}, ¬ b < 0x80 → escBackslash b = [b] := by
      intro b hb
      unfold escBackslash
      rw [if_neg]; rintro rfl; exact hb (by decide)
    have big : ∀ {lo hi b : UInt8}, 0x80 ≤ lo → inRange lo hi b = true → ¬ b < 0x80 := by
      intro lo hi b h1 h2
      simp only [inRange, Bool.and_eq_true, decide_eq_true_eq] at h2
      exact UInt8.not_lt.mpr (UInt8.le_trans h1 h2.1)
    match s, hs, h with
    | [], _, _ => rfl
    | a :: r, hs, h =>
      simp only [List.length_cons] at hs
      by_cases ha : a < 0x80
      · rw [valid_cons _ _ ha] at h
        have := ih r (by omega) h
        rw [List.flatMap_cons]
        unfold escBackslash
        split
        · rename_i hb; simp only [List.cons_append, List.nil_append]
          rw [valid_cons _ _ (by decide), valid_cons _ _ (by decide)]; exact this
        · simp only [List.cons_append, List.nil_append]
          rw [valid_cons _ _ ha]; exact this
      · rw [List.flatMap_cons, ne ha]
        rw [validUtf8.eq_def] at h
        simp only [if_neg ha] at h
        match r, hs, h with
        | b :: r, hs, h =>
          simp only [List.length_cons] at hs
          simp only at h
          split at h
          · rename_i h1
            have hb : ¬ b < 0x80 := big (by decide) (Bool.and_eq_true _ _ ▸ h1).2
            have := ih r (by omega) h
            rw [List.flatMap_cons, ne hb, validUtf8.eq_def]
            simp only [List.cons_append, List.nil_append, if_neg ha, if_pos h1]
            exact this
          · rename_i h1
            match r, hs, h with
            | c :: r, hs, h =>
              simp only [List.length_cons] at hs
              simp only at h
              split at h
              · rename_i h2
                have h2' := h2
                simp only [Bool.and_eq_true, Bool.or_eq_true] at h2'
                have hc : ¬ c < 0x80 := big (by decide) h2'.2
                have hb : ¬ b < 0x80 := by
                  rcases h2'.1 with ((h | h) | h) | h <;> exact big (by decide) h.2
                have := ih r (by omega) h
                rw [List.flatMap_cons, List.flatMap_cons, ne hb, ne hc, validUtf8.eq_def]
                simp only [List.cons_append, List.nil_append, if_neg ha, if_neg h1, if_pos h2]
                exact this
              · rename_i h2
                match r, hs, h with
                | d :: r, hs, h =>
                  simp only [List.length_cons] at hs
                  simp only at h
                  split at h
                  · rename_i h3
                    have h3' := h3
                    simp only [Bool.and_eq_true, Bool.or_eq_true] at h3'
                    have hd : ¬ d < 0x80 := big (by decide) h3'.2
                    have hc : ¬ c < 0x80 := big (by decide) h3'.1.2
                    have hb : ¬ b < 0x80 := by
                      rcases h3'.1.1 with (h | h) | h <;> exact big (by decide) h.2
                    have := ih r (by omega) h
                    rw [List.flatMap_cons, List.flatMap_cons, List.flatMap_cons, ne hb, ne hc, ne hd, validUtf8.eq_def]
                    simp only [List.cons_append, List.nil_append, if_neg ha, if_neg h1, if_neg h2, if_pos h3]
                    exact this
                  · cases h

theorem escape_invalid (s : Bytes) (h : ¬ validUtf8 s = true) : escape s = s := by
  unfold escape replaceByte
  rw [if_neg h, if_neg h]

theorem escape_valid (s : Bytes) (h : validUtf8 s = true) : escape s = (s.flatMap escBackslash).flatMap escQuote := by
  unfold escape
  have e : replaceByte bBackslash [bBackslash, bBackslash] s = s.flatMap escBackslash := by
    unfold replaceByte; rw [if_pos h]; rfl
  rw [e]
  unfold replaceByte
  rw [if_pos (valid_doubled _ s (Nat.le_refl _) h)]; rfl

theorem noBackslash (s : Bytes) (h : bBackslash ∉ s) : s.flatMap escBackslash = s := by
  induction s with
  | nil => rfl
  | cons b s ih =>
    rw [List.flatMap_cons, ih (fun hm => h (by simp [hm])), escBackslash, if_neg]
    · rfl
    · rintro rfl; exact h (by simp)

theorem body_quotes (s : Bytes) (h : bBackslash ∉ s) : StringBody (s.flatMap escQuote) s := by
  induction s with
  | nil => exact .nil
  | cons b s ih =>
    have ih := ih (fun hm => h (by simp [hm]))
    rw [List.flatMap_cons, escQuote]
    split
    · rename_i hb; subst hb; exact .quote ih
    · rename_i hb
      refine .plain hb ?_ ih
      rintro rfl; exact absurd (List.mem_cons_self ..) h

theorem body_raw (s : Bytes) (h1 : bQuote ∉ s) (h2 : s.getLast? ≠ some bBackslash) : StringBody s s := by
  induction s with
  | nil => exact .nil
  | cons b s ih =>
    refine .plain (fun e => h1 (by simp [e])) ?_ ?_
    · rintro rfl
      cases s with
      | nil => exact absurd rfl h2
      | cons c s => exact ⟨c, s, rfl, fun e => h1 (by simp [e])⟩
    · cases s with
      | nil => exact .nil
      | cons c s =>
        refine ih (fun hm => h1 (List.mem_cons_of_mem _ hm)) ?_
        rwa [List.getLast?_cons_cons] at h2

theorem body_escape (s : Bytes) (h : StringOk s) : StringBody (escape s) s := by
  unfold StringOk at h
  split at h
  · rename_i hv
    rw [escape_valid s hv, noBackslash s h]
    exact body_quotes s h
  · rename_i hv
    rw [escape_invalid s hv]
    exact body_raw s h.1 h.2

/-! ## Values -/

section
variable {N : Type} (enc : N → Bytes) (dec : Bytes → N)

theorem toMap_distinct (es : List (Bytes × Json N)) (h : (es.map (·.1)).Nodup) : entriesToMap es = es := by
  induction es with
  | nil => rfl
  | cons e es ih =>
    obtain ⟨k, v⟩ := e
    rw [List.map_cons, List.nodup_cons] at h
    rw [entriesToMap, ih h.2, if_neg]
    intro ha
    rw [List.any_eq_true] at ha
    obtain ⟨e, he, hk⟩ := ha
    apply h.1
    have hk := beq_iff_eq.mp hk
    exact List.mem_map.mpr ⟨e, he, hk⟩

/-- C41: the value of a key in a decoded object is the value of its last entry. -/
theorem c41_last_entry (es : List (Bytes × Json N)) (k : Bytes) :
    (entriesToMap es).find? (fun e => e.1 == k) = es.reverse.find? (fun e => e.1 == k) := by
  induction es with
  | nil => rfl
  | cons e es ih =>
    obtain ⟨k', v⟩ := e
    rw [List.reverse_cons, List.find?_append, ← ih, entriesToMap]
    split
    · rename_i h
      cases hf : (entriesToMap es).find? (fun e => e.1 == k) with
      | some x => rfl
      | none =>
        have hk : (k' == k) = false := by
          apply Classical.byContradiction
          intro hk
          rw [Bool.not_eq_false, beq_iff_eq] at hk
          rw [List.find?_eq_none] at hf
          rw [List.any_eq_true] at h
          obtain ⟨x, h1, h2⟩ := h
          rw [hk] at h2
          exact hf x h1 h2
        simp [hk]
    · rename_i h
      rw [List.find?_cons]
      by_cases hk : k' = k
      · subst hk
        have : (entriesToMap es).find? (fun e => e.1 == k') = none := by
          rw [List.find?_eq_none]
          intro x hx hxk
          exact h (List.any_eq_true.mpr ⟨x, hx, hxk⟩)
        rw [this]; simp
      · have : (k' == k) = false := by simpa using hk
        simp [this]

/-- Elements after the first. -/
def rest : List (Json N) → Bytes
  | [] => []
  | v :: vs => bComma :: (encode enc v ++ rest vs)

theorem encodeElements_false (vs : List (Json N)) : encodeElements enc false vs = rest enc vs := by
  induction vs with
  | nil => rfl
  | cons v vs ih => rw [encodeElements, ih, rest]; simp

/-- Entries after the first. -/
def restEntries : List (Bytes × Json N) → Bytes
  | [] => []
  | (k, v) :: es => bComma :: (encodeString k ++ bColon :: (encode enc v ++ restEntries es))

theorem encodeEntries_false (es : List (Bytes × Json N)) : encodeEntries enc false es = restEntries enc es := by
  induction es with
  | nil => rfl
  | cons e es ih => obtain ⟨k, v⟩ := e; rw [encodeEntries, ih, restEntries]; simp

theorem blank_nil : Blank [] := by simp [Blank]

theorem encode_all (n : Nat) :
    (∀ v : Json N, sizeOf v ≤ n → (∀ s ∈ strings v, StringOk s) → (∀ n ∈ numbers v, NumberOk enc dec n) → Maps v →
      Text dec (encode enc v) v) ∧
    (∀ (v : Json N) (vs : List (Json N)), sizeOf (v :: vs) ≤ n → (∀ s ∈ stringsList (v :: vs), StringOk s) →
      (∀ n ∈ numbersList (v :: vs), NumberOk enc dec n) → MapsList (v :: vs) →
      Elements dec (encode enc v ++ rest enc vs) (v :: vs)) ∧
    (∀ (k : Bytes) (v : Json N) (es : List (Bytes × Json N)), sizeOf ((k, v) :: es) ≤ n →
      (∀ s ∈ stringsEntries ((k, v) :: es), StringOk s) → (∀ n ∈ numbersEntries ((k, v) :: es), NumberOk enc dec n) →
      MapsEntries ((k, v) :: es) →
      Entries dec (encodeString k ++ bColon :: (encode enc v ++ restEntries enc es)) ((k, v) :: es)) := by
  induction n with
  | zero =>
    refine ⟨?_, ?_, ?_⟩
    · intro v h; cases v <;> simp at h
    · intro v vs h; simp at h
    · intro k v es h; simp at h
  | succ n ih =>
    obtain ⟨iht, ihe, iho⟩ := ih
    refine ⟨?_, ?_, ?_⟩
    · intro v hz hs hn hm
      cases v with
      | bool b =>
        cases b with
        | false => rw [encode]; exact .false
        | true => rw [encode]; exact .true
      | null => rw [encode]; exact .null
      | num n =>
        have h := hn n (by simp [numbers])
        rw [encode]
        have := Text.num (dec := dec) h.1
        rwa [h.2] at this
      | str s =>
        rw [encode, encodeString]
        exact .str (body_escape s (hs s (by simp [strings])))
      | arr vs =>
        rw [encode]
        cases vs with
        | nil => rw [encodeElements]; exact .emptyArr (w := []) blank_nil
        | cons v vs =>
          have := ihe v vs (by simp at hz ⊢; omega) (by simpa [strings] using hs) (by simpa [numbers] using hn) (by rwa [Maps] at hm)
          have := Text.arr this blank_nil
          simpa [encodeElements, encodeElements_false] using this
      | obj es =>
        rw [encode]
        rw [Maps] at hm
        cases es with
        | nil => rw [encodeEntries]; exact .emptyObj (w := []) blank_nil
        | cons e es =>
          obtain ⟨k, v⟩ := e
          have := iho k v es (by simp at hz ⊢; omega) (by simpa [strings] using hs) (by simpa [numbers] using hn) hm.2
          have := Text.obj this blank_nil
          rw [toMap_distinct _ hm.1] at this
          simpa [encodeEntries, encodeEntries_false] using this
    · intro v vs hz hs hn hm
      rw [MapsList] at hm
      have h1 := iht v (by simp at hz ⊢; omega) (fun s h => hs s (by simp [stringsList, h]))
        (fun n h => hn n (by simp [numbersList, h])) hm.1
      cases vs with
      | nil => rw [rest, List.append_nil]; exact .one (w := []) blank_nil h1
      | cons v' vs =>
        have h2 := ihe v' vs (by simp at hz ⊢; omega) (fun s h => hs s (by rw [stringsList]; simp [h]))
          (fun n h => hn n (by rw [numbersList]; simp [h])) hm.2
        have := Elements.more (w := []) (w' := []) blank_nil h1 blank_nil h2
        rw [rest]
        simpa using this
    · intro k v es hz hs hn hm
      rw [MapsEntries] at hm
      have h0 := body_escape k (hs k (by simp [stringsEntries]))
      have h1 := iht v (by simp at hz ⊢; omega) (fun s h => hs s (by simp [stringsEntries, h]))
        (fun n h => hn n (by simp [numbersEntries, h])) hm.1
      cases es with
      | nil =>
        rw [restEntries, List.append_nil]
        have := Entries.one (w := []) (w1 := []) (w2 := []) blank_nil h0 blank_nil blank_nil h1
        simpa [encodeString] using this
      | cons e es =>
        obtain ⟨k', v'⟩ := e
        have h2 := iho k' v' es (by simp at hz ⊢; omega) (fun s h => hs s (by rw [stringsEntries]; simp [h]))
          (fun n h => hn n (by rw [numbersEntries]; simp [h])) hm.2
        have := Entries.more (w := []) (w1 := []) (w2 := []) (w' := []) blank_nil h0 blank_nil blank_nil h1 blank_nil h2
        rw [restEntries]
        simpa [encodeString] using this

theorem encode_text (v : Json N) (hs : ∀ s ∈ strings v, StringOk s) (hn : ∀ n ∈ numbers v, NumberOk enc dec n)
    (hm : Maps v) : Text dec (encode enc v) v := (encode_all enc dec _).1 v (Nat.le_refl _) hs hn hm

/-- C41: decoding the encoding of a value gives the value back, if every string and key in it
survives (`StringOk`) and every number survives (`NumberOk`: all finite numbers, by the contract of
Rust's conversions).  The full claim is false: `c41_backslash`, `c41_nan`, `c41_not_utf8`. -/
theorem c41_roundtrip_partial (v : Json N) (hs : ∀ s ∈ strings v, StringOk s)
    (hn : ∀ n ∈ numbers v, NumberOk enc dec n) (hm : Maps v) : decode dec (encode enc v) = .value v :=
  (c41_decode_iff dec _ v).mpr
    ⟨[], _, [], blank_nil, encode_text enc dec v hs hn hm, blank_nil, by simp⟩

/-! ## Strings that do not survive -/

theorem body_length {t cs : Bytes} (h : StringBody t cs) :
    cs.length ≤ t.length ∧ (cs.length = t.length → cs = t ∧ bQuote ∉ t ∧ t.getLast? ≠ some bBackslash) := by
  induction h with
  | nil => simp
  | quote h ih => simp only [List.length_cons]; omega
  | @plain b t cs h1 h2 h ih =>
    simp only [List.length_cons]
    refine ⟨by omega, fun e => ?_⟩
    obtain ⟨rfl, h3, h4⟩ := ih.2 (by omega)
    refine ⟨rfl, ?_, ?_⟩
    · simp only [List.mem_cons, not_or]; exact ⟨fun e => h1 e.symm, h3⟩
    · cases cs with
      | nil =>
        simp only [List.getLast?_singleton, ne_eq, Option.some.injEq]
        rintro rfl
        obtain ⟨c, t', e, _⟩ := h2 rfl
        cases e
      | cons c t => rw [List.getLast?_cons_cons]; exact h4

/-- Both escapes at once. -/
def escBoth (b : UInt8) : Bytes :=
  if b = bBackslash then [bBackslash, bBackslash] else if b = bQuote then [bBackslash, bQuote] else [b]

theorem escape_both (s : Bytes) : (s.flatMap escBackslash).flatMap escQuote = s.flatMap escBoth := by
  rw [List.flatMap_assoc]
  congr 1
  funext b
  unfold escBackslash escBoth
  split
  · rename_i h; subst h; decide
  · simp [escQuote]

theorem escBoth_head (b : UInt8) : ∃ c r, escBoth b = c :: r ∧ c ≠ bQuote := by
  unfold escBoth
  split
  · exact ⟨_, _, rfl, by decide⟩
  · split
    · exact ⟨_, _, rfl, by decide⟩
    · rename_i h; exact ⟨_, _, rfl, h⟩

/-- The decoder keeps both bytes of every escaped backslash. -/
theorem characters_escaped (s : Bytes) : stringCharacters (s.flatMap escBoth ++ [bQuote]) = none ∨
    ∃ t, stringCharacters (s.flatMap escBoth ++ [bQuote]) = some (t, [bQuote]) ∧
      t.length = s.length + s.count bBackslash := by
  induction s with
  | nil => exact Or.inr ⟨[], sc_quote [], rfl⟩
  | cons b s ih =>
    rw [List.flatMap_cons, List.append_assoc]
    have hx : ∃ c r, s.flatMap escBoth ++ [bQuote] = c :: r ∧ (s ≠ [] → c ≠ bQuote) ∧ (s = [] → r = []) := by
      cases s with
      | nil => exact ⟨bQuote, [], rfl, by simp, by simp⟩
      | cons d s =>
        obtain ⟨c, r, h1, h2⟩ := escBoth_head d
        exact ⟨c, r ++ (s.flatMap escBoth ++ [bQuote]), by rw [List.flatMap_cons, h1]; simp, fun _ => h2, by simp⟩
    obtain ⟨c, r, hx, hc, hr⟩ := hx
    by_cases hb : b = bBackslash
    · subst hb
      rw [show escBoth bBackslash = [bBackslash, bBackslash] from rfl]
      simp only [List.cons_append, List.nil_append]
      rw [sc_plain _ _ _ (by decide) (by decide)]
      rw [hx] at ih ⊢
      by_cases hs : s = []
      · left
        subst hs
        have : c = bQuote := (List.cons.inj hx).1.symm
        subst this
        rw [sc_escape, hr rfl]; rfl
      · rw [sc_plain _ _ _ (by decide) (fun h => hc hs h.2)]
        rcases ih with ih | ⟨t, ih, hl⟩
        · left; rw [ih]; rfl
        · right
          refine ⟨bBackslash :: bBackslash :: t, by rw [ih]; rfl, ?_⟩
          simp only [List.length_cons, List.count_cons_self, hl]; omega
    · have hcount : (b :: s).count bBackslash = s.count bBackslash := List.count_cons_of_ne (fun e => hb e)
      rw [hcount]
      by_cases hq : b = bQuote
      · subst hq
        rw [show escBoth bQuote = [bBackslash, bQuote] from rfl]
        simp only [List.cons_append, List.nil_append]
        rw [sc_escape]
        rcases ih with ih | ⟨t, ih, hl⟩
        · left; rw [ih]; rfl
        · right; exact ⟨bQuote :: t, by rw [ih]; rfl, by simp only [List.length_cons, hl]; omega⟩
      · rw [escBoth, if_neg hb, if_neg hq]
        simp only [List.cons_append, List.nil_append]
        rw [hx] at ih ⊢
        rw [sc_plain _ _ _ hq (fun h => hb h.1)]
        rcases ih with ih | ⟨t, ih, hl⟩
        · left; rw [ih]; rfl
        · right; exact ⟨b :: t, by rw [ih]; rfl, by simp only [List.length_cons, hl]; omega⟩

/-- A string decodes to itself only if its text spells it. -/
theorem decode_string_text (s : Bytes) (h : decode dec (encodeString s) = .value (.str s)) : StringBody (escape s) s := by
  obtain ⟨w, t, w', hw, ht, hw', e⟩ := (c41_decode_iff dec _ _).mp h
  cases ht with
  | @str t cs ht =>
    have e1 : w = [] := by
      cases w with
      | nil => rfl
      | cons b w =>
        exfalso
        rcases hw b (by simp) with rfl | rfl | rfl <;> simp [encodeString, bQuote] at e
    have e2 : w' = [] := by
      rcases List.eq_nil_or_concat w' with h | ⟨l, b, rfl⟩
      · exact h
      · exfalso
        have := congrArg List.getLast? e
        rw [encodeString] at this
        simp only [List.getLast?_append, List.getLast?_singleton, List.concat_eq_append, Option.some_or,
          Option.some.injEq] at this
        rcases hw' b (by simp) with rfl | rfl | rfl <;> simp [bQuote] at this
    subst e1; subst e2
    have : escape s = t := by
      simp only [encodeString, List.nil_append, List.append_nil, List.cons_append, List.cons.injEq, true_and] at e
      exact (List.append_inj' e rfl).1
    rw [this]; exact ht

/-- C41: exactly the strings of `StringOk` survive encoding and decoding. -/
theorem c41_string_iff (s : Bytes) : decode dec (encode enc (.str s)) = .value (.str s) ↔ StringOk s := by
  constructor
  · intro h
    rw [encode] at h
    have hb := decode_string_text dec s h
    unfold StringOk
    split
    · rename_i hv
      intro hm
      rw [escape_valid s hv, escape_both] at hb
      have hc := stringCharacters_complete hb []
      rcases characters_escaped s with h1 | ⟨t, h1, h2⟩
      · rw [h1] at hc; cases hc
      · rw [h1] at hc
        cases hc
        have := List.count_pos_iff.mpr hm
        omega
    · rename_i hv
      rw [escape_invalid s hv] at hb
      exact ((body_length hb).2 rfl).2
  · intro h
    refine c41_roundtrip_partial enc dec _ ?_ ?_ (by simp [Maps])
    · simpa [strings] using h
    · simp [numbers]

end

/-- C41 is false for strings with backslashes: decoding the encoding of `a\b` gives `a\\b`. -/
theorem c41_backslash {N : Type} (enc : N → Bytes) (dec : Bytes → N) :
    decode dec (encode enc (.str [97, 92, 98])) = .value (.str [97, 92, 92, 98]) := by
  rw [encode, show encodeString [97, 92, 98] = [] ++ (bQuote :: [97, 92, 92, 98] ++ [bQuote]) ++ [] by decide +kernel]
  refine (c41_decode_iff dec _ _).mpr ⟨[], _, [], blank_nil, .str ?_, blank_nil, rfl⟩
  refine .plain (by decide) (by simp [bBackslash]) (.plain (by decide) (fun _ => ⟨92, [98], rfl, by decide⟩) (.plain (by decide) (fun _ => ⟨98, [], rfl, by decide⟩)
    (.plain (by decide) (by simp [bBackslash]) .nil)))

/-- C41 is false for a string that ends with a backslash: its encoding is rejected. -/
theorem c41_last_backslash {N : Type} (enc : N → Bytes) (dec : Bytes → N) :
    decode dec (encode enc (.str [92])) = .error := by
  rw [encode, show encodeString [92] = [34, 92, 92, 34] by decide +kernel]
  have : string [34, 92, 92, 34] = none := by decide +kernel
  have e : blank [34, 92, 92, 34] = [34, 92, 92, 34] := by decide +kernel
  unfold decode
  rw [show 2 * ([34, 92, 92, 34] : Bytes).length + 2 = 9 + 1 from rfl, value, e]
  rw [if_neg (ns (by decide)), if_neg (ns (by decide)), if_neg (ns (by decide)), if_pos (ps (by decide)), this]

/-- C41 is false for strings that are not UTF-8: their quotes are not escaped, and the rest of the
string is read as JSON.  Here the elements of an array of one string are decoded to two strings. -/
theorem c41_not_utf8 {N : Type} (enc : N → Bytes) (dec : Bytes → N) :
    decode dec (encode enc (.arr [.str [255, 34, 44, 34]])) = .value (.arr [.str [255], .str []]) := by
  have : encode enc (.arr [.str [255, 34, 44, 34]]) = [91, 34, 255, 34, 44, 34, 34, 93] := by
    simp only [encode, encodeElements]
    rw [show encodeString [255, 34, 44, 34] = [34, 255, 34, 44, 34, 34] by decide +kernel]; rfl
  rw [this]
  refine (c41_decode_iff dec _ _).mpr ⟨[], [91, 34, 255, 34, 44, 34, 34, 93], [], blank_nil, ?_, blank_nil, rfl⟩
  have h1 : Text dec (bQuote :: [255] ++ [bQuote]) (.str [255]) := .str (.plain (by decide) (fun h => absurd h (by decide)) .nil)
  have h2 : Text dec (bQuote :: [] ++ [bQuote]) (.str []) := .str .nil
  exact .arr (.more blank_nil h1 blank_nil (.one blank_nil h2)) blank_nil

/-- C41 is false for numbers whose text is not a number text, such as `NaN`. -/
theorem c41_nan {N : Type} (enc : N → Bytes) (dec : Bytes → N) (n : N) (h : enc n = [78, 97, 78]) :
    decode dec (encode enc (.num n)) = .error := by
  rw [encode, h]
  have e : blank [78, 97, 78] = [78, 97, 78] := by decide +kernel
  unfold decode
  rw [show 2 * ([78, 97, 78] : Bytes).length + 2 = 7 + 1 from rfl, value, e]
  rw [if_neg (ns (by decide)), if_neg (ns (by decide)), if_neg (ns (by decide)), if_neg (ns (by decide)),
    if_neg (ns (by decide)), if_neg (ns (by decide)), number, show numberEnd [78, 97, 78] = none by decide +kernel]

/-- The hypotheses of `c41_roundtrip_partial` are met by `{"a\"": [true, null, 1.5], "b": {}}` with
numbers that are their own texts. -/
example : decode (N := Bytes) id (encode id (.obj [([97, 34], .arr [.bool true, .null, .num [49, 46, 53]]), ([98], .obj [])])) =
    .value (.obj [([97, 34], .arr [.bool true, .null, .num [49, 46, 53]]), ([98], .obj [])]) := by
  refine c41_roundtrip_partial id id _ ?_ ?_ ?_
  · simp only [strings, stringsEntries, stringsList]
    intro s hs
    have : s = [97, 34] ∨ s = [98] := by simpa using hs
    rcases this with rfl | rfl <;> (unfold StringOk; decide +kernel)
  · simp only [numbers, numbersEntries, numbersList]
    intro n hn
    have : n = [49, 46, 53] := by simpa using hn
    subst this
    refine ⟨?_, rfl⟩
    exact NumberText.mk (sign := []) (int := [49]) (frac := [46, 53]) (Or.inl rfl)
      (.digits (by decide) (by decide) (by simp)) (Or.inr ⟨[53], rfl, by decide⟩)
  · simp [Maps, MapsEntries, MapsList]

end Verif.Pkg.Json
