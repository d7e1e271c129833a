import Verif.Pkg.Json
/-!
# C41: JSON

Specification: the grammar `Text` of the texts the decoder is meant to read.
-/
namespace Verif.Pkg.Json

/-! ## Specification -/

/-- Spaces, tabs and newlines. -/
def Blank (w : Bytes) : Prop := ∀ b ∈ w, b = 32 ∨ b = 9 ∨ b = 10

/-- The text between the quotes of a string and what it spells: `\"` spells a quote, any other
byte spells itself. -/
inductive StringBody : Bytes → Bytes → Prop
  | nil : StringBody [] []
  | quote {t cs} : StringBody t cs → StringBody (bBackslash :: bQuote :: t) (bQuote :: cs)
  | plain {b t cs} : b ≠ bQuote → (b = bBackslash → ∃ c t', t = c :: t' ∧ c ≠ bQuote) →
      StringBody t cs → StringBody (b :: t) (b :: cs)

/-- Texts of natural numbers without leading zeros. -/
inductive IntegerText : Bytes → Prop
  | zero : IntegerText [48]
  | digits {b ds} : 49 ≤ b → b ≤ 57 → (∀ d ∈ ds, 48 ≤ d ∧ d ≤ 57) → IntegerText (b :: ds)

/-- Texts of numbers: an optional sign, an integer, an optional fraction. -/
inductive NumberText : Bytes → Prop
  | mk {sign int frac} : (sign = [] ∨ sign = [45]) → IntegerText int →
      (frac = [] ∨ ∃ ds, frac = 46 :: ds ∧ ∀ d ∈ ds, 48 ≤ d ∧ d ≤ 57) → NumberText (sign ++ int ++ frac)

section
variable {N : Type} (dec : Bytes → N)

mutual
/-- Texts of JSON values. -/
inductive Text : Bytes → Json N → Prop
  | null : Text sNull .null
  | true : Text sTrue (.bool Bool.true)
  | false : Text sFalse (.bool Bool.false)
  | num {t} : NumberText t → Text t (.num (dec t))
  | str {t cs} : StringBody t cs → Text (bQuote :: t ++ [bQuote]) (.str cs)
  | emptyArr {w} : Blank w → Text (bOpenArray :: w ++ [bCloseArray]) (.arr [])
  | arr {t w vs} : Elements t vs → Blank w → Text (bOpenArray :: (t ++ w) ++ [bCloseArray]) (.arr vs)
  | emptyObj {w} : Blank w → Text (bOpenObject :: w ++ [bCloseObject]) (.obj [])
  | obj {t w es} : Entries t es → Blank w →
      Text (bOpenObject :: (t ++ w) ++ [bCloseObject]) (.obj (entriesToMap es))
/-- Texts of elements of arrays separated by commas. -/
inductive Elements : Bytes → List (Json N) → Prop
  | one {w t v} : Blank w → Text t v → Elements (w ++ t) [v]
  | more {w t v w' t' vs} : Blank w → Text t v → Blank w' → Elements t' vs →
      Elements (w ++ t ++ w' ++ bComma :: t') (v :: vs)
/-- Texts of entries of objects separated by commas. -/
inductive Entries : Bytes → List (Bytes × Json N) → Prop
  | one {w k key w1 w2 t v} : Blank w → StringBody k key → Blank w1 → Blank w2 → Text t v →
      Entries (w ++ bQuote :: k ++ bQuote :: w1 ++ bColon :: w2 ++ t) [(key, v)]
  | more {w k key w1 w2 t v w' t' es} : Blank w → StringBody k key → Blank w1 → Blank w2 → Text t v → Blank w' →
      Entries t' es → Entries (w ++ bQuote :: k ++ bQuote :: w1 ++ bColon :: w2 ++ t ++ w' ++ bComma :: t') ((key, v) :: es)
end
end

/-! ## Scanners -/

theorem blank_append (w s : Bytes) (h : Blank w) : blank (w ++ s) = blank s := by
  induction w with
  | nil => rfl
  | cons b w ih =>
    rw [List.cons_append, blank, if_pos (h b (by simp))]
    exact ih (fun c hc => h c (by simp [hc]))

theorem blank_all (w : Bytes) (h : Blank w) : blank w = [] := by
  have := blank_append w [] h
  simpa [blank] using this

theorem blank_split (s : Bytes) : ∃ w, s = w ++ blank s ∧ Blank w := by
  induction s with
  | nil => exact ⟨[], rfl, by simp [Blank]⟩
  | cons b s ih =>
    rw [blank]
    split
    · rename_i h
      obtain ⟨w, h1, h2⟩ := ih
      refine ⟨b :: w, by rw [List.cons_append, ← h1], ?_⟩
      intro c hc
      rcases List.mem_cons.mp hc with rfl | hc
      · exact h
      · exact h2 c hc
    · exact ⟨[], rfl, by simp [Blank]⟩

theorem blank_head {b : UInt8} (s : Bytes) (h : ¬ (b = 32 ∨ b = 9 ∨ b = 10)) : blank (b :: s) = b :: s := by
  rw [blank, if_neg h]

theorem blank_idem (s : Bytes) : blank (blank s) = blank s := by
  induction s with
  | nil => rfl
  | cons b s ih =>
    rw [blank]; split
    · exact ih
    · rename_i h; rw [blank_head _ h]

theorem raw_iff (s p r : Bytes) : raw s p = some r ↔ s = p ++ r := by
  induction p generalizing s with
  | nil => simp [raw]
  | cons a p ih =>
    cases s with
    | nil => simp [raw]
    | cons b s =>
      rw [raw]
      split
      · rename_i h; rw [ih, h]; simp
      · rename_i h; simp [h]

theorem raw_append (p r : Bytes) : raw (p ++ r) p = some r := (raw_iff _ _ _).mpr rfl

theorem token_blank (w : Bytes) (b : UInt8) (r : Bytes) (hw : Blank w) (hb : ¬ (b = 32 ∨ b = 9 ∨ b = 10)) :
    token (w ++ b :: r) [b] = some r := by
  rw [token, blank_append _ _ hw, blank_head _ hb]; exact raw_append [b] r

theorem token_sound {s r p : Bytes} (h : token s p = some r) : ∃ w, Blank w ∧ s = w ++ p ++ r := by
  rw [token, raw_iff] at h
  obtain ⟨w, h1, h2⟩ := blank_split s
  exact ⟨w, h2, by rw [h] at h1; rw [List.append_assoc]; exact h1⟩

theorem token_none (w : Bytes) (b c : UInt8) (r : Bytes) (hw : Blank w) (hb : ¬ (c = 32 ∨ c = 9 ∨ c = 10)) (hne : c ≠ b) :
    token (w ++ c :: r) [b] = none := by
  rw [token, blank_append _ _ hw, blank_head _ hb, raw, if_neg hne]

theorem token_none_nil (w : Bytes) (b : UInt8) (hw : Blank w) : token w [b] = none := by
  rw [token, blank_all _ hw]; rfl

/-! ### Strings -/

theorem sc_quote (r : Bytes) : stringCharacters (bQuote :: r) = some ([], bQuote :: r) := by
  rw [stringCharacters.eq_def]; simp

theorem sc_escape (r : Bytes) : stringCharacters (bBackslash :: bQuote :: r) =
    (stringCharacters r).map (fun x => (bQuote :: x.1, x.2)) := by
  rw [stringCharacters.eq_def]
  simp only [show ¬ bBackslash = bQuote by decide, if_false, and_self, if_true]

theorem sc_plain (b c : UInt8) (r : Bytes) (h1 : b ≠ bQuote) (h2 : ¬ (b = bBackslash ∧ c = bQuote)) :
    stringCharacters (b :: c :: r) = (stringCharacters (c :: r)).map (fun x => (b :: x.1, x.2)) := by
  rw [stringCharacters.eq_def]
  simp only [if_neg h1, if_neg h2]

theorem sc_last (b : UInt8) (h1 : b ≠ bQuote) : stringCharacters [b] = none := by
  rw [stringCharacters.eq_def]
  simp only [if_neg h1]

theorem stringCharacters_complete {t cs : Bytes} (h : StringBody t cs) (r : Bytes) :
    stringCharacters (t ++ bQuote :: r) = some (cs, bQuote :: r) := by
  induction h with
  | nil => exact sc_quote r
  | quote h ih =>
    rw [List.cons_append, List.cons_append, sc_escape, ih]; rfl
  | @plain b t cs h1 h2 h ih =>
    cases t with
    | nil =>
      simp only [List.cons_append, List.nil_append] at ih ⊢
      rw [sc_plain _ _ _ h1, ih]; · rfl
      rintro ⟨hb, _⟩
      obtain ⟨c, t', e, _⟩ := h2 hb
      cases e
    | cons c t =>
      simp only [List.cons_append] at ih ⊢
      rw [sc_plain _ _ _ h1, ih]; · rfl
      rintro ⟨hb, hc⟩
      obtain ⟨c', t', e, hne⟩ := h2 hb
      cases e
      exact hne hc

theorem stringCharacters_sound' (n : Nat) : ∀ (s cs r : Bytes), s.length ≤ n → stringCharacters s = some (cs, r) →
    ∃ t r', r = bQuote :: r' ∧ s = t ++ r ∧ StringBody t cs := by
  induction n with
  | zero =>
    intro s cs r hn h
    rw [List.length_eq_zero_iff.mp (Nat.le_zero.mp hn)] at h
    simp [stringCharacters] at h
  | succ n ih =>
    intro s cs r hn h
    match s, hn, h with
    | [], _, h => simp [stringCharacters] at h
    | b :: s, hn, h =>
      by_cases hb : b = bQuote
      · subst hb
        rw [sc_quote] at h
        cases h
        exact ⟨[], s, rfl, rfl, .nil⟩
      match s, hn, h with
      | [], _, h => rw [sc_last b hb] at h; cases h
      | c :: s, hn, h =>
        simp only [List.length_cons] at hn
        by_cases hq : b = bBackslash ∧ c = bQuote
        · obtain ⟨rfl, rfl⟩ := hq
          rw [sc_escape, Option.map_eq_some_iff] at h
          obtain ⟨⟨cs', r'⟩, h1, h2⟩ := h
          cases h2
          obtain ⟨t, r'', e1, e2, e3⟩ := ih _ _ _ (by omega) h1
          exact ⟨_, r'', e1, by rw [e2]; rfl, .quote e3⟩
        · rw [sc_plain _ _ _ hb hq, Option.map_eq_some_iff] at h
          obtain ⟨⟨cs', r'⟩, h1, h2⟩ := h
          cases h2
          obtain ⟨t, r'', e1, e2, e3⟩ := ih _ _ _ (by simp only [List.length_cons]; omega) h1
          refine ⟨b :: t, r'', e1, by rw [e2]; rfl, .plain hb ?_ e3⟩
          intro hbs
          cases t with
          | nil =>
            exfalso; apply hq
            refine ⟨hbs, ?_⟩
            rw [e1] at e2
            exact (List.cons.inj e2).1
          | cons c' t =>
            refine ⟨c', t, rfl, ?_⟩
            have := (List.cons.inj e2).1
            subst this
            exact fun hc => hq ⟨hbs, hc⟩

theorem stringCharacters_sound (s cs r : Bytes) (h : stringCharacters s = some (cs, r)) :
    ∃ t r', r = bQuote :: r' ∧ s = t ++ r ∧ StringBody t cs :=
  stringCharacters_sound' _ s cs r (Nat.le_refl _) h

theorem string_complete {w t cs : Bytes} (hw : Blank w) (h : StringBody t cs) (r : Bytes) :
    string (w ++ bQuote :: t ++ bQuote :: r) = some (cs, r) := by
  rw [List.append_assoc, List.cons_append, string, token_blank _ _ _ hw (by decide)]
  simp only [stringCharacters_complete h]
  rw [show raw (bQuote :: r) [bQuote] = some r from raw_append [bQuote] r]

theorem string_sound {s cs r : Bytes} (h : string s = some (cs, r)) :
    ∃ w t, Blank w ∧ StringBody t cs ∧ s = w ++ bQuote :: t ++ bQuote :: r := by
  unfold string at h
  split at h
  · cases h
  · rename_i s1 h1
    obtain ⟨w, hw, rfl⟩ := token_sound h1
    split at h
    · cases h
    · rename_i cs1 r1 h2
      obtain ⟨t, r', e1, e2, e3⟩ := stringCharacters_sound _ _ _ h2
      subst e1; subst e2
      rw [show raw (bQuote :: r') [bQuote] = some r' from raw_append [bQuote] r'] at h
      cases h
      exact ⟨w, t, hw, e3, by simp⟩

/-! ### Numbers -/

theorem isNonZeroDigit_iff (b : UInt8) : isNonZeroDigit b = true ↔ 49 ≤ b ∧ b ≤ 57 := by
  simp [isNonZeroDigit, inRange]

theorem isDigit_iff (b : UInt8) : isDigit b = true ↔ 48 ≤ b ∧ b ≤ 57 := by
  simp only [isDigit, Bool.or_eq_true, isNonZeroDigit_iff, beq_iff_eq, bZero]
  constructor
  · rintro (⟨h1, h2⟩ | rfl)
    · exact ⟨by simp only [UInt8.le_iff_toNat_le] at *; simp at *; omega, h2⟩
    · decide
  · rintro ⟨h1, h2⟩
    by_cases h : b = 48
    · exact Or.inr h
    · refine Or.inl ⟨?_, h2⟩
      have : b.toNat ≠ 48 := fun e => h (UInt8.toNat_inj.mp (by simpa using e))
      simp only [UInt8.le_iff_toNat_le] at *; simp at *; omega

/-- The rest of an input that cannot continue a number. -/
def Stops (r : Bytes) : Prop := ∀ b, r.head? = some b → isDigit b = false ∧ b ≠ bDot

theorem digits_append (ds r : Bytes) (h : ∀ d ∈ ds, 48 ≤ d ∧ d ≤ 57)
    (hr : ∀ b, r.head? = some b → isDigit b = false) : digits (ds ++ r) = r := by
  induction ds with
  | nil =>
    cases r with
    | nil => rfl
    | cons b r => rw [List.nil_append, digits, hr b rfl]; rfl
  | cons d ds ih =>
    rw [List.cons_append, digits, if_pos ((isDigit_iff d).mpr (h d (by simp)))]
    exact ih (fun e he => h e (by simp [he]))

theorem digits_split (s : Bytes) : ∃ ds, s = ds ++ digits s ∧ ∀ d ∈ ds, 48 ≤ d ∧ d ≤ 57 := by
  induction s with
  | nil => exact ⟨[], rfl, by simp⟩
  | cons b s ih =>
    rw [digits]
    split
    · rename_i h
      obtain ⟨ds, h1, h2⟩ := ih
      refine ⟨b :: ds, by rw [List.cons_append, ← h1], ?_⟩
      intro c hc
      rcases List.mem_cons.mp hc with rfl | hc
      · exact (isDigit_iff _).mp h
      · exact h2 c hc
    · exact ⟨[], rfl, by simp⟩

theorem integer_complete {t r : Bytes} (h : IntegerText t) (hr : ∀ b, r.head? = some b → isDigit b = false) :
    integer (t ++ r) = some r := by
  cases h with
  | zero => rfl
  | digits h1 h2 h3 =>
    rw [List.cons_append, integer, if_pos ((isNonZeroDigit_iff _).mpr ⟨h1, h2⟩), digits_append _ _ h3 hr]

theorem integer_sound {s r : Bytes} (h : integer s = some r) : ∃ t, IntegerText t ∧ s = t ++ r := by
  cases s with
  | nil => simp [integer] at h
  | cons b s =>
    rw [integer] at h
    split at h
    · rename_i hb
      cases h
      obtain ⟨ds, h1, h2⟩ := digits_split s
      have hb := (isNonZeroDigit_iff b).mp hb
      exact ⟨b :: ds, .digits hb.1 hb.2 h2, by rw [List.cons_append, ← h1]⟩
    · split at h
      · rename_i hb
        cases h
        exact ⟨[48], .zero, by rw [hb]; rfl⟩
      · cases h

theorem integerText_head {t : Bytes} (h : IntegerText t) : ∃ b r, t = b :: r ∧ 48 ≤ b ∧ b ≤ 57 := by
  cases h with
  | zero => exact ⟨48, [], rfl, by decide, by decide⟩
  | digits h1 h2 h3 =>
    refine ⟨_, _, rfl, ?_, h2⟩
    simp only [UInt8.le_iff_toNat_le] at *; simp at *; omega

theorem digit_cases (P : UInt8 → Prop) [DecidablePred P] (h : ∀ n : Fin 10, P (UInt8.ofNat (48 + n))) (b : UInt8) (h1 : 48 ≤ b) (h2 : b ≤ 57) : P b := by
  simp only [UInt8.le_iff_toNat_le] at h1 h2
  simp at h1 h2
  have := h ⟨b.toNat - 48, by omega⟩
  rwa [show UInt8.ofNat (48 + (b.toNat - 48)) = b by
    rw [show 48 + (b.toNat - 48) = b.toNat by omega]; exact UInt8.ofNat_toNat] at this

theorem digit_facts (b : UInt8) (h1 : 48 ≤ b) (h2 : b ≤ 57) :
    ¬ (b = 32 ∨ b = 9 ∨ b = 10) ∧ b ≠ bMinus ∧ b ≠ 110 ∧ b ≠ 116 ∧ b ≠ 102 ∧ b ≠ bQuote ∧ b ≠ bOpenArray ∧
      b ≠ bOpenObject :=
  digit_cases (fun b => ¬ (b = 32 ∨ b = 9 ∨ b = 10) ∧ b ≠ bMinus ∧ b ≠ 110 ∧ b ≠ 116 ∧ b ≠ 102 ∧ b ≠ bQuote ∧
    b ≠ bOpenArray ∧ b ≠ bOpenObject) (by decide) b h1 h2

/-- A number text starts with a digit or a minus sign. -/
theorem numberText_head {t : Bytes} (h : NumberText t) :
    ∃ b r, t = b :: r ∧ ¬ (b = 32 ∨ b = 9 ∨ b = 10) ∧ b ≠ 110 ∧ b ≠ 116 ∧ b ≠ 102 ∧ b ≠ bQuote ∧
      b ≠ bOpenArray ∧ b ≠ bOpenObject := by
  cases h with
  | @mk sign int frac hs hi hf =>
    rcases hs with rfl | rfl
    · obtain ⟨b, r, rfl, h1, h2⟩ := integerText_head hi
      have := digit_facts b h1 h2
      exact ⟨b, r ++ frac, rfl, this.1, this.2.2⟩
    · exact ⟨45, int ++ frac, by simp, by decide⟩

theorem numberEnd_complete {t r : Bytes} (h : NumberText t) (hr : Stops r) : numberEnd (t ++ r) = some r := by
  cases h with
  | @mk sign int frac hs hi hf =>
    have hm : (token (sign ++ int ++ frac ++ r) [bMinus]).getD (sign ++ int ++ frac ++ r) =
        int ++ (frac ++ r) := by
      rcases hs with rfl | rfl
      · obtain ⟨b, i, rfl, h1, h2⟩ := integerText_head hi
        have := digit_facts b h1 h2
        have e : token ([] ++ (b :: i) ++ frac ++ r) [bMinus] = none := by
          have := token_none [] bMinus b (i ++ frac ++ r) (by simp [Blank]) this.1 this.2.1
          simpa using this
        rw [e]; simp
      · have e : token ([45] ++ int ++ frac ++ r) [bMinus] = some (int ++ (frac ++ r)) := by
          have := token_blank [] bMinus (int ++ (frac ++ r)) (by simp [Blank]) (by decide)
          simpa [bMinus] using this
        rw [e]; rfl
    unfold numberEnd
    rw [hm]
    rcases hf with rfl | ⟨ds, rfl, hd⟩
    · rw [List.nil_append, integer_complete hi (fun b hb => (hr b hb).1)]
      simp only
      cases r with
      | nil => rfl
      | cons b r => rw [show raw (b :: r) [bDot] = none by rw [raw, if_neg (hr b rfl).2]]
    · rw [integer_complete hi (by intro b hb; cases hb; decide)]
      simp only
      rw [show raw (46 :: ds ++ r) [bDot] = some (ds ++ r) from raw_append [bDot] (ds ++ r)]
      simp only
      rw [digits_append _ _ hd (fun b hb => (hr b hb).1)]

theorem numberEnd_sound {s r : Bytes} (hs : blank s = s) (h : numberEnd s = some r) : ∃ t, NumberText t ∧ s = t ++ r := by
  unfold numberEnd at h
  have hm : ∃ sign, (sign = [] ∨ sign = [45]) ∧
      s = sign ++ ((token s [bMinus]).getD s) := by
    cases e : token s [bMinus] with
    | none => exact ⟨[], Or.inl rfl, rfl⟩
    | some r =>
      rw [token, raw_iff, hs] at e
      exact ⟨[45], Or.inr rfl, e⟩
  obtain ⟨sign, h1, h2⟩ := hm
  generalize ((token s [bMinus]).getD s) = x at h h2
  split at h
  · cases h
  · rename_i y hy
    obtain ⟨int, h3, rfl⟩ := integer_sound hy
    split at h
    · rename_i z hz
      cases h
      rw [raw_iff] at hz
      obtain ⟨ds, h4, h5⟩ := digits_split z
      refine ⟨sign ++ int ++ (46 :: ds), .mk h1 h3 (Or.inr ⟨ds, rfl, h5⟩), ?_⟩
      rw [h2, hz]
      simp [bDot]
      exact h4
    · cases h
      exact ⟨sign ++ int ++ [], .mk h1 h3 (Or.inl rfl), by rw [h2]; simp⟩

/-! ## The decoder reads exactly the grammar -/

section
variable {N : Type} (dec : Bytes → N)

theorem number_sound {s r : Bytes} {v : Json N} (hs : blank s = s) (h : number dec s = .ok v r) :
    ∃ t, Text dec t v ∧ s = t ++ r := by
  unfold number at h
  split at h
  · cases h
  · rename_i r' h1
    cases h
    obtain ⟨t, h2, h3⟩ := numberEnd_sound hs h1
    refine ⟨t, ?_, h3⟩
    have : s.take (s.length - r.length) = t := by rw [h3]; simp
    rw [this]
    exact .num h2

theorem sound (fuel : Nat) :
    (∀ s v r, value dec fuel s = .ok v r → ∃ w t, Blank w ∧ Text dec t v ∧ s = w ++ t ++ r) ∧
    (∀ s vs r, arrayElements dec fuel s = .ok vs r → (vs = [] ∧ r = s) ∨ ∃ t, Elements dec t vs ∧ s = t ++ r) ∧
    (∀ s es r, objectEntries dec fuel s = .ok es r → (es = [] ∧ r = s) ∨ ∃ t, Entries dec t es ∧ s = t ++ r) := by
  induction fuel with
  | zero => simp [value, arrayElements, objectEntries]
  | succ fuel ih =>
    obtain ⟨ihv, iha, iho⟩ := ih
    refine ⟨?_, ?_, ?_⟩
    · intro s v r h
      obtain ⟨w, hw, hb⟩ := blank_split s
      rw [value] at h
      have key : ∃ t, Text dec t v ∧ blank s = t ++ r := by
        generalize hs' : blank s = s' at h
        have hi : blank s' = s' := by rw [← hs']; exact blank_idem s
        have tok : ∀ {p r}, token s' p = some r → s' = p ++ r := by
          intro p r h; rw [token, hi, raw_iff] at h; exact h
        split at h
        · split at h
          · rename_i h1; cases h; exact ⟨_, .null, tok h1⟩
          · cases h
        split at h
        · split at h
          · rename_i h1; cases h; exact ⟨_, .true, tok h1⟩
          · cases h
        split at h
        · split at h
          · rename_i h1; cases h; exact ⟨_, .false, tok h1⟩
          · cases h
        split at h
        · split at h
          · rename_i hst cs r' h1
            cases h
            obtain ⟨w', t, hw', ht, e⟩ := string_sound h1
            have : w' = [] := by
              cases w' with
              | nil => rfl
              | cons b w' =>
                exfalso
                rw [e, List.append_assoc, blank_append _ _ hw'] at hi
                have := congrArg List.length hi
                rw [show bQuote :: t ++ bQuote :: r = bQuote :: (t ++ bQuote :: r) from rfl, blank_head _ (by decide)] at this
                simp only [List.length_cons, List.length_append] at this
                omega
            subst this
            exact ⟨_, .str ht, by rw [e]; simp⟩
          · cases h
        split at h
        · split at h
          · cases h
          · rename_i s1 h1
            split at h
            · cases h
            · cases h
            · rename_i vs r1 h2
              split at h
              · cases h
              · rename_i r2 h3
                cases h
                obtain ⟨w3, hw3, e3⟩ := token_sound h3
                rcases iha _ _ _ h2 with ⟨rfl, rfl⟩ | ⟨t, ht, e2⟩
                · refine ⟨_, .emptyArr hw3, ?_⟩
                  rw [tok h1, e3]; simp
                · refine ⟨_, .arr ht hw3, ?_⟩
                  rw [tok h1, e2, e3]; simp
        split at h
        · split at h
          · cases h
          · rename_i s1 h1
            split at h
            · cases h
            · cases h
            · rename_i vs r1 h2
              split at h
              · cases h
              · rename_i r2 h3
                cases h
                obtain ⟨w3, hw3, e3⟩ := token_sound h3
                rcases iho _ _ _ h2 with ⟨rfl, rfl⟩ | ⟨t, ht, e2⟩
                · refine ⟨_, .emptyObj hw3, ?_⟩
                  rw [tok h1, e3]; simp
                · refine ⟨_, .obj ht hw3, ?_⟩
                  rw [tok h1, e2, e3]; simp
        exact number_sound dec hi h
      obtain ⟨t, ht, e⟩ := key
      exact ⟨w, t, hb, ht, by rw [List.append_assoc, ← e]; exact hw⟩
    · intro s vs r h
      rw [arrayElements] at h
      split at h
      · cases h
      · cases h; exact Or.inl ⟨rfl, rfl⟩
      · rename_i v r1 h1
        obtain ⟨w, t, hw, ht, e⟩ := ihv _ _ _ h1
        refine Or.inr ?_
        split at h
        · cases h
          exact ⟨_, .one hw ht, e⟩
        · rename_i r2 h2
          obtain ⟨w2, hw2, e2⟩ := token_sound h2
          split at h
          · cases h
          · cases h
          · cases h
          · rename_i v' vs' r3 h3
            cases h
            rcases iha _ _ _ h3 with ⟨h4, _⟩ | ⟨t', ht', e3⟩
            · cases h4
            · refine ⟨_, .more hw ht hw2 ht', ?_⟩
              rw [e, e2, e3]; simp
    · intro s es r h
      rw [objectEntries] at h
      split at h
      · cases h; exact Or.inl ⟨rfl, rfl⟩
      · rename_i k r1 h1
        obtain ⟨w, tk, hw, hk, e⟩ := string_sound h1
        refine Or.inr ?_
        split at h
        · cases h
        · rename_i r2 h2
          obtain ⟨w2, hw2, e2⟩ := token_sound h2
          split at h
          · cases h
          · cases h
          · rename_i v r3 h3
            obtain ⟨w3, t, hw3, ht, e3⟩ := ihv _ _ _ h3
            split at h
            · cases h
              refine ⟨_, .one hw hk hw2 hw3 ht, ?_⟩
              rw [e, e2, e3]; simp
            · rename_i r4 h4
              obtain ⟨w4, hw4, e4⟩ := token_sound h4
              split at h
              · cases h
              · cases h
              · cases h
              · rename_i e' es' r5 h5
                cases h
                rcases iho _ _ _ h5 with ⟨h6, _⟩ | ⟨t', ht', e5⟩
                · cases h6
                · refine ⟨_, .more hw hk hw2 hw3 ht hw4 ht', ?_⟩
                  rw [e, e2, e3, e4, e5]; simp

theorem stops_append (w : Bytes) (c : UInt8) (r : Bytes) (hw : Blank w) (hc : isDigit c = false ∧ c ≠ bDot) :
    Stops (w ++ c :: r) := by
  intro b hb
  cases w with
  | nil => cases hb; exact hc
  | cons a w =>
    cases hb
    rcases hw b (by simp) with rfl | rfl | rfl <;> decide

theorem stops_blank (w : Bytes) (hw : Blank w) : Stops w := by
  intro b hb
  cases w with
  | nil => cases hb
  | cons a w =>
    cases hb
    rcases hw b (by simp) with rfl | rfl | rfl <;> decide

theorem token_head (b : UInt8) (x p : Bytes) (hb : ¬ (b = 32 ∨ b = 9 ∨ b = 10)) : token (b :: x) p = raw (b :: x) p := by
  rw [token, blank_head _ hb]

theorem ns {b c : UInt8} {x : Bytes} (h : b ≠ c) : ¬ starts (b :: x) c = true := by
  simpa [starts] using h

theorem ps {b c : UInt8} {x : Bytes} (h : b = c) : starts (b :: x) c = true := by
  simpa [starts] using h

theorem value_close (fuel : Nat) (w : Bytes) (c : UInt8) (r : Bytes) (hw : Blank w) (hc : c = bCloseArray) :
    value dec (fuel + 1) (w ++ c :: r) = .err := by
  subst hc
  rw [value, blank_append _ _ hw, blank_head _ (by decide)]
  rw [if_neg (ns (by decide)), if_neg (ns (by decide)), if_neg (ns (by decide)), if_neg (ns (by decide)), if_neg (ns (by decide)),
    if_neg (ns (by decide)), number, numberEnd, token_head _ _ _ (by decide)]
  rfl

theorem value_token (fuel : Nat) (w : Bytes) (b : UInt8) (x : Bytes) (hw : Blank w) (hb : ¬ (b = 32 ∨ b = 9 ∨ b = 10)) :
    value dec (fuel + 1) (w ++ b :: x) = value dec (fuel + 1) (b :: x) := by
  rw [value, value, blank_append _ _ hw]

mutual
theorem text_complete {t : Bytes} {v : Json N} (ht : Text dec t v) (w r : Bytes) (fuel : Nat) (hw : Blank w)
    (hr : Stops r) (hf : 2 * (w ++ t ++ r).length + 1 ≤ fuel) : value dec fuel (w ++ t ++ r) = .ok v r := by
  obtain ⟨fuel, rfl⟩ : ∃ f, fuel = f + 1 := ⟨fuel - 1, by omega⟩
  cases ht with
  | null =>
    rw [List.append_assoc, sNull, List.cons_append, value_token dec _ _ _ _ hw (by decide), value,
      blank_head _ (by decide), if_pos (ps rfl), token_head _ _ _ (by decide)]
    rw [show raw (110 :: ([117, 108, 108] ++ r)) sNull = some r from raw_append sNull r]
  | true =>
    rw [List.append_assoc, sTrue, List.cons_append, value_token dec _ _ _ _ hw (by decide), value,
      blank_head _ (by decide), if_neg (ns (by decide)), if_pos (ps rfl), token_head _ _ _ (by decide)]
    rw [show raw (116 :: ([114, 117, 101] ++ r)) sTrue = some r from raw_append sTrue r]
  | false =>
    rw [List.append_assoc, sFalse, List.cons_append, value_token dec _ _ _ _ hw (by decide), value,
      blank_head _ (by decide), if_neg (ns (by decide)), if_neg (ns (by decide)), if_pos (ps rfl),
      token_head _ _ _ (by decide)]
    rw [show raw (102 :: ([97, 108, 115, 101] ++ r)) sFalse = some r from raw_append sFalse r]
  | num ht =>
    obtain ⟨b, x, rfl, h0, h1, h2, h3, h4, h5, h6⟩ := numberText_head ht
    rw [List.append_assoc, List.cons_append, value_token dec _ _ _ _ hw h0, value, blank_head _ h0]
    rw [if_neg (ns h1), if_neg (ns h2), if_neg (ns h3), if_neg (ns h4),
      if_neg (ns h5), if_neg (ns h6), number, ← List.cons_append,
      numberEnd_complete ht hr]
    simp only
    rw [List.length_append, Nat.add_sub_cancel, List.take_left']
    rfl
  | str ht =>
    rename_i t cs
    rw [List.append_assoc, List.cons_append, List.cons_append, value_token dec _ _ _ _ hw (by decide), value,
      blank_head _ (by decide)]
    rw [if_neg (ns (by decide)), if_neg (ns (by decide)), if_neg (ns (by decide)), if_pos (ps rfl)]
    have := string_complete (w := []) (by simp [Blank]) ht r
    rw [show bQuote :: (t ++ [bQuote] ++ r) = [] ++ bQuote :: t ++ bQuote :: r by simp, this]
  | emptyArr hw' =>
    rename_i w'
    rw [List.append_assoc, List.cons_append, List.cons_append, value_token dec _ _ _ _ hw (by decide), value,
      blank_head _ (by decide)]
    rw [if_neg (ns (by decide)), if_neg (ns (by decide)), if_neg (ns (by decide)), if_neg (ns (by decide)), if_pos (ps rfl),
      token_head _ _ _ (by decide),
      show raw (bOpenArray :: (w' ++ [bCloseArray] ++ r)) [bOpenArray] = some (w' ++ bCloseArray :: r) by
        rw [raw_iff]; simp]
    simp only [List.length_append, List.length_cons, List.length_nil] at hf
    obtain ⟨fuel, rfl⟩ : ∃ f, fuel = f + 2 := ⟨fuel - 2, by omega⟩
    simp only
    rw [arrayElements, value_close dec _ _ _ _ hw' rfl]
    simp only
    rw [token_blank _ _ _ hw' (by decide)]
  | arr he hw' =>
    rename_i t w' vs
    rw [List.append_assoc, List.cons_append, List.cons_append, value_token dec _ _ _ _ hw (by decide), value,
      blank_head _ (by decide)]
    rw [if_neg (ns (by decide)), if_neg (ns (by decide)), if_neg (ns (by decide)), if_neg (ns (by decide)), if_pos (ps rfl),
      token_head _ _ _ (by decide),
      show raw (bOpenArray :: (t ++ w' ++ [bCloseArray] ++ r)) [bOpenArray] = some (t ++ (w' ++ bCloseArray :: r)) by
        rw [raw_iff]; simp]
    simp only [List.length_append, List.length_cons, List.length_nil] at hf
    simp only
    rw [(elements_complete he w' r fuel hw' (by simp; omega)).1]
    simp only
    rw [token_blank _ _ _ hw' (by decide)]
  | emptyObj hw' =>
    rename_i w'
    rw [List.append_assoc, List.cons_append, List.cons_append, value_token dec _ _ _ _ hw (by decide), value,
      blank_head _ (by decide)]
    rw [if_neg (ns (by decide)), if_neg (ns (by decide)), if_neg (ns (by decide)), if_neg (ns (by decide)), if_neg (ns (by decide)),
      if_pos (ps rfl), token_head _ _ _ (by decide),
      show raw (bOpenObject :: (w' ++ [bCloseObject] ++ r)) [bOpenObject] = some (w' ++ bCloseObject :: r) by
        rw [raw_iff]; simp]
    simp only [List.length_append, List.length_cons, List.length_nil] at hf
    obtain ⟨fuel, rfl⟩ : ∃ f, fuel = f + 2 := ⟨fuel - 2, by omega⟩
    simp only
    rw [objectEntries, string, token_none _ _ _ _ hw' (by decide) (by decide)]
    simp only
    rw [token_blank _ _ _ hw' (by decide)]
    rfl
  | obj he hw' =>
    rename_i t w' es
    rw [List.append_assoc, List.cons_append, List.cons_append, value_token dec _ _ _ _ hw (by decide), value,
      blank_head _ (by decide)]
    rw [if_neg (ns (by decide)), if_neg (ns (by decide)), if_neg (ns (by decide)), if_neg (ns (by decide)), if_neg (ns (by decide)),
      if_pos (ps rfl), token_head _ _ _ (by decide),
      show raw (bOpenObject :: (t ++ w' ++ [bCloseObject] ++ r)) [bOpenObject] = some (t ++ (w' ++ bCloseObject :: r)) by
        rw [raw_iff]; simp]
    simp only [List.length_append, List.length_cons, List.length_nil] at hf
    simp only
    rw [(entries_complete he w' r fuel hw' (by simp; omega)).1]
    simp only
    rw [token_blank _ _ _ hw' (by decide)]
theorem elements_complete {t : Bytes} {vs : List (Json N)} (ht : Elements dec t vs) (w r : Bytes) (fuel : Nat)
    (hw : Blank w) (hf : 2 * (t ++ (w ++ bCloseArray :: r)).length + 2 ≤ fuel) :
    arrayElements dec fuel (t ++ (w ++ bCloseArray :: r)) = .ok vs (w ++ bCloseArray :: r) ∧ vs ≠ [] := by
  obtain ⟨fuel, rfl⟩ : ∃ f, fuel = f + 1 := ⟨fuel - 1, by omega⟩
  cases ht with
  | one hw' ht =>
    rename_i w' t v
    rw [arrayElements, text_complete ht w' (w ++ bCloseArray :: r) fuel hw' (stops_append _ _ _ hw (by decide)) (by omega)]
    simp only
    rw [token_none _ _ _ _ hw (by decide) (by decide)]
    simp
  | more hw' ht hw'' he =>
    rename_i w' t v w'' t' vs
    have e : w' ++ t ++ w'' ++ bComma :: t' ++ (w ++ bCloseArray :: r) =
        w' ++ t ++ (w'' ++ bComma :: (t' ++ (w ++ bCloseArray :: r))) := by simp
    rw [e] at hf ⊢
    rw [arrayElements, text_complete ht w' _ fuel hw' (stops_append _ _ _ hw'' (by decide)) (by omega)]
    simp only
    rw [token_blank _ _ _ hw'' (by decide)]
    simp only
    simp only [List.length_append, List.length_cons] at hf
    have ih := elements_complete he w r fuel hw (by simp only [List.length_append, List.length_cons]; omega)
    rw [ih.1]
    cases vs with
    | nil => exact absurd rfl ih.2
    | cons v' vs => simp
theorem entries_complete {t : Bytes} {es : List (Bytes × Json N)} (ht : Entries dec t es) (w r : Bytes) (fuel : Nat)
    (hw : Blank w) (hf : 2 * (t ++ (w ++ bCloseObject :: r)).length + 2 ≤ fuel) :
    objectEntries dec fuel (t ++ (w ++ bCloseObject :: r)) = .ok es (w ++ bCloseObject :: r) ∧ es ≠ [] := by
  obtain ⟨fuel, rfl⟩ : ∃ f, fuel = f + 1 := ⟨fuel - 1, by omega⟩
  cases ht with
  | one hw' hk hw1 hw2 ht =>
    rename_i w' k key w1 w2 t v
    have e : w' ++ bQuote :: k ++ bQuote :: w1 ++ bColon :: w2 ++ t ++ (w ++ bCloseObject :: r) =
        w' ++ bQuote :: k ++ bQuote :: (w1 ++ bColon :: (w2 ++ t ++ (w ++ bCloseObject :: r))) := by simp
    rw [e] at hf ⊢
    simp only [List.length_append, List.length_cons] at hf
    rw [objectEntries, string_complete hw' hk]
    simp only
    rw [token_blank _ _ _ hw1 (by decide)]
    simp only
    rw [text_complete ht w2 _ fuel hw2 (stops_append _ _ _ hw (by decide))
      (by simp only [List.length_append, List.length_cons]; omega)]
    simp only
    rw [token_none _ _ _ _ hw (by decide) (by decide)]
    simp
  | more hw' hk hw1 hw2 ht hw'' he =>
    rename_i w' k key w1 w2 t v w'' t' es
    have e : w' ++ bQuote :: k ++ bQuote :: w1 ++ bColon :: w2 ++ t ++ w'' ++ bComma :: t' ++ (w ++ bCloseObject :: r) =
        w' ++ bQuote :: k ++ bQuote :: (w1 ++ bColon :: (w2 ++ t ++ (w'' ++ bComma :: (t' ++ (w ++ bCloseObject :: r))))) := by
      simp
    rw [e] at hf ⊢
    simp only [List.length_append, List.length_cons] at hf
    rw [objectEntries, string_complete hw' hk]
    simp only
    rw [token_blank _ _ _ hw1 (by decide)]
    simp only
    rw [text_complete ht w2 _ fuel hw2 (stops_append _ _ _ hw'' (by decide))
      (by simp only [List.length_append, List.length_cons]; omega)]
    simp only
    rw [token_blank _ _ _ hw'' (by decide)]
    simp only
    have ih := entries_complete he w r fuel hw (by simp only [List.length_append, List.length_cons]; omega)
    rw [ih.1]
    cases es with
    | nil => exact absurd rfl ih.2
    | cons e' es => simp
end

/-- C41: the decoder reads exactly the texts of the grammar: it returns a value if and only if the
input is a text of this value between blanks. -/
theorem c41_decode_iff (s : Bytes) (v : Json N) :
    decode dec s = .value v ↔ ∃ w t w', Blank w ∧ Text dec t v ∧ Blank w' ∧ s = w ++ t ++ w' := by
  constructor
  · intro h
    unfold decode at h
    split at h
    · rename_i v' r h1
      split at h
      · rename_i h2
        cases h
        obtain ⟨w, t, hw, ht, e⟩ := (sound dec _).1 _ _ _ h1
        obtain ⟨w', e', hw'⟩ := blank_split r
        rw [List.length_eq_zero_iff.mp h2, List.append_nil] at e'
        exact ⟨w, t, w', hw, ht, hw', by rw [e, ← e']⟩
      · cases h
    · cases h
  · rintro ⟨w, t, w', hw, ht, hw', rfl⟩
    rw [decode, text_complete dec ht w w' _ hw (stops_blank _ hw') (by omega)]
    simp [blank_all _ hw']

/-- C41: a text spells at most one value. -/
theorem c41_unambiguous (t : Bytes) (v v' : Json N) (h : Text dec t v) (h' : Text dec t v') : v = v' := by
  have hb : Blank [] := by simp [Blank]
  have h1 := (c41_decode_iff dec t v).mpr ⟨[], t, [], hb, h, hb, by simp⟩
  have h2 := (c41_decode_iff dec t v').mpr ⟨[], t, [], hb, h', hb, by simp⟩
  rw [h1] at h2
  cases h2
  rfl

/-! ## The recursion bound is never reached -/

theorem text_ne_nil {t : Bytes} {v : Json N} (h : Text dec t v) : 1 ≤ t.length := by
  cases h with
  | num h => obtain ⟨b, r, rfl, _⟩ := numberText_head h; simp
  | _ => simp [sNull, sTrue, sFalse]

theorem number_not_deep (s : Bytes) : number dec s ≠ .deep := by
  unfold number; split <;> simp

theorem not_deep (n : Nat) : ∀ (s : Bytes), s.length ≤ n → ∀ fuel,
    (2 * s.length + 1 ≤ fuel → value dec fuel s ≠ .deep) ∧
    (2 * s.length + 2 ≤ fuel → arrayElements dec fuel s ≠ .deep) ∧
    (2 * s.length + 2 ≤ fuel → objectEntries dec fuel s ≠ .deep) := by
  induction n with
  | zero =>
    intro s hs fuel
    have : s = [] := List.length_eq_zero_iff.mp (Nat.le_zero.mp hs)
    subst this
    simp only [List.length_nil]
    refine ⟨fun hf => ?_, fun hf => ?_, fun hf => ?_⟩
    · obtain ⟨fuel, rfl⟩ : ∃ f, fuel = f + 1 := ⟨fuel - 1, by omega⟩
      rw [value]; simp [blank, starts, number_not_deep]
    · obtain ⟨fuel, rfl⟩ : ∃ f, fuel = f + 2 := ⟨fuel - 2, by omega⟩
      rw [arrayElements, value]; simp [blank, starts, number, numberEnd, token, raw, integer]
    · obtain ⟨fuel, rfl⟩ : ∃ f, fuel = f + 2 := ⟨fuel - 2, by omega⟩
      rw [objectEntries]; simp [string, token, blank, raw]
  | succ n ih =>
    have hv : ∀ (s : Bytes), s.length ≤ n + 1 → ∀ fuel, 2 * s.length + 1 ≤ fuel → value dec fuel s ≠ .deep := by
      intro s hs fuel hf
      obtain ⟨fuel, rfl⟩ : ∃ f, fuel = f + 1 := ⟨fuel - 1, by omega⟩
      rw [value]
      have hbl : (blank s).length ≤ s.length := by
        obtain ⟨w, h1, _⟩ := blank_split s
        have := congrArg List.length h1
        rw [List.length_append] at this
        omega
      have tl : ∀ {b r}, token (blank s) [b] = some r → r.length + 1 ≤ s.length := by
        intro b r h
        obtain ⟨w, _, e⟩ := token_sound h
        rw [e] at hbl
        simp only [List.length_append, List.length_cons, List.length_nil] at hbl
        omega
      split
      · split <;> simp
      split
      · split <;> simp
      split
      · split <;> simp
      split
      · split <;> simp
      split
      · split
        · simp
        · rename_i r h1
          have := tl h1
          split
          · rename_i h2; exact absurd h2 ((ih r (by omega) fuel).2.1 (by omega))
          · simp
          · split <;> simp
      split
      · split
        · simp
        · rename_i r h1
          have := tl h1
          split
          · rename_i h2; exact absurd h2 ((ih r (by omega) fuel).2.2 (by omega))
          · simp
          · split <;> simp
      exact number_not_deep dec _
    intro s hs fuel
    refine ⟨hv s hs fuel, fun hf => ?_, fun hf => ?_⟩
    · obtain ⟨fuel, rfl⟩ : ∃ f, fuel = f + 1 := ⟨fuel - 1, by omega⟩
      rw [arrayElements]
      split
      · rename_i h; exact absurd h (hv s hs fuel (by omega))
      · simp
      · rename_i v r h1
        obtain ⟨w, t, hw, ht, e⟩ := (sound dec _).1 _ _ _ h1
        have := text_ne_nil dec ht
        split
        · simp
        · rename_i r' h2
          obtain ⟨w', hw', e'⟩ := token_sound h2
          have : r'.length + 2 ≤ s.length := by
            rw [e, e']; simp only [List.length_append, List.length_cons, List.length_nil]; omega
          split
          · rename_i h; exact absurd h ((ih r' (by omega) fuel).2.1 (by omega))
          all_goals simp
    · obtain ⟨fuel, rfl⟩ : ∃ f, fuel = f + 1 := ⟨fuel - 1, by omega⟩
      rw [objectEntries]
      split
      · simp
      · rename_i k r h1
        obtain ⟨w, t, hw, ht, e⟩ := string_sound h1
        have e := congrArg List.length e
        simp only [List.length_append, List.length_cons, List.length_nil] at e
        split
        · simp
        · rename_i r' h2
          obtain ⟨w', hw', e'⟩ := token_sound h2
          have e' := congrArg List.length e'
          simp only [List.length_append, List.length_cons, List.length_nil] at e'
          split
          · rename_i h; exact absurd h (hv r' (by omega) fuel (by omega))
          · simp
          · rename_i v r'' h3
            obtain ⟨w3, t3, hw3, ht3, e3⟩ := (sound dec _).1 _ _ _ h3
            have e3 := congrArg List.length e3
            simp only [List.length_append, List.length_cons, List.length_nil] at e3
            split
            · simp
            · rename_i r4 h4
              obtain ⟨w4, hw4, e4⟩ := token_sound h4
              have e4 := congrArg List.length e4
              simp only [List.length_append, List.length_cons, List.length_nil] at e4
              split
              · rename_i h; exact absurd h ((ih r4 (by omega) fuel).2.2 (by omega))
              all_goals simp

/-- C41: decoding always ends: the recursion bound of `decode` is never reached. -/
theorem decode_not_deep (s : Bytes) (fuel : Nat) (h : 2 * s.length + 1 ≤ fuel) : value dec fuel s ≠ .deep :=
  (not_deep dec _ s (Nat.le_refl _) fuel).1 h

end

end Verif.Pkg.Json
