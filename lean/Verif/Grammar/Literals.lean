import Verif.Grammar.Lemmas

/-! Literals: what is written is read back. -/

namespace Verif.Grammar

/-- The rest does not continue a number. -/
def NumberEnd (s : List Char) : Prop := startsWith (fun c => isWord c || c = '.') s = false

theorem chars1_ok {f : Char → Bool} {d s : List Char} (hd : d ≠ []) (h : ∀ c ∈ d, f c = true)
    (hs : startsWith f s = false) : chars1 f (d ++ s) = .ok d s := by
  obtain ⟨h1, h2⟩ := takeWhile_append_end h hs
  cases d with
  | nil => exact absurd rfl hd
  | cons c d =>
    have : startsWith f (c :: d ++ s) = true := h c (by simp)
    rw [chars1, if_pos this, h1, h2]

theorem chars1_error {f : Char → Bool} {s : List Char} (h : startsWith f s = false) :
    chars1 f s = .error := by simp [chars1, h]

theorem oneOf_error {f : Char → Bool} {s : List Char} (h : startsWith f s = false) :
    oneOf f s = .error := by
  cases s with
  | nil => rfl
  | cons c s => simp [startsWith] at h; simp [oneOf, h]

theorem startsWith_mono {f g : Char → Bool} {s : List Char} (hs : startsWith g s = false)
    (h : ∀ c, f c = true → g c = true) : startsWith f s = false := by
  cases s with
  | nil => rfl
  | cons c s =>
    simp only [startsWith] at hs ⊢
    cases hf : f c with
    | false => rfl
    | true => rw [h c hf] at hs; cases hs

theorem isDigit_word (c : Char) (h : c.isDigit = true) : isWord c = true := by
  simp [isWord, Char.isAlphanum, h]

theorem startsWith_digits {f : Char → Bool} {d s : List Char} (hd : IsDigits d)
    (h : ∀ c, c.isDigit = true → f c = false) : startsWith f (d ++ s) = false := by
  obtain ⟨hn, hd⟩ := hd
  cases d with
  | nil => exact absurd rfl hn
  | cons c d => exact h c (hd c (by simp))

theorem sign_opt {sgn s : List Char} (h : IsSign sgn)
    (hs : startsWith (fun c => c = '+' || c = '-') s = false) :
    ∃ x, opt (oneOf fun c => c = '+' || c = '-') (sgn ++ s) = .ok x s ∧ optText x = sgn := by
  rcases h with rfl | rfl | rfl
  · exact ⟨none, opt_error (oneOf_error hs), rfl⟩
  · exact ⟨some '+', opt_ok rfl, rfl⟩
  · exact ⟨some '-', opt_ok rfl, rfl⟩

theorem digit_not {c : Char} (h : c.isDigit = true) :
    c ≠ '+' ∧ c ≠ '-' ∧ c ≠ '.' ∧ c ≠ 'e' ∧ c ≠ 'E' ∧ c ≠ 'b' ∧ c ≠ 'x' := by
  refine ⟨?_, ?_, ?_, ?_, ?_, ?_, ?_⟩ <;> (rintro rfl; revert h; decide)

/-- The exponent. -/
def exponent : Parser (List Char) := do
  let e ← oneOf fun c => c = 'e' || c = 'E'
  let s ← opt (oneOf fun c => c = '+' || c = '-')
  let d ← cut (chars1 Char.isDigit)
  pure (e :: (optText s ++ d))

/-- The mantissa. -/
def mantissa : Parser (List Char) := orElse
    (do
      let d ← chars1 Char.isDigit
      let f ← opt (do
        let p ← oneOf (· = '.')
        let f ← opt (chars1 Char.isDigit)
        pure (p :: f.getD []))
      pure (d ++ f.getD []))
    (do
      let p ← oneOf (· = '.')
      let f ← chars1 Char.isDigit
      pure (p :: f))

theorem recognizeFloat_eq : recognizeFloat = (do
  let s ← opt (oneOf fun c => c = '+' || c = '-')
  let m ← mantissa
  let e ← opt exponent
  pure (optText s ++ m ++ e.getD [])) := rfl

theorem mantissa_ok {m s : List Char}
    (hm : IsDigits m ∨ (∃ d, m = d ++ ['.'] ∧ IsDigits d) ∨
      (∃ d f, m = d ++ '.' :: f ∧ IsDigits d ∧ IsDigits f) ∨ (∃ f, m = '.' :: f ∧ IsDigits f))
    (hs : startsWith (fun c => c.isDigit || c = '.') s = false) : mantissa (m ++ s) = .ok m s := by
  have h1 : startsWith Char.isDigit s = false := startsWith_mono hs (fun c h => by simp [h])
  have h2 : startsWith (· = '.') s = false := startsWith_mono hs (fun c h => by
    simp at h; simp [h])
  rcases hm with hm | ⟨d, rfl, hd⟩ | ⟨d, f, rfl, hd, hf⟩ | ⟨f, rfl, hf⟩
  · refine orElse_ok ?_
    refine (bind_ok (chars1_ok hm.1 hm.2 h1)).trans ?_
    refine (bind_ok (opt_error (bind_error (oneOf_error h2)))).trans ?_
    simp [pure_apply]
  · refine orElse_ok ?_
    rw [List.append_assoc]
    refine (bind_ok (chars1_ok hd.1 hd.2 (by simp [startsWith]))).trans ?_
    refine (bind_ok (opt_ok (a := ['.']) (r := s) ?_)).trans ?_
    · refine (bind_ok (a := '.') (r := s) (by simp [oneOf])).trans ?_
      refine (bind_ok (opt_error (chars1_error h1))).trans ?_
      simp [pure_apply]
    · simp [pure_apply]
  · refine orElse_ok ?_
    rw [List.append_assoc]
    refine (bind_ok (chars1_ok hd.1 hd.2 (by simp [startsWith]))).trans ?_
    refine (bind_ok (opt_ok (a := '.' :: f) (r := s) ?_)).trans ?_
    · refine (bind_ok (a := '.') (r := f ++ s) (by simp [oneOf])).trans ?_
      refine (bind_ok (opt_ok (chars1_ok hf.1 hf.2 h1))).trans ?_
      simp [pure_apply]
    · simp [pure_apply]
  · refine (orElse_error ?_).trans ?_
    · exact bind_error (chars1_error (by simp [startsWith]))
    · refine (bind_ok (a := '.') (r := f ++ s) (by simp [oneOf])).trans ?_
      refine (bind_ok (chars1_ok hf.1 hf.2 h1)).trans ?_
      simp [pure_apply]

theorem exponent_ok {e s : List Char} (hs : startsWith isWord s = false)
    (he : e = [] ∨ ∃ x sgn' d, e = x :: (sgn' ++ d) ∧ (x = 'e' ∨ x = 'E') ∧ IsSign sgn' ∧
      IsDigits d) :
    ∃ y, opt exponent (e ++ s) = .ok y s ∧ y.getD [] = e := by
  rcases he with rfl | ⟨x, sgn, d, rfl, hx, hsgn, hd⟩
  · refine ⟨none, opt_error (bind_error (oneOf_error ?_)), rfl⟩
    refine startsWith_mono hs fun c h => ?_
    simp at h
    rcases h with rfl | rfl <;> decide
  · have h1 : startsWith Char.isDigit s = false := startsWith_mono hs isDigit_word
    refine ⟨some (x :: (sgn ++ d)), opt_ok ?_, rfl⟩
    simp only [List.cons_append, List.append_assoc]
    refine (bind_ok (a := x) (r := sgn ++ (d ++ s)) (by simp [oneOf, hx])).trans ?_
    obtain ⟨y, hy, e⟩ := sign_opt (s := d ++ s) hsgn (startsWith_digits hd fun c hc => by
      have := digit_not hc; simp [this])
    refine (bind_ok hy).trans ?_
    refine (bind_ok (cut_ok (chars1_ok hd.1 hd.2 h1))).trans ?_
    simp [pure_apply, e]

theorem exponent_start {e s : List Char} (hs : NumberEnd s)
    (he : e = [] ∨ ∃ x sgn' d, e = x :: (sgn' ++ d) ∧ (x = 'e' ∨ x = 'E') ∧ IsSign sgn' ∧
      IsDigits d) : startsWith (fun c => c.isDigit || c = '.') (e ++ s) = false := by
  rcases he with rfl | ⟨x, sgn, d, rfl, hx, _⟩
  · refine startsWith_mono hs fun c h => ?_
    simp at h
    rcases h with h | rfl
    · simp [isDigit_word c h]
    · simp
  · rcases hx with rfl | rfl <;> simp [startsWith]

theorem mantissa_start {m s : List Char}
    (hm : IsDigits m ∨ (∃ d, m = d ++ ['.'] ∧ IsDigits d) ∨
      (∃ d f, m = d ++ '.' :: f ∧ IsDigits d ∧ IsDigits f) ∨ (∃ f, m = '.' :: f ∧ IsDigits f)) :
    startsWith (fun c => c = '+' || c = '-') (m ++ s) = false := by
  have hdig : ∀ c : Char, c.isDigit = true → (c = '+' || c = '-' : Bool) = false := fun c hc => by
    have := digit_not hc; simp [this]
  rcases hm with hm | ⟨d, rfl, hd⟩ | ⟨d, f, rfl, hd, hf⟩ | ⟨f, rfl, hf⟩
  · exact startsWith_digits hm hdig
  · rw [List.append_assoc]; exact startsWith_digits hd hdig
  · rw [List.append_assoc]; exact startsWith_digits hd hdig
  · simp [startsWith]

theorem NumberEnd.word {s : List Char} (h : NumberEnd s) : startsWith isWord s = false :=
  startsWith_mono h fun c h => by simp [h]

theorem recognizeFloat_ok {t s : List Char} (ht : IsDecimal t) (hs : NumberEnd s) :
    recognizeFloat (t ++ s) = .ok t s := by
  obtain ⟨sgn, m, e, rfl, hsgn, hm, he⟩ := ht
  rw [recognizeFloat_eq]
  simp only [List.append_assoc]
  obtain ⟨x, hx, ex⟩ := sign_opt (s := m ++ (e ++ s)) hsgn (mantissa_start hm)
  obtain ⟨y, hy, ey⟩ := exponent_ok (e := e) (s := s) hs.word he
  refine (bind_ok hx).trans ?_
  refine (bind_ok (mantissa_ok hm (exponent_start hs he))).trans ?_
  refine (bind_ok hy).trans ?_
  simp [pure_apply, ex, ey]

/-- The characters of decimal literals. -/
theorem IsDecimal.chars {t : List Char} (h : IsDecimal t) :
    t ≠ [] ∧ ∀ c ∈ t, c.isDigit = true ∨ c = '.' ∨ c = '+' ∨ c = '-' ∨ c = 'e' ∨ c = 'E' := by
  obtain ⟨sgn, m, e, rfl, hsgn, hm, he⟩ := h
  have h1 : ∀ c ∈ sgn, c = '+' ∨ c = '-' := by
    rcases hsgn with rfl | rfl | rfl <;> simp
  have h2 : m ≠ [] ∧ ∀ c ∈ m, c.isDigit = true ∨ c = '.' := by
    rcases hm with hm | ⟨d, rfl, hd⟩ | ⟨d, f, rfl, hd, hf⟩ | ⟨f, rfl, hf⟩
    · exact ⟨hm.1, fun c hc => .inl (hm.2 c hc)⟩
    · refine ⟨by simp, fun c hc => ?_⟩
      simp at hc
      exact hc.imp (hd.2 c) id
    · refine ⟨by simp, fun c hc => ?_⟩
      simp at hc
      rcases hc with hc | hc | hc
      · exact .inl (hd.2 c hc)
      · exact .inr hc
      · exact .inl (hf.2 c hc)
    · refine ⟨by simp, fun c hc => ?_⟩
      simp at hc
      rcases hc with hc | hc
      · exact .inr hc
      · exact .inl (hf.2 c hc)
  have h3 : ∀ c ∈ e, c.isDigit = true ∨ c = '+' ∨ c = '-' ∨ c = 'e' ∨ c = 'E' := by
    rcases he with rfl | ⟨x, sgn', d, rfl, hx, hs', hd⟩
    · simp
    · intro c hc
      simp at hc
      rcases hc with rfl | hc | hc
      · rcases hx with rfl | rfl <;> simp
      · rcases hs' with rfl | rfl | rfl <;> simp at hc <;> simp [hc]
      · exact .inl (hd.2 c hc)
  refine ⟨by simp [h2.1], fun c hc => ?_⟩
  simp at hc
  rcases hc with hc | hc | hc
  · rcases h1 c hc with h | h <;> simp [h]
  · rcases h2.2 c hc with h | h <;> simp [h]
  · rcases h3 c hc with h | h | h | h | h <;> simp [h]

theorem tag_two {z : Char} {t s : List Char} (hz : isWord z = true) (ht : t ≠ [])
    (h : ∀ c ∈ t, c ≠ z) (hs : startsWith isWord s = false) : tag ['0', z] (t ++ s) = .error := by
  cases t with
  | nil => exact absurd rfl ht
  | cons c t =>
    by_cases hc : '0' = c
    · subst hc
      cases t with
      | nil =>
        cases s with
        | nil => simp [tag]
        | cons d s =>
          simp [startsWith] at hs
          have : z ≠ d := by rintro rfl; rw [hz] at hs; cases hs
          simp [tag, this]
      | cons d t =>
        have : z ≠ d := Ne.symm (h d (by simp))
        simp [tag, this]
    · simp [tag, hc]

theorem decimal_solid {c : Char}
    (h : c.isDigit = true ∨ c = '.' ∨ c = '+' ∨ c = '-' ∨ c = 'e' ∨ c = 'E') : Solid c := by
  rcases h with h | rfl | rfl | rfl | rfl | rfl
  · refine ⟨?_, ?_⟩
    · cases hh : isSpace c with
      | false => rfl
      | true =>
        simp [isSpace] at hh
        rcases hh with ((rfl | rfl) | rfl) | rfl <;> revert h <;> decide
    · rintro rfl; revert h; decide
  all_goals decide

theorem hex_cases {c : Char} (h : isHex c = true) : c ∈ "0123456789abcdefABCDEF".toList := by
  simpa [isHex] using h

theorem hex_upper {c : Char} (h : isHex c = true) (hu : c.isUpper = false) :
    isHex c.toUpper = true ∧ c.toUpper.toLower = c := by
  have : c ∈ "0123456789abcdefABCDEF".toList := hex_cases h
  have all : ∀ c ∈ "0123456789abcdefABCDEF".toList, c.isUpper = false →
      isHex c.toUpper = true ∧ c.toUpper.toLower = c := by decide
  exact all c this hu

theorem hex_word {c : Char} (h : isHex c = true) : isWord c = true := by
  have all : ∀ c ∈ "0123456789abcdefABCDEF".toList, isWord c = true := by decide
  exact all c (hex_cases h)

/-- Number literals are read back. -/
theorem number_ok {n : Number} {s : List Char} (hn : IsNumber n) (hs : NumberEnd s) :
    number (numberText n ++ s) = .ok n s := by
  have hd : startsWith Char.isDigit s = false := startsWith_mono hs.word isDigit_word
  have hnext : notNext Char.isDigit s = .ok () s := by simp [notNext, hd]
  unfold number token
  cases n with
  | binary d =>
    rw [show blank (numberText (.binary d) ++ s) = numberText (.binary d) ++ s from
      blank_solid (by decide) _]
    refine (bind_ok (alt_ok (a := .binary d) (r := s) ?_)).trans ((bind_ok hnext).trans rfl)
    simp only [numberText, List.append_assoc]
    refine (bind_ok (tag_append _ _)).trans ?_
    refine (bind_ok (cut_ok (chars1_ok hn.1 ?_ ?_))).trans rfl
    · intro c hc; simpa using hn.2 c hc
    · refine startsWith_mono hs.word fun c hc => ?_
      simp at hc
      rcases hc with rfl | rfl <;> decide
  | hexadecimal d =>
    rw [show blank (numberText (.hexadecimal d) ++ s) = numberText (.hexadecimal d) ++ s from
      blank_solid (by decide) _]
    refine (bind_ok (a := .hexadecimal d) (r := s) ?_).trans ((bind_ok hnext).trans rfl)
    refine (alt_error ?_).trans (alt_ok ?_)
    · exact bind_error (by simp [numberText, tag])
    · simp only [numberText, List.append_assoc]
      refine (bind_ok (tag_append _ _)).trans ?_
      refine (bind_ok (cut_ok (chars1_ok (d := d.map Char.toUpper) ?_ ?_ ?_))).trans ?_
      · simpa using hn.1
      · intro c hc
        obtain ⟨c', hc', rfl⟩ := List.mem_map.1 hc
        exact (hex_upper (hn.2 c' hc').1 (hn.2 c' hc').2).1
      · exact startsWith_mono hs.word fun c hc => hex_word hc
      · simp only [pure_apply, List.map_map]
        congr 2
        have : ∀ c ∈ d, (Char.toLower ∘ Char.toUpper) c = c := fun c hc =>
          (hex_upper (hn.2 c hc).1 (hn.2 c hc).2).2
        rw [List.map_congr_left this]
        simp
  | floatingPoint t =>
    have hchars := IsDecimal.chars hn
    have hb : blank (numberText (.floatingPoint t) ++ s) = t ++ s := by
      simp only [numberText]
      cases t with
      | nil => exact absurd rfl hchars.1
      | cons c t => exact blank_solid (decimal_solid (hchars.2 c (by simp))) _
    rw [hb]
    have hne : ∀ z : Char, (z = 'b' ∨ z = 'x') → ∀ c ∈ t, c ≠ z := by
      intro z hz c hc e
      subst e
      rcases hchars.2 c hc with h | h | h | h | h | h
      · have := digit_not h
        rcases hz with h' | h' <;> simp [h'] at this
      all_goals (rcases hz with h' | h' <;> (rw [h'] at h; exact absurd h (by decide)))
    refine (bind_ok (a := .floatingPoint t) (r := s) ?_).trans ((bind_ok hnext).trans rfl)
    refine (alt_error ?_).trans ((alt_error ?_).trans (alt_ok ?_))
    · exact bind_error (tag_two (by decide) hchars.1 (hne _ (.inl rfl)) hs.word)
    · exact bind_error (tag_two (by decide) hchars.1 (hne _ (.inr rfl)) hs.word)
    · exact (bind_ok (recognizeFloat_ok hn hs)).trans rfl

/-- Something that does not start a number is in front. -/
theorem number_error {c : Char} {s r : List Char} (hb : blank s = c :: r)
    (h1 : c.isDigit = false) (h2 : c ≠ '+') (h3 : c ≠ '-')
    (h4 : c ≠ '.' ∨ startsWith Char.isDigit r = false) : number s = .error := by
  unfold number token
  rw [hb]
  have h0 : ¬ '0' = c := by rintro rfl; revert h1; decide
  refine bind_error ?_
  refine (alt_error (bind_error (by simp [tag, h0]))).trans
    ((alt_error (bind_error (by simp [tag, h0]))).trans ((alt_error ?_).trans alt_nil))
  refine bind_error ?_
  rw [recognizeFloat_eq]
  refine (bind_ok (opt_error (oneOf_error (by simp [startsWith, h2, h3])))).trans (bind_error ?_)
  refine (orElse_error (bind_error (chars1_error (by simp [startsWith, h1])))).trans ?_
  by_cases h5 : c = '.'
  · subst h5
    refine (bind_ok (a := '.') (r := r) (by simp [oneOf])).trans (bind_error ?_)
    exact chars1_error (h4.resolve_left (by simp))
  · exact bind_error (oneOf_error (by simp [startsWith, h5]))

theorem stringPiece_ok {p : List Char} (h : IsStringPiece p) (s : List Char) :
    stringPiece (p ++ s) = .ok p s ∧ p ≠ [] := by
  rcases h with ⟨c, rfl, h1, h2⟩ | ⟨e, rfl, h⟩ | ⟨a, b, rfl, ha, hb⟩
  · simp [stringPiece, h1, h2]
  · simp [stringPiece]
    rcases h with rfl | rfl | rfl | rfl | rfl <;> simp
  · simp [stringPiece, ha, hb]

theorem stringPieces_ok {ps : List (List Char)} (h : ∀ p ∈ ps, IsStringPiece p) (s : List Char) :
    Many stringPiece (ps.flatten ++ '"' :: s) ps ('"' :: s) := by
  induction ps with
  | nil => exact .nil (by simp [stringPiece])
  | cons p ps ih =>
    simp only [List.mem_cons, forall_eq_or_imp] at h
    obtain ⟨h1, h2⟩ := stringPiece_ok h.1 (ps.flatten ++ '"' :: s)
    simp only [List.flatten_cons, List.append_assoc]
    refine .cons h1 ?_ (ih h.2)
    have := List.length_pos_iff.2 h2
    simp; omega

/-- String literals are read back. -/
theorem stringLiteral_ok {t : List Char} (h : IsStringText t) (s : List Char) :
    stringLiteral ("\"".toList ++ (t ++ ("\"".toList ++ s))) = .ok t s := by
  obtain ⟨ps, rfl, hp⟩ := h
  unfold stringLiteral token
  rw [show blank ("\"".toList ++ (ps.flatten ++ ("\"".toList ++ s))) = _ from
    blank_solid (by decide) _]
  refine (bind_ok (tag_append ['"'] _)).trans (cut_ok ?_)
  refine (bind_ok (stringPieces_ok hp s).many0).trans ?_
  exact (bind_ok (tag_append ['"'] _)).trans rfl

theorem stringLiteral_error {c : Char} {s r : List Char} (hb : blank s = c :: r) (h : c ≠ '"') :
    stringLiteral s = .error := by
  unfold stringLiteral token
  rw [hb]
  exact bind_error (by simp [tag, Ne.symm h])

/-- How number literals start. -/
theorem numberText_head {n : Number} (h : IsNumber n) :
    ∃ c t, numberText n = c :: t ∧ (c.isDigit = true ∨ c = '.' ∨ c = '+' ∨ c = '-') := by
  cases n with
  | binary d => exact ⟨'0', _, rfl, .inl (by decide)⟩
  | hexadecimal d => exact ⟨'0', _, rfl, .inl (by decide)⟩
  | floatingPoint t =>
    obtain ⟨sgn, m, e, rfl, hsgn, hm, he⟩ := h
    simp only [numberText]
    rcases hsgn with rfl | rfl | rfl
    · have hdig : ∀ d r : List Char, IsDigits d → ∃ c t, d ++ r = c :: t ∧
          (c.isDigit = true ∨ c = '.' ∨ c = '+' ∨ c = '-') := by
        intro d r hd
        obtain ⟨hn, hd⟩ := hd
        cases d with
        | nil => exact absurd rfl hn
        | cons c d => exact ⟨c, _, rfl, .inl (hd c (by simp))⟩
      rcases hm with hm | ⟨d, rfl, hd⟩ | ⟨d, f, rfl, hd, hf⟩ | ⟨f, rfl, hf⟩
      · simpa using hdig m e hm
      · simpa using hdig d _ hd
      · simpa using hdig d _ hd
      · exact ⟨'.', _, rfl, by simp⟩
    · exact ⟨'+', _, rfl, by simp⟩
    · exact ⟨'-', _, rfl, by simp⟩

end Verif.Grammar
