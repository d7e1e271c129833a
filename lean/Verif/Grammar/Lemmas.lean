import Verif.Grammar.Specification

/-! Lemmas about combinators and the lexical part. -/

namespace Verif.Grammar

/-! ## Combinators -/

section
variable {α β : Type} {p q : Parser α} {f : α → Parser β} {s r : List Char} {a : α}

theorem bind_ok (h : p s = .ok a r) : (p >>= f) s = f a r := by
  show (p s).bind f = _
  rw [h]; rfl

theorem bind_error (h : p s = .error) : (p >>= f) s = .error := by
  show (p s).bind f = _
  rw [h]; rfl

theorem bind_apply : (p >>= f) s = (p s).bind f := rfl

theorem pure_apply : (pure a : Parser α) s = .ok a s := rfl

theorem cut_ok (h : p s = .ok a r) : cut p s = .ok a r := by simp [cut, h]

theorem orElse_ok (h : p s = .ok a r) : orElse p q s = .ok a r := by simp [orElse, h]

theorem orElse_error (h : p s = .error) : orElse p q s = q s := by simp [orElse, h]

theorem alt_nil : alt ([] : List (Parser α)) s = .error := rfl

theorem alt_ok {ps : List (Parser α)} (h : p s = .ok a r) : alt (p :: ps) s = .ok a r :=
  orElse_ok h

theorem alt_error {ps : List (Parser α)} (h : p s = .error) : alt (p :: ps) s = alt ps s :=
  orElse_error h

theorem opt_ok (h : p s = .ok a r) : opt p s = .ok (some a) r := by simp [opt, h]

theorem opt_error (h : p s = .error) : opt p s = .ok none s := by simp [opt, h]

theorem verify_ok {v : α → Bool} (h : p s = .ok a r) (hv : v a = true) :
    verify p v s = .ok a r := by simp [verify, h, hv]

theorem verify_error {v : α → Bool} (h : p s = .error) : verify p v s = .error := by
  simp [verify, h]

end

/-- The successful runs of `many0`. -/
inductive Many {α : Type} (p : Parser α) : List Char → List α → List Char → Prop where
  | nil {s} : p s = .error → Many p s [] s
  | cons {s a r as r'} : p s = .ok a r → r.length < s.length → Many p r as r' →
      Many p s (a :: as) r'

theorem Many.loop {α : Type} {p : Parser α} {s : List Char} {as : List α} {r : List Char}
    (h : Many p s as r) : ∀ n, s.length < n → manyLoop p n s = .ok as r := by
  induction h with
  | nil h =>
    intro n hn
    obtain ⟨m, rfl⟩ : ∃ m, n = m + 1 := ⟨n - 1, by omega⟩
    simp [manyLoop, h]
  | cons h hl _ ih =>
    intro n hn
    obtain ⟨m, rfl⟩ : ∃ m, n = m + 1 := ⟨n - 1, by omega⟩
    simp [manyLoop, h, hl, ih m (by omega), R.bind, success]

theorem Many.many0 {α : Type} {p : Parser α} {s : List Char} {as : List α} {r : List Char}
    (h : Many p s as r) : many0 p s = .ok as r := h.loop _ (by omega)

theorem many1_ok {α : Type} {p : Parser α} {s r r' : List Char} {a : α} {as : List α}
    (h : p s = .ok a r) (h' : Many p r as r') : many1 p s = .ok (a :: as) r' :=
  (bind_ok h).trans (bind_ok h'.many0)

theorem many1_error {α : Type} {p : Parser α} {s : List Char} (h : p s = .error) :
    many1 p s = .error := bind_error h

/-! ## White space -/

theorem skip_comment (t : List Char) (ht : ∀ d ∈ t, isNewline d = false) (s : List Char) :
    skip true (t ++ s) = skip true s := by
  induction t with
  | nil => rfl
  | cons c t ih =>
    simp only [List.mem_cons, forall_eq_or_imp] at ht
    simp only [List.cons_append, skip, ht.1]
    exact ih ht.2

theorem blank_append {b : List Char} (h : Blank b) (s : List Char) : blank (b ++ s) = blank s := by
  induction h with
  | nil => rfl
  | space hc _ ih => simpa [blank, skip, hc] using ih
  | @comment t c b ht hc _ ih =>
    have h1 : isSpace '#' = false := by decide
    simp only [blank, List.cons_append, skip, h1, List.append_assoc]
    simp only [Bool.false_eq_true, if_false, if_true]
    rw [skip_comment t ht]
    simp only [skip, hc, if_true]
    exact ih

theorem skip_false_idem : ∀ (b : Bool) (s : List Char), skip false (skip b s) = skip b s
  | _, [] => by cases ‹Bool› <;> rfl
  | true, c :: s => by
    simp only [skip]
    split <;> exact skip_false_idem _ s
  | false, c :: s => by
    simp only [skip]
    split
    · exact skip_false_idem _ s
    · rename_i h
      split
      · exact skip_false_idem _ s
      · rename_i h'
        simp [skip, h, h']

theorem blank_blank (s : List Char) : blank (blank s) = blank s := skip_false_idem _ _

/-- A character that is neither white space nor the start of a comment. -/
def Solid (c : Char) : Prop := isSpace c = false ∧ c ≠ '#'

instance (c : Char) : Decidable (Solid c) := inferInstanceAs (Decidable (_ ∧ _))

theorem blank_solid {c : Char} (h : Solid c) (s : List Char) : blank (c :: s) = c :: s := by
  simp [blank, skip, h.1, h.2]

theorem blank_length : ∀ (b : Bool) (s : List Char), (skip b s).length ≤ s.length
  | _, [] => by cases ‹Bool› <;> simp [skip]
  | true, c :: s => by
    simp only [skip]
    split
    · have := blank_length false s; simp; omega
    · have := blank_length true s; simp; omega
  | false, c :: s => by
    simp only [skip]
    split
    · have := blank_length false s; simp; omega
    · split
      · have := blank_length true s; simp; omega
      · simp

theorem Blank.append {a b : List Char} (ha : Blank a) (hb : Blank b) : Blank (a ++ b) := by
  induction ha with
  | nil => exact hb
  | space hc _ ih => exact .space hc ih
  | comment ht hc _ ih =>
    simp only [List.cons_append, List.append_assoc]
    exact .comment ht hc ih

/-- A non-empty gap starts with white space or a comment. -/
theorem Blank.head {c : Char} {b : List Char} (h : Blank (c :: b)) :
    isSpace c = true ∨ c = '#' := by
  cases h with
  | space h _ => exact .inl h
  | comment => exact .inr rfl

/-! ## Parsers that skip white space -/

/-- The parser skips white space before it starts. -/
def Skips {α : Type} (p : Parser α) : Prop := ∀ s, p s = p (blank s)

theorem Skips.append {α : Type} {p : Parser α} (h : Skips p) {b : List Char} (hb : Blank b)
    (s : List Char) : p (b ++ s) = p s := by
  rw [h, blank_append hb, ← h]

theorem skips_token {α : Type} (p : Parser α) : Skips (token p) := fun s => by
  simp [token, blank_blank]

theorem Skips.bind {α β : Type} {p : Parser α} (h : Skips p) (f : α → Parser β) :
    Skips (p >>= f) := fun s => by
  simp only [bind_apply]; rw [h]

theorem Skips.cut {α : Type} {p : Parser α} (h : Skips p) : Skips (cut p) := fun s => by
  simp only [Verif.Grammar.cut]; rw [h]

theorem Skips.verify {α : Type} {p : Parser α} (h : Skips p) (v : α → Bool) :
    Skips (verify p v) := fun s => by
  simp only [Verif.Grammar.verify]; rw [h]

theorem Skips.orElse {α : Type} {p q : Parser α} (hp : Skips p) (hq : Skips q) :
    Skips (orElse p q) := fun s => by
  simp only [Verif.Grammar.orElse]; rw [hp, hq]

theorem skips_alt {α : Type} {ps : List (Parser α)} (h : ∀ p ∈ ps, Skips p) : Skips (alt ps) := by
  induction ps with
  | nil => intro s; rfl
  | cons p ps ih =>
    exact Skips.orElse (h p (by simp)) (ih fun q hq => h q (by simp [hq]))

theorem skips_sign (t : List Char) : Skips (sign t) := by
  unfold sign
  split
  · exact (skips_token _).bind _
  · exact skips_token _

theorem skips_keyword (t : List Char) : Skips (keyword t) := skips_token _

theorem skips_identifier : Skips identifier := skips_token _

theorem many1_skips {α : Type} {p : Parser α} (h : Skips p) : Skips (many1 p) := h.bind _

theorem separated1_skips {α : Type} {p : Parser α} (h : Skips p) (q : Parser Unit) :
    Skips (separated1 q p) := h.bind _

/-! ## Signs -/

theorem tag_append (t s : List Char) : tag t (t ++ s) = .ok () s := by
  induction t with
  | nil => cases s <;> rfl
  | cons c t ih => simp [tag, ih]

theorem tag_cases (t s : List Char) :
    (∃ r, s = t ++ r ∧ tag t s = .ok () r) ∨ tag t s = .error := by
  induction t generalizing s with
  | nil => exact .inl ⟨s, rfl, by cases s <;> rfl⟩
  | cons c t ih =>
    cases s with
    | nil => exact .inr rfl
    | cons d s =>
      by_cases h : c = d
      · subst h
        rcases ih s with ⟨r, rfl, hr⟩ | hr
        · exact .inl ⟨r, rfl, by simp [tag, hr]⟩
        · exact .inr (by simp [tag, hr])
      · exact .inr (by simp [tag, h])

/-- A sign without characters of operators. -/
theorem sign_plain {t s : List Char} (ht : t.any isOperator = false) :
    sign t s = tag t (blank s) := by
  simp [sign, ht, token]

/-- A sign with characters of operators. -/
theorem sign_operator {t s : List Char} (ht : t.any isOperator = true) :
    sign t s = (tag t (blank s)).bind fun _ => notNext (· = '=') := by
  simp [sign, ht, token, bind_apply]

/-- A sign in front of the input. -/
theorem sign_ok {t : List Char} {c : Char} {t' : List Char} (s : List Char) (e : t = c :: t')
    (hc : Solid c) (ht : t.any isOperator = false) : sign t (t ++ s) = .ok () s := by
  rw [sign_plain ht, e, List.cons_append, blank_solid hc, ← List.cons_append, tag_append]

theorem sign_operator_ok {t : List Char} {c : Char} {t' : List Char} (s : List Char)
    (e : t = c :: t') (hc : Solid c) (ht : t.any isOperator = true)
    (hs : startsWith (· = '=') s = false) : sign t (t ++ s) = .ok () s := by
  rw [sign_operator ht, e, List.cons_append, blank_solid hc, ← List.cons_append, tag_append]
  simp [R.bind, notNext, hs]

/-- Another character is in front. -/
theorem sign_error {t : List Char} {c d : Char} {t' s r : List Char} (e : t = c :: t')
    (hs : blank s = d :: r) (h : c ≠ d) : sign t s = .error := by
  have : tag t (blank s) = .error := by rw [e, hs]; simp [tag, h]
  by_cases ht : t.any isOperator = true
  · rw [sign_operator ht, this]; rfl
  · rw [sign_plain (by simpa using ht), this]

theorem sign_nil {t : List Char} {c : Char} {t' s : List Char} (e : t = c :: t')
    (hs : blank s = []) : sign t s = .error := by
  have : tag t (blank s) = .error := by rw [e, hs]; simp [tag]
  by_cases ht : t.any isOperator = true
  · rw [sign_operator ht, this]; rfl
  · rw [sign_plain (by simpa using ht), this]

/-! ## Identifiers and keywords -/

/-- The rest does not continue an identifier. -/
def WordEnd (s : List Char) : Prop := startsWith isWord s = false

theorem takeWhile_append_end {f : Char → Bool} {x s : List Char} (hx : ∀ c ∈ x, f c = true)
    (hs : startsWith f s = false) :
    (x ++ s).takeWhile f = x ∧ (x ++ s).dropWhile f = s := by
  induction x with
  | nil =>
    cases s with
    | nil => simp
    | cons c s => simp [startsWith] at hs; simp [hs]
  | cons c x ih =>
    simp only [List.mem_cons, forall_eq_or_imp] at hx
    obtain ⟨h1, h2⟩ := ih hx.2
    simp [hx.1, h1, h2]

theorem rawIdentifier_ok {x s : List Char} (hx : IsIdentifier x) (hs : WordEnd s) :
    rawIdentifier (x ++ s) = .ok x s := by
  obtain ⟨c, t, rfl, hc, ht, hk⟩ := hx
  obtain ⟨h1, h2⟩ := takeWhile_append_end ht hs
  have : (c.isAlpha || c = '_') = true := by simpa using hc
  refine verify_ok (a := c :: t) ?_ ?_
  · simp [uncheckedIdentifier, this, h1, h2]
  · simpa using hk

theorem alpha_solid {c : Char} (h : c.isAlpha = true ∨ c = '_') : Solid c := by
  rcases h with h | rfl
  · refine ⟨?_, ?_⟩
    · cases hh : isSpace c with
      | false => rfl
      | true =>
        simp [isSpace] at hh
        rcases hh with ((rfl | rfl) | rfl) | rfl <;> revert h <;> decide
    · rintro rfl; revert h; decide
  · decide

theorem IsIdentifier.head {x : Name} (h : IsIdentifier x) :
    ∃ c t, x = c :: t ∧ (c.isAlpha = true ∨ c = '_') := by
  obtain ⟨c, t, e, hc, _⟩ := h
  exact ⟨c, t, e, hc⟩

theorem identifier_ok {x s : List Char} (hx : IsIdentifier x) (hs : WordEnd s) :
    identifier (x ++ s) = .ok x s := by
  obtain ⟨c, t, e, hc⟩ := hx.head
  have := rawIdentifier_ok hx hs
  unfold identifier token
  rw [show blank (x ++ s) = x ++ s by rw [e]; exact blank_solid (alpha_solid hc) _, this]

theorem IsQualified.head {x : Name} (h : IsQualified x) :
    ∃ c t, x = c :: t ∧ (c.isAlpha = true ∨ c = '_') := by
  rcases h with h | ⟨a, b, rfl, h, _⟩
  · exact h.head
  · obtain ⟨c, t, rfl, hc⟩ := h.head
    exact ⟨c, _, rfl, hc⟩

/-- The rest does not continue a qualified identifier. -/
def NameEnd (s : List Char) : Prop := startsWith (fun c => isWord c || c = '\'') s = false

theorem NameEnd.word {s : List Char} (h : NameEnd s) : WordEnd s := by
  cases s with
  | nil => rfl
  | cons c s => simp [NameEnd, WordEnd, startsWith] at h ⊢; exact h.1

theorem wordEnd_quote (s : List Char) : WordEnd ('\'' :: s) := by
  simp [WordEnd, startsWith]; decide

theorem qualifiedIdentifier_ok {x s : List Char} (hx : IsQualified x) (hs : NameEnd s) :
    qualifiedIdentifier (x ++ s) = .ok x s := by
  rcases hx with hx | ⟨a, b, rfl, ha, hb⟩
  · refine (bind_ok (rawIdentifier_ok hx hs.word)).trans ?_
    refine (bind_ok (opt_error ?_)).trans rfl
    refine bind_error ?_
    cases s with
    | nil => rfl
    | cons c s =>
      simp [NameEnd, startsWith] at hs
      simp [tag, Ne.symm hs.2]
  · rw [List.append_assoc]
    refine (bind_ok (rawIdentifier_ok ha (wordEnd_quote _))).trans ?_
    refine (bind_ok (opt_ok (a := b) (r := s) ?_)).trans rfl
    refine (bind_ok (a := ()) (r := b ++ s) (by simp [tag])).trans ?_
    exact cut_ok (rawIdentifier_ok hb hs.word)

theorem qualified_ok {x s : List Char} (hx : IsQualified x) (hs : NameEnd s) :
    token qualifiedIdentifier (x ++ s) = .ok x s := by
  obtain ⟨c, t, e, hc⟩ := hx.head
  have := qualifiedIdentifier_ok hx hs
  unfold token
  rw [show blank (x ++ s) = x ++ s by rw [e]; exact blank_solid (alpha_solid hc) _, this]

theorem keyword_ok {k s : List Char} (hk : k ∈ keywords) (hs : WordEnd s) :
    keyword k (k ++ s) = .ok () s := by
  have : blank (k ++ s) = k ++ s := by
    simp only [keywords, List.mem_cons, List.not_mem_nil, or_false] at hk
    rcases hk with rfl | rfl | rfl | rfl | rfl | rfl | rfl | rfl | rfl <;>
      exact blank_solid (by decide) _
  unfold keyword token
  rw [this]
  refine (bind_ok (tag_append _ _)).trans ?_
  simp only [WordEnd] at hs
  simp [notNext, hs]

/-- Another character is in front of the input. -/
theorem keyword_error {k : List Char} {c d : Char} {t s r : List Char} (e : k = c :: t)
    (hs : blank s = d :: r) (h : c ≠ d) : keyword k s = .error := by
  unfold keyword token
  rw [hs, e]
  exact bind_error (by simp [tag, h])

theorem keyword_nil {k : List Char} {c : Char} {t s : List Char} (e : k = c :: t)
    (hs : blank s = []) : keyword k s = .error := by
  unfold keyword token
  rw [hs, e]
  exact bind_error (by simp [tag])

theorem keywords_words : ∀ k ∈ keywords, k ≠ [] ∧ ∀ c ∈ k, isWord c = true := by decide

/-- All characters of an identifier are word characters. -/
theorem IsIdentifier.words {x : Name} (h : IsIdentifier x) : ∀ c ∈ x, isWord c = true := by
  obtain ⟨c, t, rfl, hc, ht, _⟩ := h
  intro d hd
  rcases List.mem_cons.1 hd with rfl | hd
  · rcases hc with hc | rfl
    · simp [isWord, Char.isAlphanum, hc]
    · decide
  · exact ht d hd

/-- Two sequences of word characters in front of the same input. -/
theorem words_unique {x y s r : List Char} (hx : ∀ c ∈ x, isWord c = true)
    (hy : ∀ c ∈ y, isWord c = true) (hs : WordEnd s) (hr : WordEnd r)
    (h : x ++ s = y ++ r) : x = y := by
  rw [← (takeWhile_append_end hx hs).1, h, (takeWhile_append_end hy hr).1]

/-- Identifiers are not keywords. -/
theorem keyword_identifier {k x s : List Char} (hk : k ∈ keywords) (hx : IsIdentifier x)
    (hs : WordEnd s) : keyword k (x ++ s) = .error := by
  obtain ⟨c, t, e, hc⟩ := hx.head
  unfold keyword token
  rw [show blank (x ++ s) = x ++ s by rw [e]; exact blank_solid (alpha_solid hc) _]
  rcases tag_cases k (x ++ s) with ⟨r, hr, ht⟩ | ht
  · refine (bind_ok ht).trans ?_
    by_cases hw : WordEnd r
    · have := words_unique hx.words (keywords_words k hk).2 hs hw hr
      obtain ⟨_, _, _, _, _, hn⟩ := hx
      exact absurd (this ▸ hk) hn
    · simp only [WordEnd, Bool.not_eq_false] at hw
      simp [notNext, hw]
  · exact bind_error ht

/-- Keywords are not identifiers. -/
theorem identifier_keyword {k s : List Char} (hk : k ∈ keywords) (hs : WordEnd s) :
    rawIdentifier (k ++ s) = .error := by
  have h := keywords_words k hk
  cases k with
  | nil => exact absurd rfl h.1
  | cons c t =>
    have ht : ∀ d ∈ t, isWord d = true := fun d hd => h.2 d (by simp [hd])
    obtain ⟨h1, h2⟩ := takeWhile_append_end ht hs
    by_cases hc : (c.isAlpha || c = '_') = true
    · have : uncheckedIdentifier (c :: t ++ s) = .ok (c :: t) s := by
        simp only [List.cons_append, uncheckedIdentifier]
        rw [if_pos hc, h1, h2]
      simp only [rawIdentifier, verify, this]
      simp [hk]
    · simp only [Bool.not_eq_true] at hc
      exact verify_error (by simp only [List.cons_append, uncheckedIdentifier]; simp [hc])

/-- Something that does not start an identifier is in front. -/
theorem rawIdentifier_error {c : Char} {s : List Char} (hc : c.isAlpha = false) (h : c ≠ '_') :
    rawIdentifier (c :: s) = .error :=
  verify_error (by simp [uncheckedIdentifier, hc, h])

theorem rawIdentifier_nil : rawIdentifier [] = .error := rfl

end Verif.Grammar
