import Verif.Grammar.Sources
import Verif.Grammar.Language

/-! C58: what the parser accepts is a text of the grammar. -/

namespace Verif.Grammar

/-- What a parser consumes is a text of what it makes. -/
def Reads {α : Type} (p : Parser α) (W : α → List Char → Prop) : Prop :=
  ∀ s a r, p s = .ok a r → ∃ u, s = u ++ r ∧ W a u

section
variable {α β : Type} {p q : Parser α} {V W : α → List Char → Prop} {f : α → Parser β}
  {X : β → List Char → Prop}

theorem Reads.mono (h : Reads p V) (hVW : ∀ a u, V a u → W a u) : Reads p W := fun s a r e => by
  obtain ⟨u, hu, hV⟩ := h s a r e
  exact ⟨u, hu, hVW a u hV⟩

theorem reads_pure {a : α} (h : W a []) : Reads (pure a : Parser α) W := by
  intro s b r e
  cases e
  exact ⟨[], rfl, h⟩

theorem Reads.bind (h : Reads p V) (hf : ∀ a v, V a v → Reads (f a) fun b w => X b (v ++ w)) :
    Reads (p >>= f) X := by
  intro s b r e
  have e : (p s).bind f = .ok b r := e
  cases hp : p s with
  | ok a s' =>
    rw [hp] at e
    obtain ⟨v, hv, hV⟩ := h s a s' hp
    obtain ⟨w, hw, hX⟩ := hf a v hV s' b r e
    exact ⟨v ++ w, by rw [hv, hw, List.append_assoc], hX⟩
  | error => rw [hp] at e; cases e
  | failure => rw [hp] at e; cases e
  | fuel => rw [hp] at e; cases e

/-- The last parser of a sequence. -/
theorem Reads.last {k : α → β} (h : Reads p V) (hX : ∀ a v, V a v → X (k a) v) :
    Reads (p >>= fun a => pure (k a)) X :=
  h.bind fun a v hv => reads_pure (by rw [List.append_nil]; exact hX a v hv)

theorem Reads.cut (h : Reads p W) : Reads (cut p) W := by
  intro s a r e
  unfold Grammar.cut at e
  cases hp : p s with
  | ok b r' => rw [hp] at e; cases e; exact h _ _ _ hp
  | error => rw [hp] at e; cases e
  | failure => rw [hp] at e; cases e
  | fuel => rw [hp] at e; cases e

theorem Reads.orElse (h : Reads p W) (h' : Reads q W) : Reads (orElse p q) W := by
  intro s a r e
  unfold Grammar.orElse at e
  cases hp : p s with
  | ok b r' => rw [hp] at e; cases e; exact h _ _ _ hp
  | error => rw [hp] at e; exact h' _ _ _ e
  | failure => rw [hp] at e; cases e
  | fuel => rw [hp] at e; cases e

theorem reads_alt {ps : List (Parser α)} (h : ∀ p ∈ ps, Reads p W) : Reads (alt ps) W := by
  induction ps with
  | nil => intro s a r e; cases e
  | cons p ps ih => exact (h p (by simp)).orElse (ih fun q hq => h q (by simp [hq]))

theorem Reads.opt (h : Reads p W) : Reads (opt p) (Optional W) := by
  intro s o r e
  unfold Grammar.opt at e
  cases hp : p s with
  | ok b r' =>
    rw [hp] at e
    cases e
    obtain ⟨u, hu, hW⟩ := h _ _ _ hp
    exact ⟨u, hu, .some hW⟩
  | error => rw [hp] at e; cases e; exact ⟨[], rfl, .none⟩
  | failure => rw [hp] at e; cases e
  | fuel => rw [hp] at e; cases e

theorem Reads.verify {v : α → Bool} (h : Reads p W) :
    Reads (verify p v) fun a u => W a u ∧ v a = true := by
  intro s a r e
  unfold Grammar.verify at e
  cases hp : p s with
  | ok b r' =>
    rw [hp] at e
    simp only at e
    split at e
    · cases e
      obtain ⟨u, hu, hW⟩ := h _ _ _ hp
      exact ⟨u, hu, hW, ‹_›⟩
    · cases e
  | error => rw [hp] at e; cases e
  | failure => rw [hp] at e; cases e
  | fuel => rw [hp] at e; cases e

/-- The values are such as well. -/
theorem Reads.and {P : α → Prop} (h : Reads p W) (h' : Yields p P) :
    Reads p fun a u => W a u ∧ P a := fun s a r e => by
  obtain ⟨u, hu, hW⟩ := h s a r e
  exact ⟨u, hu, hW, h' s a r e⟩

theorem Reads.manyLoop (h : Reads p W) : ∀ n, Reads (manyLoop p n) (Repeated W)
  | 0 => by intro s a r e; cases e
  | n + 1 => by
    intro s as r e
    unfold Grammar.manyLoop at e
    cases hp : p s with
    | ok b r' =>
      rw [hp] at e
      simp only at e
      split at e
      · cases hm : Grammar.manyLoop p n r' with
        | ok bs r'' =>
          rw [hm] at e
          cases e
          obtain ⟨u, hu, hW⟩ := h _ _ _ hp
          obtain ⟨v, hv, hV⟩ := Reads.manyLoop h n _ _ _ hm
          exact ⟨u ++ v, by rw [hu, hv, List.append_assoc], .cons hW hV⟩
        | error => rw [hm] at e; cases e
        | failure => rw [hm] at e; cases e
        | fuel => rw [hm] at e; cases e
      · cases e
    | error => rw [hp] at e; cases e; exact ⟨[], rfl, .nil⟩
    | failure => rw [hp] at e; cases e
    | fuel => rw [hp] at e; cases e

theorem Reads.many0 (h : Reads p W) : Reads (many0 p) (Repeated W) :=
  fun _ _ _ e => h.manyLoop _ _ _ _ e

end

/-! ## Layout and tokens -/

/-- Inside of a comment: its text up to the end of the line, and then white space. -/
theorem skip_reads : ∀ s : List Char, (skip false s ≠ [] → ∃ b, Blank b ∧ s = b ++ skip false s) ∧
    (skip true s ≠ [] → ∃ t c b, (∀ d ∈ t, isNewline d = false) ∧ isNewline c = true ∧ Blank b ∧
      s = t ++ c :: (b ++ skip true s))
  | [] => ⟨fun h => absurd rfl h, fun h => absurd rfl h⟩
  | c :: s => by
    have ih := skip_reads s
    constructor
    · intro h
      rw [skip] at h ⊢
      split
      · rename_i hc
        rw [if_pos hc] at h
        obtain ⟨b, hb, e⟩ := ih.1 h
        exact ⟨c :: b, .space hc hb, by rw [List.cons_append, ← e]⟩
      · rename_i hc
        rw [if_neg hc] at h
        split
        · rename_i hc'
          rw [if_pos hc'] at h
          obtain ⟨t, d, b, ht, hd, hb, e⟩ := ih.2 h
          refine ⟨'#' :: (t ++ d :: b), .comment ht hd hb, ?_⟩
          rw [hc']
          simp only [List.cons_append, List.append_assoc, List.cons.injEq, true_and]
          exact e
        · exact ⟨[], .nil, rfl⟩
    · intro h
      rw [skip] at h ⊢
      split
      · rename_i hc
        rw [if_pos hc] at h
        obtain ⟨b, hb, e⟩ := ih.1 h
        exact ⟨[], c, b, by simp, hc, hb, by rw [List.nil_append, ← e]⟩
      · rename_i hc
        rw [if_neg hc] at h
        obtain ⟨t, d, b, ht, hd, hb, e⟩ := ih.2 h
        refine ⟨c :: t, d, b, ?_, hd, hb, by rw [List.cons_append, ← e]⟩
        intro x hx
        rcases List.mem_cons.1 hx with rfl | hx
        · simpa using hc
        · exact ht x hx

theorem skip_final : ∀ s : List Char, (skip false s = [] → FinalBlank s) ∧
    (skip true s = [] → (∀ d ∈ s, isNewline d = false) ∨
      ∃ t c b, (∀ d ∈ t, isNewline d = false) ∧ isNewline c = true ∧ FinalBlank b ∧ s = t ++ c :: b)
  | [] => ⟨fun _ => .blank .nil, fun _ => .inl (by simp)⟩
  | c :: s => by
    have ih := skip_final s
    constructor
    · intro h
      rw [skip] at h
      split at h
      · rename_i hc
        cases ih.1 h with
        | blank hb => exact .blank (.space hc hb)
        | comment hb ht => exact FinalBlank.comment (.space hc hb) ht
      · split at h
        · rename_i hc
          subst hc
          rcases ih.2 h with ht | ⟨t, d, b, ht, hd, hb, e⟩
          · exact FinalBlank.comment .nil ht
          · subst e
            cases hb with
            | blank hb => exact .blank (.comment ht hd hb)
            | comment hb ht' =>
              have := FinalBlank.comment (.comment ht hd hb) ht'
              simpa using this
        · cases h
    · intro h
      rw [skip] at h
      split at h
      · exact .inr ⟨[], c, s, by simp, by assumption, ih.1 h, rfl⟩
      · rename_i hc
        rcases ih.2 h with ht | ⟨t, d, b, ht, hd, hb, e⟩
        · refine .inl fun x hx => ?_
          rcases List.mem_cons.1 hx with rfl | hx
          · simpa using hc
          · exact ht x hx
        · subst e
          refine .inr ⟨c :: t, d, b, fun x hx => ?_, hd, hb, rfl⟩
          rcases List.mem_cons.1 hx with rfl | hx
          · simpa using hc
          · exact ht x hx

/-- A token: the parser of its text does not accept an empty text. -/
theorem Reads.token {α : Type} {p : Parser α} {W : α → List Char → Prop} (h : Reads p W)
    (hne : ∀ a u, W a u → u ≠ []) :
    Reads (token p) fun a v => ∃ b u, Blank b ∧ v = b ++ u ∧ W a u := by
  intro s a r e
  obtain ⟨u, hu, hW⟩ := h _ _ _ e
  have : skip false s ≠ [] := by
    intro h0
    have h0 : blank s = [] := h0
    rw [h0] at hu
    exact hne a u hW (List.append_eq_nil_iff.1 hu.symm).1
  obtain ⟨b, hb, e'⟩ := (skip_reads s).1 this
  have hu : skip false s = u ++ r := hu
  exact ⟨b ++ u, by rw [e', hu, List.append_assoc], b, u, hb, rfl, hW⟩

theorem reads_tag (t : List Char) : Reads (tag t) fun _ u => u = t := by
  induction t with
  | nil => intro s a r e; cases e; exact ⟨[], rfl, rfl⟩
  | cons c t ih =>
    intro s a r e
    cases s with
    | nil => cases e
    | cons d s =>
      simp only [tag] at e
      split at e
      · rename_i hc
        subst hc
        obtain ⟨u, hu, rfl⟩ := ih s a r e
        exact ⟨c :: u, by rw [hu]; rfl, rfl⟩
      · cases e

theorem reads_notNext (f : Char → Bool) : Reads (notNext f) fun _ u => u = [] := by
  intro s a r e
  unfold notNext at e
  split at e
  · cases e
  · cases e; exact ⟨[], rfl, rfl⟩

theorem reads_tagToken {t : List Char} (ht : t ≠ []) :
    Reads (token (tag t)) fun _ u => Tok t u := by
  refine ((reads_tag t).token ?_).mono ?_
  · rintro _ u rfl
    exact ht
  · rintro _ v ⟨b, u, hb, rfl, rfl⟩
    exact .mk hb

theorem reads_sign {t : List Char} (ht : t ≠ []) : Reads (sign t) fun _ u => Tok t u := by
  unfold sign
  split
  · refine (reads_tagToken ht).bind fun _ v hv => (reads_notNext _).mono ?_
    rintro _ u rfl
    rw [List.append_nil]
    exact hv
  · exact reads_tagToken ht

theorem reads_keyword {t : List Char} (ht : t ≠ []) : Reads (keyword t) fun _ u => Tok t u := by
  have h : Reads (do tag t; notNext isWord) fun _ u => u = t := by
    refine (reads_tag t).bind fun _ v hv => (reads_notNext _).mono ?_
    rintro _ u rfl
    rw [List.append_nil]
    exact hv
  refine (h.token ?_).mono ?_
  · rintro _ u rfl
    exact ht
  · rintro _ v ⟨b, u, hb, rfl, rfl⟩
    exact .mk hb

/-! ## Lists -/

section
variable {α : Type} {p : Parser α} {W : α → List Char → Prop}

theorem Reads.many1 (h : Reads p W) : Reads (many1 p) fun as u =>
    ∃ b bs v w, as = b :: bs ∧ u = v ++ w ∧ W b v ∧ Repeated W bs w :=
  h.bind fun _ _ ha => h.many0.last fun _ _ has => ⟨_, _, _, _, rfl, rfl, ha, has⟩

theorem repeated_tail {c : List Char} {as : List α} {u : List Char}
    (h : Repeated (fun a v => ∃ x y, v = x ++ y ∧ Tok c x ∧ W a y) as u) : Tail c W as u := by
  induction h with
  | nil => exact .nil
  | cons h _ ih =>
    obtain ⟨x, y, rfl, hx, hy⟩ := h
    rw [List.append_assoc]
    exact .cons hx hy ih

theorem Reads.separated1 {c : List Char} (hc : c ≠ []) (h : Reads p W) :
    Reads (separated1 (sign c) p) fun as u =>
      ∃ b bs v w, as = b :: bs ∧ u = v ++ w ∧ W b v ∧ Tail c W bs w := by
  refine h.bind fun a v ha => ?_
  have hn : Reads (next (sign c) p) fun a v => ∃ x y, v = x ++ y ∧ Tok c x ∧ W a y :=
    (reads_sign hc).bind fun _ x hx => h.mono fun _ y hy => ⟨x, y, rfl, hx, hy⟩
  exact hn.many0.last fun _ _ has => ⟨_, _, _, _, rfl, rfl, ha, repeated_tail has⟩

theorem Reads.list1 (h : Reads p W) : Reads (list1 (sign ",".toList) p) (Elements1 W) := by
  refine (h.separated1 (c := ",".toList) (by decide)).bind fun as u hu => ?_
  obtain ⟨b, bs, v, w, rfl, rfl, hb, hbs⟩ := hu
  refine (reads_sign (t := ",".toList) (by decide)).opt.bind fun o x hx => reads_pure ?_
  rw [List.append_nil]
  cases hx with
  | none => rw [List.append_nil]; exact .mk hb hbs
  | some hx => rw [List.append_assoc]; exact .trailing hb hbs hx

theorem Reads.list0 (h : Reads p W) : Reads (list0 (sign ",".toList) p) (Elements W) := by
  have h0 : Reads (separated0 (sign ",".toList) p) fun as u =>
      (as = [] ∧ u = []) ∨
      ∃ b bs v w, as = b :: bs ∧ u = v ++ w ∧ W b v ∧ Tail ",".toList W bs w := by
    refine ((h.separated1 (c := ",".toList) (by decide)).mono fun _ _ h => .inr h).orElse ?_
    exact reads_pure (α := List α) (.inl ⟨rfl, rfl⟩)
  refine h0.bind fun as u hu => ?_
  rcases hu with ⟨rfl, rfl⟩ | ⟨b, bs, v, w, rfl, rfl, hb, hbs⟩
  · exact reads_pure (α := List α) .none
  · refine (reads_sign (t := ",".toList) (by decide)).opt.bind fun o x hx => reads_pure ?_
    rw [List.append_nil]
    cases hx with
    | none => rw [List.append_nil]; exact .some (.mk hb hbs)
    | some hx => rw [List.append_assoc]; exact .some (.trailing hb hbs hx)

end

/-! ## Names and literals -/

/-- The parser consumes exactly the text that it makes. -/
abbrev Copies (p : Parser (List Char)) : Prop := Reads p fun x u => u = x

theorem takeWhile_dropWhile (f : Char → Bool) (s : List Char) :
    s = s.takeWhile f ++ s.dropWhile f := (List.takeWhile_append_dropWhile).symm

theorem copies_rawIdentifier : Copies rawIdentifier := by
  have h : Copies uncheckedIdentifier := by
    intro s x r e
    cases s with
    | nil => cases e
    | cons c s =>
      simp only [uncheckedIdentifier] at e
      split at e
      · cases e
        exact ⟨_, by rw [List.cons_append, ← takeWhile_dropWhile], rfl⟩
      · cases e
  exact h.verify.mono fun _ _ h => h.1

theorem IsIdentifier.ne_nil {x : Name} (h : IsIdentifier x) : x ≠ [] := by
  obtain ⟨c, s, rfl, _⟩ := h
  simp

theorem reads_identifier : Reads identifier NameText := by
  refine Reads.mono (Reads.token (copies_rawIdentifier.and yields_rawIdentifier) ?_) ?_
  · rintro x u ⟨rfl, h⟩
    exact h.ne_nil
  · rintro x v ⟨b, u, hb, rfl, rfl, h⟩
    exact .mk h (.mk hb)

theorem copies_qualified : Copies qualifiedIdentifier := by
  refine copies_rawIdentifier.bind fun x v hv => ?_
  subst hv
  have h : Reads (do tag ['\'']; cut rawIdentifier) fun y u => u = '\'' :: y := by
    refine (reads_tag _).bind fun _ v hv => copies_rawIdentifier.cut.mono ?_
    rintro y u rfl
    subst hv
    rfl
  refine h.opt.bind fun y w hw => ?_
  cases hw with
  | none => exact reads_pure (by simp)
  | some hw => subst hw; exact reads_pure (by simp)

theorem reads_qualified : Reads (token qualifiedIdentifier) QualifiedText := by
  have h : Yields qualifiedIdentifier IsQualified := by
    refine yields_rawIdentifier.bind fun x hx => ?_
    refine (Yields.opt (yields_then fun _ => yields_rawIdentifier.cut)).bind fun y hy => ?_
    cases y with
    | none => exact yields_pure (.inl hx)
    | some y => exact yields_pure (.inr ⟨x, y, rfl, hx, hy y rfl⟩)
  refine Reads.mono (Reads.token (copies_qualified.and h) ?_) ?_
  · rintro x u ⟨rfl, h | ⟨a, b, rfl, _⟩⟩
    · exact h.ne_nil
    · simp
  · rintro x v ⟨b, u, hb, rfl, rfl, h⟩
    exact .mk h (.mk hb)

theorem copies_chars1 (f : Char → Bool) : Copies (chars1 f) := by
  intro s x r e
  unfold chars1 at e
  split at e
  · cases e
    exact ⟨_, takeWhile_dropWhile f s, rfl⟩
  · cases e

theorem reads_oneOf (f : Char → Bool) : Reads (oneOf f) fun c u => u = [c] := by
  intro s c r e
  cases s with
  | nil => cases e
  | cons d s =>
    simp only [oneOf] at e
    split at e
    · cases e; exact ⟨[c], rfl, rfl⟩
    · cases e

theorem optional_getD {o : Option (List Char)} {u : List Char}
    (h : Optional (fun x u => u = x) o u) : u = o.getD [] := by
  cases h with
  | none => rfl
  | some h => exact h

theorem optional_optText {o : Option Char} {u : List Char}
    (h : Optional (fun c u => u = [c]) o u) : u = optText o := by
  cases h with
  | none => rfl
  | some h => exact h

theorem copies_float : Copies recognizeFloat := by
  refine (reads_oneOf _).opt.bind fun sgn v1 h1 => ?_
  cases optional_optText h1
  refine Reads.bind (V := fun x u => u = x) (Reads.orElse ?_ ?_) fun m v2 h2 => ?_
  · refine (copies_chars1 _).bind fun d v hv => ?_
    subst hv
    refine Reads.bind (V := Optional fun x u => u = x) (Reads.opt ?_) fun f w hw => reads_pure ?_
    · refine (reads_oneOf _).bind fun p v hv => (copies_chars1 _).opt.bind fun f w hw => reads_pure ?_
      subst hv
      cases optional_getD hw
      simp
    · cases optional_getD hw
      simp
  · refine (reads_oneOf _).bind fun p v hv => (copies_chars1 _).bind fun f w hw => reads_pure ?_
    subst hv hw
    simp
  · subst h2
    refine Reads.bind (V := Optional fun x u => u = x) (Reads.opt ?_) fun e v3 h3 => reads_pure ?_
    · refine (reads_oneOf _).bind fun x v hv => (reads_oneOf _).opt.bind fun y w hw =>
        (copies_chars1 _).cut.bind fun z u hu => reads_pure ?_
      subst hv hu
      cases optional_optText hw
      simp
    · cases optional_getD h3
      simp

theorem IsDecimal.ne_nil {t : List Char} (h : IsDecimal t) : t ≠ [] := by
  obtain ⟨sgn, m, e, rfl, _, hm, _⟩ := h
  have : m ≠ [] := by
    rcases hm with h | ⟨d, rfl, _⟩ | ⟨d, f, rfl, _⟩ | ⟨f, rfl, _⟩
    · exact h.1
    all_goals simp
  simp [this]

theorem reads_number : Reads number NumberText := by
  have h : Reads (do
      let n ← alt [
        (do tag "0b".toList; let d ← cut (chars1 fun c => c = '0' || c = '1'); pure (.binary d)),
        (do tag "0x".toList; let d ← cut (chars1 isHex); pure (.hexadecimal (d.map Char.toLower))),
        (do let t ← recognizeFloat; pure (.floatingPoint t))]
      notNext Char.isDigit
      pure n) fun n u => u ≠ [] ∧ ∀ b, Blank b → NumberText n (b ++ u) := by
    refine Reads.bind (V := fun n u => u ≠ [] ∧ ∀ b, Blank b → NumberText n (b ++ u))
      (reads_alt fun p hp => ?_) fun n v hv => (reads_notNext _).bind fun _ w hw => reads_pure ?_
    · simp only [List.mem_cons, List.not_mem_nil, or_false] at hp
      rcases hp with rfl | rfl | rfl
      · refine (reads_tag _).bind fun _ v hv =>
          ((copies_chars1 _).and (yields_chars1 _)).cut.last fun d w hw => ?_
        obtain ⟨rfl, h1, h2⟩ := hw
        subst hv
        refine ⟨by simp, fun b hb => .binary ⟨h1, fun c hc => ?_⟩ (.mk hb)⟩
        simpa using h2 c hc
      · refine (reads_tag _).bind fun _ v hv =>
          ((copies_chars1 _).and (yields_chars1 _)).cut.last fun d w hw => ?_
        obtain ⟨rfl, h1, h2⟩ := hw
        subst hv
        exact ⟨by simp, fun b hb => .hexadecimal h1 h2 (.mk hb)⟩
      · refine (copies_float.and yields_float).last fun t w hw => ?_
        obtain ⟨rfl, h⟩ := hw
        exact ⟨IsDecimal.ne_nil h, fun b hb => .decimal h (.mk hb)⟩
    · subst hw
      rw [List.append_nil, List.append_nil]
      exact hv
  refine Reads.mono (Reads.token h fun _ _ h => h.1) ?_
  rintro n v ⟨b, u, hb, rfl, h⟩
  exact h.2 b hb

theorem copies_stringPiece : Copies stringPiece := by
  intro s x r e
  cases s with
  | nil => cases e
  | cons c s =>
    simp only [stringPiece] at e
    split at e
    · cases e
    · split at e
      · split at e
        · cases e
        · split at e
          · cases e; exact ⟨_, rfl, rfl⟩
          · split at e
            · split at e
              · split at e
                · cases e; exact ⟨_, rfl, rfl⟩
                · cases e
              · cases e
            · cases e
      · cases e; exact ⟨_, rfl, rfl⟩

theorem repeated_flatten {ps : List (List Char)} {u : List Char}
    (h : Repeated (fun x u => u = x) ps u) : u = ps.flatten := by
  induction h with
  | nil => rfl
  | cons h _ ih => rw [h, ih]; rfl

theorem reads_string : Reads stringLiteral StringText := by
  have h : Reads (do
      tag ['"']
      cut do
        let ps ← many0 stringPiece
        tag ['"']
        pure ps.flatten) fun s u => u = '"' :: (s ++ ['"']) := by
    refine (reads_tag _).bind fun _ v hv => Reads.cut ?_
    refine copies_stringPiece.many0.bind fun ps w hw => (reads_tag _).last fun _ x hx => ?_
    rw [hv, hx, repeated_flatten hw]
    rfl
  have hy : Yields (do
      tag ['"']
      cut do
        let ps ← many0 stringPiece
        tag ['"']
        pure ps.flatten) IsStringText :=
    yields_then fun _ => Yields.cut (yields_stringPiece.many0.bind fun ps hps => yields_then fun _ =>
      yields_pure ⟨ps, rfl, hps⟩)
  refine Reads.mono (Reads.token (h.and hy) ?_) ?_
  · rintro s u ⟨rfl, _⟩
    simp
  · rintro s v ⟨b, u, hb, rfl, rfl, h⟩
    exact .mk h (.mk hb)

/-! ## Types -/

/-- What the recursive nonterminals consume are texts of what they make. -/
structure Sound (g : G) : Prop where
  expression : Reads g.expression (ExprText (.chain 0))
  operand : Reads g.operand (ExprText .operand)
  type : Reads g.type (TypeText .any)

theorem reads_atomicType {g : G} (h : Sound g) : Reads (atomicType g) (TypeText .atomic) := by
  refine reads_alt fun p hp => ?_
  simp only [List.mem_cons, List.not_mem_nil, or_false] at hp
  rcases hp with rfl | rfl | rfl | rfl
  · exact reads_qualified.last fun _ _ h => .reference h
  · exact (reads_sign (by decide)).bind fun _ _ h1 => Reads.cut <| h.type.bind fun _ _ h2 =>
      (reads_sign (by decide)).last fun _ _ h3 => .list h1 h2 h3
  · exact (reads_sign (by decide)).bind fun _ _ h1 => Reads.cut <| h.type.bind fun _ _ h2 =>
      (reads_sign (by decide)).bind fun _ _ h3 => h.type.bind fun _ _ h4 =>
      (reads_sign (by decide)).last fun _ _ h5 => .map h1 h2 h3 h4 h5
  · exact (reads_sign (by decide)).bind fun _ _ h1 => Reads.cut <| h.type.bind fun _ _ h2 =>
      (reads_sign (by decide)).last fun _ _ h3 => .parentheses h1 h2 h3

theorem foldl_unionText {ts : List Ty} {v : List Char} (h : Tail ['|'] (TypeText .atomic) ts v) :
    ∀ {t : Ty} {u : List Char}, TypeText .union t u → TypeText .union (ts.foldl .union t) (u ++ v) := by
  induction h with
  | nil => intro t u h; rw [List.append_nil]; exact h
  | cons h1 h2 _ ih =>
    intro t u h
    have := ih (.union h h1 h2)
    simpa only [List.append_assoc, List.foldl_cons] using this

theorem reads_type {g : G} (h : Sound g) : Reads (type g) (TypeText .any) := by
  refine reads_alt fun p hp => ?_
  simp only [List.mem_cons, List.not_mem_nil, or_false] at hp
  rcases hp with rfl | rfl
  · exact (reads_sign (by decide)).bind fun _ _ h1 => Reads.cut <| h.type.list0.bind fun _ _ h2 =>
      (reads_sign (by decide)).bind fun _ _ h3 => h.type.last fun _ _ h4 => .function h1 h2 h3 h4
  · refine ((reads_atomicType h).separated1 (c := "|".toList) (by decide)).last fun ts u hu => ?_
    obtain ⟨b, bs, v, w, rfl, rfl, hb, hbs⟩ := hu
    exact .ofUnion (foldl_unionText hbs (.ofAtomic hb))

/-! ## Expressions -/

theorem repeated_concat {α : Type} {W : α → List Char → Prop} {as : List α} {u : List Char}
    (h : Repeated W as u) : ∀ {b : α} {bs : List α}, as = bs ++ [b] →
      ∃ v w, u = v ++ w ∧ Repeated W bs v ∧ W b w := by
  induction h with
  | nil => intro b bs e; simp at e
  | @cons a as u v ha has ih =>
    intro b bs e
    cases bs with
    | nil =>
      cases e
      cases has
      exact ⟨[], u, by simp, .nil, ha⟩
    | cons c bs =>
      cases e
      obtain ⟨x, y, rfl, hx, hy⟩ := ih rfl
      exact ⟨u ++ x, y, by rw [List.append_assoc], .cons ha hx, hy⟩

theorem reads_statement {g : G} (h : Sound g) : Reads (statement g) StatementText := by
  have hb : Reads (do let x ← identifier; sign "=".toList; pure x) fun x u =>
      ∃ v w, u = v ++ w ∧ NameText x v ∧ Tok ['='] w :=
    reads_identifier.bind fun _ _ h1 => (reads_sign (by decide)).last fun _ _ h2 =>
      ⟨_, _, rfl, h1, h2⟩
  refine hb.opt.bind fun x v hv => h.expression.last fun e w hw => ?_
  cases hv with
  | none => exact .unnamed hw
  | some hv =>
    obtain ⟨_, _, rfl, h1, h2⟩ := hv
    rw [List.append_assoc]
    exact .named h1 h2 hw

theorem reads_block {g : G} (h : Sound g) : Reads (block g) BlockText := by
  refine (reads_sign (by decide)).bind fun _ _ h1 => Reads.cut ?_
  refine (reads_statement h).many1.verify.bind fun ss u hu => (reads_sign (by decide)).last fun _ _ h2 => ?_
  obtain ⟨⟨b, bs, v, w, rfl, rfl, hb, hbs⟩, he⟩ := hu
  have hr := Repeated.cons hb hbs
  have hne : b :: bs ≠ [] := by simp
  have hl := (List.dropLast_concat_getLast hne).symm
  obtain ⟨x, y, e, hx, hy⟩ := repeated_concat hr hl
  rw [e]
  unfold toBlock
  unfold endsWithExpression at he
  rw [List.getLast?_eq_getLast hne] at he ⊢
  generalize (b :: bs).getLast hne = l at *
  obtain ⟨o, x'⟩ := l
  cases o with
  | some _ => cases he
  | none =>
    cases hy with
    | unnamed hy =>
      rw [List.append_assoc]
      exact .mk h1 hx hy h2

theorem reads_argument {g : G} (h : Sound g) : Reads (argument g) TypedText :=
  reads_identifier.bind fun _ _ h1 => h.type.cut.last fun _ _ h2 => .mk h1 h2

theorem reads_lambda {g : G} (h : Sound g) : Reads (lambda g) LambdaText :=
  (reads_sign (by decide)).bind fun _ _ h1 => Reads.cut <|
    (reads_argument h).list0.bind fun _ _ h2 => (reads_sign (by decide)).bind fun _ _ h3 =>
    h.type.bind fun _ _ h4 => (reads_block h).last fun _ _ h5 => .mk h1 h2 h3 h4 h5

theorem reads_branch {g : G} (h : Sound g) : Reads (ifBranch g) BranchText :=
  h.expression.bind fun _ _ h1 => (reads_block h).last fun _ _ h2 => .mk h1 h2

theorem reads_elseIf {α : Type} {p : Parser α} {W X : α → List Char → Prop} (h : Reads p W)
    (hX : ∀ a u v w, Tok "else".toList u → Tok "if".toList v → W a w → X a (u ++ (v ++ w))) :
    Reads (elseIf p) X :=
  (reads_keyword (by decide)).bind fun _ _ h1 => (reads_keyword (by decide)).bind fun _ _ h2 =>
    h.cut.mono fun _ _ h3 => hX _ _ _ _ h1 h2 h3

theorem reads_if {g : G} (h : Sound g) : Reads (ifExpression g) (ExprText .atomic) :=
  (reads_keyword (by decide)).bind fun _ _ h1 => Reads.cut <|
    (reads_branch h).bind fun _ _ h2 =>
    (reads_elseIf (reads_branch h) fun _ _ _ _ a b c => ElseIfText.mk a b c).many0.bind fun _ _ h3 =>
    (reads_keyword (by decide)).bind fun _ _ h4 => (reads_block h).last fun _ _ h5 =>
    .if_ h1 h2 h3 h4 h5

theorem reads_ifList {g : G} (h : Sound g) : Reads (ifList g) (ExprText .atomic) :=
  (reads_keyword (by decide)).bind fun _ _ h1 => (reads_sign (by decide)).bind fun _ _ h2 =>
    Reads.cut <| reads_identifier.bind fun _ _ h3 => (reads_sign (by decide)).bind fun _ _ h4 =>
    (reads_sign (by decide)).bind fun _ _ h5 => reads_identifier.bind fun _ _ h6 =>
    (reads_sign (by decide)).bind fun _ _ h7 => (reads_sign (by decide)).bind fun _ _ h8 =>
    h.expression.bind fun _ _ h9 => (reads_block h).bind fun _ _ h10 =>
    (reads_keyword (by decide)).bind fun _ _ h11 => (reads_block h).last fun _ _ h12 =>
    .ifList h1 h2 h3 h4 h5 h6 h7 h8 h9 h10 h11 h12

theorem reads_ifMap {g : G} (h : Sound g) : Reads (ifMap g) (ExprText .atomic) :=
  (reads_keyword (by decide)).bind fun _ _ h1 => reads_identifier.bind fun _ _ h2 =>
    (reads_sign (by decide)).bind fun _ _ h3 => h.expression.bind fun _ _ h4 =>
    (reads_sign (by decide)).bind fun _ _ h5 => Reads.cut <| h.expression.bind fun _ _ h6 =>
    (reads_sign (by decide)).bind fun _ _ h7 => (reads_block h).bind fun _ _ h8 =>
    (reads_keyword (by decide)).bind fun _ _ h9 => (reads_block h).last fun _ _ h10 =>
    .ifMap h1 h2 h3 h4 h5 h6 h7 h8 h9 h10

theorem reads_typeBranch {g : G} (h : Sound g) : Reads (ifTypeBranch g) TypeBranchText :=
  h.type.bind fun _ _ h1 => (reads_block h).last fun _ _ h2 => .mk h1 h2

theorem reads_ifType {g : G} (h : Sound g) : Reads (ifType g) (ExprText .atomic) :=
  (reads_keyword (by decide)).bind fun _ _ h1 => reads_identifier.bind fun _ _ h2 =>
    (reads_sign (by decide)).bind fun _ _ h3 => h.expression.bind fun _ _ h4 =>
    (reads_keyword (by decide)).bind fun _ _ h5 => Reads.cut <|
    (reads_typeBranch h).bind fun _ _ h6 =>
    (reads_elseIf (reads_typeBranch h) fun _ _ _ _ a b c => ElseIfTypeText.mk a b c).many0.bind
      fun _ _ h7 =>
    (Reads.opt (W := ElseText) ((reads_keyword (by decide)).bind fun _ _ a => (reads_block h).mono
      fun _ _ b => .mk a b)).last fun _ _ h8 =>
    .ifType h1 h2 h3 h4 h5 h6 h7 h8

theorem reads_field {g : G} (h : Sound g) : Reads (recordField g) FieldText :=
  reads_identifier.bind fun _ _ h1 => (reads_sign (by decide)).bind fun _ _ h2 =>
    h.expression.cut.last fun _ _ h3 => .mk h1 h2 h3

theorem reads_record {g : G} (h : Sound g) : Reads (record g) (ExprText .atomic) := by
  refine reads_qualified.bind fun x a ha => (reads_sign (by decide)).bind fun _ b hb => ?_
  refine Reads.bind (V := fun r u => ((r.1 = none ∧ Elements FieldText r.2 u) ∨
      ∃ e c d f k, r.1 = some e ∧ u = c ++ (d ++ (f ++ k)) ∧ Tok ['.', '.', '.'] c ∧
        ExprText (.chain 0) e d ∧ Tok [','] f ∧ Elements1 FieldText r.2 k) ∧ distinct r.2 = true)
    (Reads.verify (Reads.orElse ?_ ?_)) fun r u hu => (reads_sign (by decide)).last fun _ z hz => ?_
  · exact (reads_sign (by decide)).bind fun _ _ h1 => Reads.cut <| h.expression.bind fun _ _ h2 =>
      (reads_sign (by decide)).bind fun _ _ h3 => (reads_field h).list1.last fun _ _ h4 =>
      .inr ⟨_, _, _, _, _, rfl, rfl, h1, h2, h3, h4⟩
  · exact (reads_field h).list0.last fun _ _ h => .inl ⟨rfl, h⟩
  · obtain ⟨hu, hd⟩ := hu
    have hd : (r.2.map Field.name).Nodup := by simpa [distinct] using hd
    obtain ⟨o, fs⟩ := r
    rcases hu with ⟨e, hu⟩ | ⟨e, c, d, f, k, e', rfl, h1, h2, h3, h4⟩
    · cases e
      exact .record ha hb hu hz hd
    · cases e'
      exact .update ha hb h1 h2 h3 h4 hz hd

theorem reads_listElement {g : G} (h : Sound g) : Reads (listElement g) ListElementText :=
  Reads.orElse
    ((reads_sign (by decide)).bind fun _ _ h1 => h.expression.cut.last fun _ _ h2 => .multiple h1 h2)
    (h.expression.last fun _ _ h => .single h)

theorem reads_list {g : G} (h : Sound g) : Reads (listLiteral g) (ExprText .atomic) :=
  (reads_sign (by decide)).bind fun _ _ h1 => Reads.cut <| h.type.bind fun _ _ h2 =>
    (reads_listElement h).list0.bind fun _ _ h3 => (reads_sign (by decide)).last fun _ _ h4 =>
    .list h1 h2 h3 h4

theorem reads_compBranch {g : G} (h : Sound g) : Reads (compBranch g) CompBranchText :=
  (reads_keyword (by decide)).bind fun _ _ h1 => Reads.cut <|
    reads_identifier.list1.bind fun _ _ h2 => (reads_keyword (by decide)).bind fun _ _ h3 =>
    h.expression.list1.bind fun _ _ h4 =>
    (Reads.opt (W := ConditionText) ((reads_keyword (by decide)).bind fun _ _ a => h.expression.mono
      fun _ _ b => .mk a b)).last fun _ _ h5 => .mk h1 h2 h3 h4 h5

theorem reads_comprehension {g : G} (h : Sound g) : Reads (comprehension g) (ExprText .atomic) := by
  refine (reads_sign (by decide)).bind fun _ _ h1 => h.type.bind fun _ _ h2 =>
    h.expression.bind fun _ _ h3 => (reads_compBranch h).many1.bind fun _ _ h4 =>
    (reads_sign (by decide)).last fun _ _ h5 => ?_
  obtain ⟨b, bs, v, w, rfl, rfl, hb, hbs⟩ := h4
  rw [List.append_assoc]
  exact .comprehension h1 h2 h3 hb hbs h5

theorem reads_mapElement {g : G} (h : Sound g) : Reads (mapElement g) MapElementText :=
  Reads.orElse
    (h.expression.bind fun _ _ h1 => (reads_sign (by decide)).bind fun _ _ h2 =>
      h.expression.cut.last fun _ _ h3 => .entry h1 h2 h3)
    ((reads_sign (by decide)).bind fun _ _ h1 => h.expression.cut.last fun _ _ h2 => .multiple h1 h2)

theorem reads_map {g : G} (h : Sound g) : Reads (mapLiteral g) (ExprText .atomic) :=
  (reads_sign (by decide)).bind fun _ _ h1 => Reads.cut <| h.type.bind fun _ _ h2 =>
    (reads_sign (by decide)).bind fun _ _ h3 => h.type.bind fun _ _ h4 =>
    (reads_mapElement h).list0.bind fun _ _ h5 => (reads_sign (by decide)).last fun _ _ h6 =>
    .map h1 h2 h3 h4 h5 h6

theorem reads_atomic {g : G} (h : Sound g) : Reads (atomic g) (ExprText .atomic) := by
  refine reads_alt fun p hp => ?_
  simp only [List.mem_cons, List.not_mem_nil, or_false] at hp
  rcases hp with rfl | rfl | rfl | rfl | rfl | rfl | rfl | rfl | rfl | rfl | rfl | rfl | rfl
  · refine (reads_lambda h).last fun l u hu => ?_
    cases hu with
    | mk h1 h2 h3 h4 h5 => exact .lambda h1 h2 h3 h4 h5
  · exact reads_ifType h
  · exact reads_ifList h
  · exact reads_ifMap h
  · exact reads_if h
  · exact reads_record h
  · exact reads_comprehension h
  · exact reads_list h
  · exact reads_map h
  · exact reads_number.last fun _ _ h => .number h
  · exact reads_string.last fun _ _ h => .string h
  · exact reads_qualified.last fun _ _ h => .variable h
  · exact (reads_sign (by decide)).bind fun _ _ h1 => h.expression.bind fun _ _ h2 =>
      (reads_sign (by decide)).last fun _ _ h3 => .parentheses h1 h2 h3

/-- Texts of suffixes: what they make of every expression before them. -/
def SuffixText (s : Suffix) (v : List Char) : Prop :=
  ∀ e u, ExprText .suffixed e u → ExprText .suffixed (s.apply e) (u ++ v)

theorem reads_suffix {g : G} (h : Sound g) : Reads (suffixOperator g) SuffixText := by
  refine reads_alt fun p hp => ?_
  simp only [List.mem_cons, List.not_mem_nil, or_false] at hp
  rcases hp with rfl | rfl | rfl
  · refine (reads_tag _).bind fun _ v hv => Reads.cut <| h.expression.list0.bind fun _ _ h1 =>
      (reads_sign (by decide)).last fun _ _ h2 e u he => ?_
    subst hv
    exact .call he h1 h2
  · exact (reads_sign (by decide)).bind fun _ _ h1 => reads_identifier.cut.last fun _ _ h2 e u he =>
      .field he h1 h2
  · exact (reads_sign (by decide)).last fun _ _ h1 e u he => .try_ he h1

theorem foldl_suffix {ss : List Suffix} {v : List Char} (h : Repeated SuffixText ss v) :
    ∀ {e : Expr} {u : List Char}, ExprText .suffixed e u →
      ExprText .suffixed (ss.foldl Suffix.apply e) (u ++ v) := by
  induction h with
  | nil => intro e u h; rw [List.append_nil]; exact h
  | cons h _ ih =>
    intro e u he
    rw [← List.append_assoc]
    exact ih (h e u he)

theorem reads_operand {g : G} (h : Sound g) : Reads (operand g) (ExprText .operand) :=
  Reads.orElse
    ((reads_sign (by decide)).bind fun _ _ h1 => h.operand.cut.last fun _ _ h2 => .not h1 h2)
    ((reads_atomic h).bind fun _ _ h1 => (reads_suffix h).many0.last fun _ _ h2 =>
      .ofSuffixed (foldl_suffix h2 (.ofAtomic h1)))

theorem reads_operator : Reads binaryOperator fun o u => Tok (operatorText o) u := by
  refine reads_alt fun p hp => ?_
  simp only [List.mem_cons, List.not_mem_nil, or_false] at hp
  rcases hp with rfl | rfl | rfl | rfl | rfl | rfl | rfl | rfl | rfl | rfl | rfl | rfl
  all_goals exact (reads_sign (by decide)).last fun _ _ h => h

theorem ExprText.chain_le {p q : Nat} {e : Expr} {u : List Char} (hpq : p ≤ q)
    (h : ExprText (.chain q) e u) : ExprText (.chain p) e u := by
  induction hpq with
  | refl => exact h
  | step _ ih => exact ih (.tighter h)

/-- An operator and an operand. -/
def PairText (x : BinOp × Expr) (u : List Char) : Prop :=
  ∃ v w, u = v ++ w ∧ Tok (operatorText x.1) v ∧ ExprText .operand x.2 w

theorem repeated_append {α : Type} {W : α → List Char → Prop} {as bs : List α} : ∀ {u : List Char},
    Repeated W (as ++ bs) u → ∃ v w, u = v ++ w ∧ Repeated W as v ∧ Repeated W bs w := by
  induction as with
  | nil => intro u h; exact ⟨[], u, rfl, .nil, h⟩
  | cons a as ih =>
    intro u h
    cases h with
    | cons ha has =>
      obtain ⟨v, w, rfl, hv, hw⟩ := ih has
      exact ⟨_, w, by rw [List.append_assoc], .cons ha hv, hw⟩

/-- Grouped operations are chains. -/
theorem tree_text : ∀ (t : Tree Expr), t.Grouped → ∀ {u v : List Char}, ExprText .operand t.first u →
    Repeated PairText t.pairs v → ∀ {p : Nat}, (∀ o l r, t = .node o l r → p ≤ o.priority) →
    ExprText (.chain p) (t.expression .binary) (u ++ v) := by
  intro t
  induction t with
  | leaf e =>
    intro _ u v hu hv p _
    cases hv
    rw [List.append_nil]
    exact .ofOperand hu
  | node o l r ihl ihr =>
    intro h u v hu hv p hp
    obtain ⟨hl, hr, h1, h2⟩ := h
    obtain ⟨a, b, rfl, ha, hb⟩ := repeated_append hv
    cases hb with
    | cons hb hc =>
      obtain ⟨x, y, rfl, hx, hy⟩ := hb
      have e1 := ihl hl hu ha (p := o.priority) h1
      have e2 := ihr hr hy hc (p := o.priority + 1) fun o' l' r' e => h2 o' l' r' e
      have := ExprText.binary e1 hx e2
      refine ExprText.chain_le (hp o l r rfl) ?_
      simpa only [List.append_assoc, Tree.expression] using this

theorem reads_expression {g : G} (h : Sound g) : Reads (expression g) (ExprText (.chain 0)) := by
  have hp : Reads (operatorAndOperand g) PairText :=
    reads_operator.bind fun _ _ h1 => (reads_operand h).cut.last fun _ _ h2 => ⟨_, _, rfl, h1, h2⟩
  refine (reads_operand h).bind fun e u hu => hp.many0.last fun ps v hv => ?_
  obtain ⟨t, ht, hf, hps, hr⟩ := reduceOperations_grouped (E := Expr) .binary ps.length ps
    (Nat.le_refl _) (.leaf e) trivial (fun _ _ _ h => by cases h)
  have hr : reduceOperations .binary e ps = t.expression .binary := hr
  rw [hr]
  refine tree_text t ht (by rw [hf]; exact hu) ?_ fun _ _ _ _ => Nat.zero_le _
  rw [hps]
  exact hv

theorem sound : ∀ n, Sound (grammar n)
  | 0 => ⟨(fun _ _ _ e => by cases e), (fun _ _ _ e => by cases e), (fun _ _ _ e => by cases e)⟩
  | n + 1 => ⟨reads_expression (sound n), reads_operand (sound n), reads_type (sound n)⟩

/-! ## Modules -/

theorem reads_component {c : Parser Name} {P : Name → Prop} (h : Reads c fun x u => NameText x u ∧ P x) :
    Reads (pathComponents c) fun xs u => ∃ y ys v w, xs = y :: ys ∧ u = v ++ w ∧ ComponentText y v ∧
      Repeated ComponentText ys w ∧ ∀ x ∈ xs, P x := by
  have h' : Reads (do tag ['\'']; c) fun x u => ComponentText x u ∧ P x := by
    refine (reads_tag _).bind fun _ v hv => h.mono fun x u hu => ⟨?_, hu.2⟩
    subst hv
    exact .mk hu.1
  refine (Reads.many1 h').mono ?_
  rintro xs u ⟨y, ys, v, w, rfl, rfl, h1, h2⟩
  have split : ∀ {ys : List Name} {w : List Char},
      Repeated (fun x u => ComponentText x u ∧ P x) ys w →
      Repeated ComponentText ys w ∧ ∀ x ∈ ys, P x := by
    intro ys w h
    induction h with
    | nil => exact ⟨.nil, by simp⟩
    | cons h _ ih =>
      refine ⟨.cons h.1 ih.1, fun x hx => ?_⟩
      rcases List.mem_cons.1 hx with rfl | hx
      · exact h.2
      · exact ih.2 x hx
  refine ⟨y, ys, v, w, rfl, rfl, h1.1, (split h2).1, fun x hx => ?_⟩
  rcases List.mem_cons.1 hx with rfl | hx
  · exact h1.2
  · exact (split h2).2 x hx

theorem NameText.ne_nil {x : Name} {u : List Char} (h : NameText x u) : u ≠ [] := by
  cases h with
  | mk h ht =>
    cases ht with
    | mk hb => simp [h.ne_nil]

theorem reads_path : Reads modulePath PathText := by
  have h : Reads (orElse
      (do
        let p ← identifier
        let cs ← cut (pathComponents (verify identifier isPublic))
        pure (.external p cs))
      (do
        let cs ← pathComponents identifier
        pure (.internal cs))) fun p u => u ≠ [] ∧ ∀ b, Blank b → PathText p (b ++ u) := by
    refine Reads.orElse ?_ ?_
    · refine reads_identifier.bind fun p u hp =>
        (reads_component reads_identifier.verify).cut.last fun cs v hv => ?_
      obtain ⟨y, ys, v, w, rfl, rfl, h1, h2, h3⟩ := hv
      exact ⟨by simp [hp.ne_nil], fun b hb => .external hb hp h1 h3 h2⟩
    · refine (reads_component (P := fun _ => True)
        (reads_identifier.mono fun _ _ h => ⟨h, trivial⟩)).last fun cs v hv => ?_
      obtain ⟨y, ys, v, w, rfl, rfl, h1, h2, h3⟩ := hv
      refine ⟨?_, fun b hb => .internal hb h1 h2⟩
      cases h1
      simp
  refine Reads.mono (Reads.token h fun _ _ h => h.1) ?_
  rintro n v ⟨b, u, hb, rfl, h⟩
  exact h.2 b hb

theorem reads_import : Reads import_ ImportText := by
  refine (reads_keyword (by decide)).bind fun _ _ h1 => reads_path.bind fun _ _ h2 => Reads.cut ?_
  refine (Reads.opt (W := AliasText) ((reads_keyword (by decide)).bind fun _ _ a =>
    reads_identifier.mono fun _ _ b => .mk a b)).bind fun _ _ h3 => ?_
  refine (Reads.opt (W := NamesText) ((reads_sign (by decide)).bind fun _ _ a =>
    reads_identifier.list1.bind fun _ _ b => (reads_sign (by decide)).last fun _ _ c =>
      .some a b c)).last fun ns _ h4 => ?_
  cases h4 with
  | none => exact .mk h1 h2 h3 .none
  | some h4 => exact .mk h1 h2 h3 h4

theorem reads_convention : Reads (opt callingConvention) fun c u => ConventionText (c.getD .native) u := by
  refine (Reads.opt (W := fun c u => c = .c ∧ Tok ['"', 'c', '"'] u)
    (reads_string.verify.last fun s u hu => ?_)).mono ?_
  · obtain ⟨hu, hs⟩ := hu
    have : s = ['c'] := by simpa using hs
    subst this
    cases hu with
    | mk _ hu => exact ⟨rfl, hu⟩
  · intro c u hu
    cases hu with
    | none => exact .native
    | some h => cases h.1; exact .c h.2

theorem reads_foreignImport {g : G} (h : Sound g) : Reads (foreignImport g) ForeignImportText :=
  (reads_keyword (by decide)).bind fun _ _ h1 => (reads_keyword (by decide)).bind fun _ _ h2 =>
    Reads.cut <| reads_convention.bind fun _ _ h3 => reads_identifier.bind fun _ _ h4 =>
    h.type.last fun _ _ h5 => .mk h1 h2 h3 h4 h5

theorem reads_typeDefinition {g : G} (h : Sound g) :
    Reads (orElse (typeAlias g) (recordDefinition g)) TypeDefinitionText := by
  refine Reads.orElse ?_ ?_
  · exact (reads_keyword (by decide)).bind fun _ _ h1 => reads_identifier.bind fun _ _ h2 =>
      (reads_sign (by decide)).bind fun _ _ h3 => h.type.cut.last fun _ _ h4 => .alias_ h1 h2 h3 h4
  · have hf : Reads (fieldDefinition g) TypedText :=
      reads_identifier.bind fun _ _ h1 => h.type.last fun _ _ h2 => .mk h1 h2
    exact (reads_keyword (by decide)).bind fun _ _ h1 => reads_identifier.bind fun _ _ h2 =>
      (reads_sign (by decide)).bind fun _ _ h3 => Reads.cut <| hf.many0.bind fun _ _ h4 =>
      (reads_sign (by decide)).last fun _ _ h5 => .record h1 h2 h3 h4 h5

theorem reads_function {g : G} (h : Sound g) : Reads (functionDefinition g) FunctionText := by
  have he : Reads foreignExport ExportText :=
    (reads_keyword (by decide)).bind fun _ _ h1 => reads_convention.last fun _ _ h2 => .mk h1 h2
  exact he.opt.bind fun _ _ h1 => reads_identifier.bind fun _ _ h2 =>
    (reads_sign (by decide)).bind fun _ _ h3 => (reads_lambda h).cut.last fun _ _ h4 =>
    .mk h1 h2 h3 h4

/-- What is parsed is a text of the module. -/
theorem parse_sound {s : List Char} {m : Module} (h : parse s = some m) : ModuleText m s := by
  have hm : Reads (module_ (grammar (s.length + 1))) fun m u => ∀ e, FinalBlank e →
      ModuleText m (u ++ e) := by
    refine reads_import.many0.bind fun _ _ h1 => (reads_foreignImport (sound _)).many0.bind
      fun _ _ h2 => (reads_typeDefinition (sound _)).many0.bind fun _ _ h3 =>
      (reads_function (sound _)).many0.last fun _ _ h4 e he => ?_
    simp only [List.append_assoc]
    exact .mk h1 h2 h3 h4 he
  unfold parse at h
  cases e : module_ (grammar (s.length + 1)) s with
  | ok m' r =>
    rw [e] at h
    simp only at h
    split at h
    · rename_i hr
      cases h
      obtain ⟨u, hu, hW⟩ := hm _ _ _ e
      rw [hu]
      exact hW r ((skip_final r).1 (List.isEmpty_iff.1 hr))
    · cases h
  | error => rw [e] at h; cases h
  | failure => rw [e] at h; cases h
  | fuel => rw [e] at h; cases h

end Verif.Grammar
