import Verif.Parse.StringLiteral

/-!
# C37: string literals denote what they spell

The compiler violates the property: it replaces the escape sequences one kind after the other,
starting with `\\`, so that the backslash of an escaped backslash is taken for the start of
another escape sequence if `n`, `r`, `t` or `xHH` follows: the literal `"\\n"` compiles to a line
break.
-/

namespace Verif.Parse

/-! ## Specification -/

/-- The hexadecimal digits `0` to `9`, `a` to `f`, `A` to `F` and their values. -/
def digits : List (UInt8 × UInt8) :=
  [(48, 0), (49, 1), (50, 2), (51, 3), (52, 4), (53, 5), (54, 6), (55, 7), (56, 8), (57, 9),
   (97, 10), (98, 11), (99, 12), (100, 13), (101, 14), (102, 15),
   (65, 10), (66, 11), (67, 12), (68, 13), (69, 14), (70, 15)]

def isDigit (b : UInt8) : Bool := (digits.lookup b).isSome

def digitValue (b : UInt8) : UInt8 := (digits.lookup b).getD 0

/-- A character or escape sequence of a string literal. -/
inductive Piece where
  /-- a byte of a character other than `\` and `"` -/
  | plain (byte : UInt8) (notBackslash : byte ≠ bBackslash) (notQuote : byte ≠ bQuote)
  /-- `\\` -/
  | backslash
  /-- `\"` -/
  | quote
  /-- `\n` -/
  | newline
  /-- `\r` -/
  | carriageReturn
  /-- `\t` -/
  | tab
  /-- `\xHH` -/
  | hex (high low : UInt8) (isHigh : isDigit high = true) (isLow : isDigit low = true)

/-- How a piece is written. -/
def Piece.spelling : Piece → List UInt8
  | .plain b _ _ => [b]
  | .backslash => [bBackslash, bBackslash]
  | .quote => [bBackslash, bQuote]
  | .newline => [bBackslash, bN]
  | .carriageReturn => [bBackslash, bR]
  | .tab => [bBackslash, bT]
  | .hex h l _ _ => [bBackslash, bX, h, l]

/-- What byte a piece stands for. -/
def Piece.byte : Piece → UInt8
  | .plain b _ _ => b
  | .backslash => bBackslash
  | .quote => bQuote
  | .newline => 10
  | .carriageReturn => 13
  | .tab => 9
  | .hex h l _ _ => 16 * digitValue h + digitValue l

/-- The text of a literal. -/
def spell (ps : List Piece) : List UInt8 := ps.flatMap Piece.spelling

/-- The bytes a literal stands for. -/
def denote (ps : List Piece) : List UInt8 := ps.map Piece.byte

/-- What follows an escaped backslash cannot be mistaken for the rest of an escape sequence. -/
def notConfusable : List Piece → Prop
  | .plain b _ _ :: rest =>
    b ≠ bN ∧ b ≠ bR ∧ b ≠ bT ∧
    (b = bX → ∀ h h1 h2 l l1 l2 r,
      rest = .plain h h1 h2 :: .plain l l1 l2 :: r → ¬(isDigit h = true ∧ isDigit l = true))
  | _ => True

/-- No escaped backslash is followed by the letters `n`, `r`, `t` or `xHH`. -/
def unambiguous : List Piece → Prop
  | [] => True
  | .backslash :: rest => notConfusable rest ∧ unambiguous rest
  | _ :: rest => unambiguous rest

/-! ## The lexical grammar -/

theorem digits_checked (n : Fin 256) : isHex (UInt8.ofNat n) = isDigit (UInt8.ofNat n) ∧
    (isDigit (UInt8.ofNat n) = true → hexDigit (UInt8.ofNat n) = digitValue (UInt8.ofNat n)) := by
  revert n
  decide +kernel

theorem isHex_eq (b : UInt8) : isHex b = isDigit b := by
  have := (digits_checked ⟨b.toNat, b.toNat_lt⟩).1
  simpa using this

theorem hexValue_eq {h l : UInt8} (hh : isDigit h = true) (hl : isDigit l = true) :
    hexValue h l = 16 * digitValue h + digitValue l := by
  have h1 := (digits_checked ⟨h.toNat, h.toNat_lt⟩).2
  have h2 := (digits_checked ⟨l.toNat, l.toNat_lt⟩).2
  simp only [UInt8.ofNat_toNat] at h1 h2
  rw [hexValue, h1 hh, h2 hl]

theorem isHex_ne {b : UInt8} (h : isHex b = true) : b ≠ bBackslash ∧ b ≠ bQuote := by
  constructor <;> rintro rfl <;> exact absurd h (by decide)

theorem literalPiece_spelling (p : Piece) (rest : List UInt8) :
    literalPiece (p.spelling ++ rest) = some (p.spelling, rest) := by
  cases p with
  | plain b h1 h2 => simp [Piece.spelling, literalPiece, h1, h2]
  | hex h l h1 h2 => simp [Piece.spelling, literalPiece, isHex_eq, h1, h2]; decide
  | _ => simp [Piece.spelling, literalPiece]; decide

theorem literalPiece_some {s t r : List UInt8} (h : literalPiece s = some (t, r)) :
    ∃ p : Piece, t = p.spelling ∧ s = p.spelling ++ r := by
  unfold literalPiece at h
  split at h
  · cases h
  · split at h
    · cases h
    · rename_i b rest hq
      split at h
      · rename_i hb
        subst hb
        split at h
        · cases h
        · split at h
          · rename_i he
            cases h
            rcases he with rfl | rfl | rfl | rfl | rfl
            · exact ⟨.backslash, rfl, rfl⟩
            · exact ⟨.quote, rfl, rfl⟩
            · exact ⟨.newline, rfl, rfl⟩
            · exact ⟨.carriageReturn, rfl, rfl⟩
            · exact ⟨.tab, rfl, rfl⟩
          · split at h
            · rename_i hx
              subst hx
              split at h
              · split at h
                · rename_i hh
                  simp at hh
                  cases h
                  exact ⟨.hex _ _ ((isHex_eq _).symm.trans hh.1) ((isHex_eq _).symm.trans hh.2), rfl, rfl⟩
                · cases h
              · cases h
            · cases h
      · rename_i hb
        cases h
        exact ⟨.plain b hb hq, rfl, rfl⟩

theorem literalPieces_spell (ps : List Piece) (rest : List UInt8) :
    ∀ n, ps.length < n → literalPieces n (spell ps ++ bQuote :: rest) = (spell ps, bQuote :: rest) := by
  induction ps with
  | nil =>
    intro n hn
    obtain ⟨m, rfl⟩ : ∃ m, n = m + 1 := ⟨n - 1, by simp at hn; omega⟩
    simp [spell, literalPieces, literalPiece]
  | cons p ps ih =>
    intro n hn
    obtain ⟨m, rfl⟩ : ∃ m, n = m + 1 := ⟨n - 1, by simp at hn; omega⟩
    have := ih m (by simp at hn; omega)
    simp only [spell, List.flatMap_cons, List.append_assoc] at this ⊢
    simp [literalPieces, literalPiece_spelling, this]

theorem spelling_pos (p : Piece) : 1 ≤ p.spelling.length := by
  cases p <;> simp [Piece.spelling]

theorem spell_length (ps : List Piece) : ps.length ≤ (spell ps).length := by
  induction ps with
  | nil => simp
  | cons p ps ih =>
    have := spelling_pos p
    simp only [spell, List.flatMap_cons, List.length_append, List.length_cons] at ih ⊢
    omega

theorem literalPieces_pieces (n : Nat) (s : List UInt8) :
    ∃ ps, (literalPieces n s).1 = spell ps ∧
      s = (literalPieces n s).1 ++ (literalPieces n s).2 := by
  induction n generalizing s with
  | zero => exact ⟨[], rfl, by simp [literalPieces]⟩
  | succ n ih =>
    unfold literalPieces
    split
    · rename_i t r h
      obtain ⟨p, rfl, hs⟩ := literalPiece_some h
      obtain ⟨ps, h1, h2⟩ := ih r
      refine ⟨p :: ps, by simp [h1, spell], ?_⟩
      simp only [List.append_assoc]
      rw [← h2]
      exact hs
    · exact ⟨[], rfl, rfl⟩

/-- Every accepted literal is a sequence of pieces in quotes. -/
theorem parseLiteral_sound {s t rest : List UInt8} (h : parseLiteral s = some (t, rest)) :
    ∃ ps, t = spell ps ∧ s = bQuote :: spell ps ++ bQuote :: rest := by
  cases s with
  | nil => cases h
  | cons b s =>
    simp only [parseLiteral] at h
    split at h
    · rename_i hb
      subst hb
      split at h
      · rename_i e rest' hr
        split at h
        · rename_i he
          subst he
          cases h
          obtain ⟨ps, h1, h2⟩ := literalPieces_pieces s.length s
          refine ⟨ps, h1, ?_⟩
          rw [← h1]
          simp only [literalBody] at hr
          rw [hr] at h2
          rw [List.cons_append, ← h2]
        · cases h
      · cases h
    · cases h

/-- Every sequence of pieces in quotes is accepted, as a whole. -/
theorem parseLiteral_complete (ps : List Piece) (rest : List UInt8) :
    parseLiteral (bQuote :: spell ps ++ bQuote :: rest) = some (spell ps, rest) := by
  have := literalPieces_spell ps rest (spell ps ++ bQuote :: rest).length
    (by have := spell_length ps; simp; omega)
  simp only [parseLiteral, List.cons_append, if_true, literalBody, this]

/-- Formatting a string literal and parsing it back gives the same literal. -/
theorem c38_string_roundtrip (s t rest rest' : List UInt8) (h : parseLiteral s = some (t, rest)) :
    parseLiteral (formatString t ++ rest') = some (t, rest') := by
  obtain ⟨ps, rfl, _⟩ := parseLiteral_sound h
  simpa [formatString] using parseLiteral_complete ps rest'

/-! ## Replacement of escape sequences -/

/-- One piece under one replacement `\c ↦ o`, before (`sp`) and after (`sp'`). -/
def Pass (c o : UInt8) (sp sp' : Piece → List UInt8) (p : Piece) (rest : List Piece) : Prop :=
  (sp p = [bBackslash, c] ∧ sp' p = [o]) ∨
  (sp' p = sp p ∧
    ((∃ b, sp p = [b] ∧ b ≠ bBackslash) ∨
     (∃ d, sp p = [bBackslash, d] ∧ d ≠ c ∧ d ≠ bBackslash) ∨
     (∃ d h l, sp p = [bBackslash, d, h, l] ∧ d ≠ c ∧ d ≠ bBackslash ∧ h ≠ bBackslash ∧
        l ≠ bBackslash) ∨
     (sp p = [bBackslash] ∧ (rest.flatMap sp).head? ≠ some c)))

/-- It holds for all suffixes of a list. -/
def OnSuffixes (P : Piece → List Piece → Prop) : List Piece → Prop
  | [] => True
  | p :: ps => P p ps ∧ OnSuffixes P ps

theorem replace2_cons_ne {a b c x : UInt8} (h : x ≠ a) (s : List UInt8) :
    replace2 a b c (x :: s) = x :: replace2 a b c s := by
  cases s with
  | nil => simp [replace2]
  | cons y s => simp [replace2, h]

theorem replace2_cons_head {a b c x : UInt8} (s : List UInt8) (h : s.head? ≠ some b) :
    replace2 a b c (x :: s) = x :: replace2 a b c s := by
  cases s with
  | nil => simp [replace2]
  | cons y s =>
    simp only [List.head?_cons, ne_eq, Option.some.injEq] at h
    simp [replace2, h]

theorem replace2_stage (c o : UInt8) (sp sp' : Piece → List UInt8) (ps : List Piece)
    (h : OnSuffixes (Pass c o sp sp') ps) :
    replace2 bBackslash c o (ps.flatMap sp) = ps.flatMap sp' := by
  induction ps with
  | nil => rfl
  | cons p ps ih =>
    obtain ⟨h1, h2⟩ := h
    have ih := ih h2
    simp only [List.flatMap_cons]
    rcases h1 with ⟨h, h'⟩ | ⟨h', ⟨b, h, hb⟩ | ⟨d, h, hd, hd'⟩ | ⟨d, x, y, h, hd, hd', hx, hy⟩ |
      ⟨h, hh⟩⟩
    · rw [h, h']
      simp [replace2, ih]
    · rw [h', h, List.singleton_append, List.singleton_append, replace2_cons_ne hb, ih]
    · rw [h', h]
      simp only [List.cons_append, List.nil_append]
      rw [replace2_cons_head _ (by simpa using hd), replace2_cons_ne hd', ih]
    · rw [h', h]
      simp only [List.cons_append, List.nil_append]
      rw [replace2_cons_head _ (by simpa using hd), replace2_cons_ne hd', replace2_cons_ne hx,
        replace2_cons_ne hy, ih]
    · rw [h', h, List.singleton_append, List.singleton_append, replace2_cons_head _ hh, ih]

/-- How a piece is written after the first `k` replacements. -/
def Piece.after (k : Nat) : Piece → List UInt8
  | .plain b _ _ => [b]
  | .backslash => if 1 ≤ k then [bBackslash] else [bBackslash, bBackslash]
  | .quote => if 2 ≤ k then [bQuote] else [bBackslash, bQuote]
  | .newline => if 3 ≤ k then [10] else [bBackslash, bN]
  | .carriageReturn => if 4 ≤ k then [13] else [bBackslash, bR]
  | .tab => if 5 ≤ k then [9] else [bBackslash, bT]
  | .hex h l _ _ => [bBackslash, bX, h, l]

theorem onSuffixes_of (P : Piece → List Piece → Prop) (ps : List Piece) (hu : unambiguous ps)
    (h : ∀ p rest, (p = .backslash → notConfusable rest) → P p rest) : OnSuffixes P ps := by
  induction ps with
  | nil => trivial
  | cons p ps ih =>
    cases p with
    | backslash => exact ⟨h _ _ fun _ => hu.1, ih hu.2⟩
    | _ => exact ⟨h _ _ (fun e => by cases e), ih hu⟩

/-- No `c` follows an escaped backslash after `k` replacements. -/
theorem head_after (k : Nat) (c : UInt8) (rest : List Piece) (hn : notConfusable rest)
    (hc : (c = bQuote ∧ k = 1) ∨ c = bN ∨ c = bR ∨ c = bT) :
    (rest.flatMap (Piece.after k)).head? ≠ some c := by
  cases rest with
  | nil => simp
  | cons p rest =>
    cases p with
    | plain b h1 h2 =>
      simp only [notConfusable] at hn
      simp only [List.flatMap_cons, Piece.after, List.singleton_append, List.head?_cons, ne_eq,
        Option.some.injEq]
      rintro rfl
      rcases hc with ⟨rfl, _⟩ | rfl | rfl | rfl
      · exact h2 rfl
      · exact hn.1 rfl
      · exact hn.2.1 rfl
      · exact hn.2.2.1 rfl
    | _ =>
      simp only [List.flatMap_cons, Piece.after]
      rcases hc with ⟨rfl, rfl⟩ | rfl | rfl | rfl <;>
        first
        | (split <;>
            (simp only [List.cons_append, List.nil_append, List.head?_cons, ne_eq,
              Option.some.injEq]; decide))
        | (simp only [List.cons_append, List.head?_cons, ne_eq, Option.some.injEq]; decide)
        | (simp; decide)
        | simp

theorem stage (k : Nat) (c o : UInt8) (ps : List Piece) (hu : unambiguous ps)
    (hk : (k = 0 ∧ c = bBackslash ∧ o = bBackslash) ∨ (k = 1 ∧ c = bQuote ∧ o = bQuote) ∨
      (k = 2 ∧ c = bN ∧ o = 10) ∨ (k = 3 ∧ c = bR ∧ o = 13) ∨ (k = 4 ∧ c = bT ∧ o = 9)) :
    replace2 bBackslash c o (ps.flatMap (Piece.after k)) = ps.flatMap (Piece.after (k + 1)) := by
  refine replace2_stage c o _ _ ps (onSuffixes_of _ ps hu ?_)
  intro p rest hn
  cases p with
  | plain b h1 h2 => exact .inr ⟨rfl, .inl ⟨b, rfl, h1⟩⟩
  | hex h l h1 h2 =>
    refine .inr ⟨rfl, .inr (.inr (.inl ⟨bX, h, l, rfl, ?_, by decide, (isHex_ne ((isHex_eq _).trans h1)).1,
      (isHex_ne ((isHex_eq _).trans h2)).1⟩))⟩
    rcases hk with ⟨_, rfl, _⟩ | ⟨_, rfl, _⟩ | ⟨_, rfl, _⟩ | ⟨_, rfl, _⟩ | ⟨_, rfl, _⟩ <;> decide
  | backslash =>
    rcases hk with ⟨rfl, rfl, rfl⟩ | hk
    · exact .inl ⟨rfl, rfl⟩
    · have hk' : 1 ≤ k := by
        rcases hk with ⟨rfl, _⟩ | ⟨rfl, _⟩ | ⟨rfl, _⟩ | ⟨rfl, _⟩ <;> decide
      refine .inr ⟨by simp [Piece.after, hk'], .inr (.inr (.inr ⟨by simp [Piece.after, hk'],
        head_after k c rest (hn rfl) ?_⟩))⟩
      rcases hk with ⟨rfl, rfl, _⟩ | ⟨rfl, rfl, _⟩ | ⟨rfl, rfl, _⟩ | ⟨rfl, rfl, _⟩ <;> simp
  | _ =>
    rcases hk with ⟨rfl, rfl, rfl⟩ | ⟨rfl, rfl, rfl⟩ | ⟨rfl, rfl, rfl⟩ | ⟨rfl, rfl, rfl⟩ |
      ⟨rfl, rfl, rfl⟩ <;>
        first
        | exact .inl ⟨rfl, rfl⟩
        | exact .inr ⟨rfl, .inl ⟨_, rfl, by decide⟩⟩
        | exact .inr ⟨rfl, .inr (.inl ⟨_, rfl, by decide, by decide⟩)⟩

theorem replaceHex_cons_ne {x : UInt8} (h : x ≠ bBackslash) (s : List UInt8) :
    replaceHex (x :: s) = x :: replaceHex s := by
  match s with
  | [] => simp [replaceHex]
  | [_] => simp [replaceHex]
  | [_, _] => simp [replaceHex]
  | y :: h' :: l :: r => simp [replaceHex, h]

/-- A backslash that does not start an escape sequence stays. -/
theorem replaceHex_backslash (s : List UInt8)
    (h : ∀ h' l r, s = bX :: h' :: l :: r → ¬(isHex h' = true ∧ isHex l = true)) :
    replaceHex (bBackslash :: s) = bBackslash :: replaceHex s := by
  match s, h with
  | [], _ => simp [replaceHex]
  | [_], _ => simp [replaceHex]
  | [_, _], _ => simp [replaceHex]
  | y :: h' :: l :: r, h =>
    rw [replaceHex]
    split
    · rename_i hc
      obtain ⟨_, rfl, h1, h2⟩ := hc
      exact absurd ⟨h1, h2⟩ (h h' l r rfl)
    · rfl

theorem after_head_hex (p : Piece) (rest : List UInt8) (b : UInt8) (s : List UInt8)
    (h : p.after 5 ++ rest = b :: s) (hb : b = bX ∨ isHex b = true) :
    ∃ h1 h2, p = .plain b h1 h2 ∧ rest = s := by
  cases p with
  | plain b' h1 h2 =>
    simp only [Piece.after, List.singleton_append, List.cons.injEq] at h
    obtain ⟨rfl, rfl⟩ := h
    exact ⟨h1, h2, rfl, rfl⟩
  | _ =>
    simp only [Piece.after] at h
    simp only [Nat.reduceLeDiff, if_true, List.cons_append, List.nil_append,
      List.cons.injEq] at h
    obtain ⟨rfl, _⟩ := h
    exact absurd hb (by decide)

theorem stageHex (ps : List Piece) (hu : unambiguous ps) :
    replaceHex (ps.flatMap (Piece.after 5)) = denote ps := by
  induction ps with
  | nil => simp [denote, replaceHex]
  | cons p ps ih =>
    simp only [denote, List.flatMap_cons, List.map_cons] at ih ⊢
    cases p with
    | plain b h1 h2 =>
      have ih := ih hu
      simp only [Piece.after, List.singleton_append, Piece.byte]
      rw [replaceHex_cons_ne h1, ih]
    | hex h l h1 h2 =>
      have ih := ih hu
      simp only [Piece.after, List.cons_append, List.nil_append, Piece.byte]
      rw [replaceHex]
      simp [isHex_eq, h1, h2, hexValue_eq h1 h2, ih]
    | backslash =>
      have ih := ih hu.2
      simp only [Piece.after, Nat.reduceLeDiff, if_true, List.singleton_append, Piece.byte]
      rw [replaceHex_backslash, ih]
      intro h' l r hs ⟨hh, hl⟩
      have hn := hu.1
      cases ps with
      | nil => cases hs
      | cons p₁ ps₁ =>
        rw [List.flatMap_cons] at hs
        obtain ⟨a1, a2, rfl, hs₁⟩ := after_head_hex _ _ _ _ hs (.inl rfl)
        cases ps₁ with
        | nil => cases hs₁
        | cons p₂ ps₂ =>
          rw [List.flatMap_cons] at hs₁
          obtain ⟨b1, b2, rfl, hs₂⟩ := after_head_hex _ _ _ _ hs₁ (.inr hh)
          cases ps₂ with
          | nil => cases hs₂
          | cons p₃ ps₃ =>
            rw [List.flatMap_cons] at hs₂
            obtain ⟨c1, c2, rfl, hs₃⟩ := after_head_hex _ _ _ _ hs₂ (.inr hl)
            exact hn.2.2.2 rfl _ _ _ _ _ _ _ rfl ⟨(isHex_eq _).symm.trans hh, (isHex_eq _).symm.trans hl⟩
    | _ =>
      have ih := ih hu
      simp only [Piece.after, Nat.reduceLeDiff, if_true, List.singleton_append, Piece.byte]
      rw [replaceHex_cons_ne (by decide), ih]

theorem spelling_after (p : Piece) : p.spelling = p.after 0 := by
  cases p <;> rfl

theorem compileString_spell (ps : List Piece) (hu : unambiguous ps) :
    compileString (spell ps) = denote ps := by
  have h0 : spell ps = ps.flatMap (Piece.after 0) := by
    rw [spell, show Piece.spelling = Piece.after 0 from funext spelling_after]
  unfold compileString
  rw [h0, stage 0 _ _ ps hu (by simp), stage 1 _ _ ps hu (by simp), stage 2 _ _ ps hu (by simp),
    stage 3 _ _ ps hu (by simp), stage 4 _ _ ps hu (by simp), stageHex ps hu]

/-- **C37 (partial)**: a string literal in a source file that is spelled by some characters and
escape sequences compiles to the bytes these stand for, provided that no escaped backslash is
followed by the letters `n`, `r`, `t` or by `xHH`.  Missing: these literals, for which it is
false, see `c37_escaped_backslash`. -/
theorem c37_string_literal_partial (ps : List Piece) (rest : List UInt8) (hu : unambiguous ps) :
    ∃ t, parseLiteral (bQuote :: spell ps ++ bQuote :: rest) = some (t, rest) ∧
      compileString t = denote ps :=
  ⟨_, parseLiteral_complete ps rest, compileString_spell ps hu⟩

/-- Every literal the parser accepts is spelled by characters and escape sequences; if it has no
escaped backslash, it denotes what they stand for. -/
theorem c37_accepted_partial (s t rest : List UInt8) (h : parseLiteral s = some (t, rest)) :
    ∃ ps, s = bQuote :: spell ps ++ bQuote :: rest ∧
      ((∀ p ∈ ps, p ≠ Piece.backslash) → compileString t = denote ps) := by
  obtain ⟨ps, rfl, hs⟩ := parseLiteral_sound h
  refine ⟨ps, hs, fun hb => compileString_spell ps ?_⟩
  clear hs h
  induction ps with
  | nil => trivial
  | cons p ps ih =>
    have ih := ih fun q hq => hb q (List.mem_cons_of_mem _ hq)
    cases p with
    | backslash => exact absurd rfl (hb _ List.mem_cons_self)
    | _ => exact ih

/-- `"a\"A
"` satisfies the hypothesis (the escaped backslash is followed by an escape
sequence). -/
example : unambiguous [.plain 97 (by decide) (by decide), .backslash, .quote,
    .hex 52 49 (by decide) (by decide), .newline] ∧
    denote [.plain 97 (by decide) (by decide), .backslash, .quote,
      .hex 52 49 (by decide) (by decide), .newline] = [97, 92, 34, 65, 10] :=
  ⟨⟨trivial, trivial⟩, by decide⟩

/-- **C37 is violated**: the literal `"\n"`, an escaped backslash and the letter `n`, compiles to
a single line break. -/
theorem c37_escaped_backslash :
    ∃ (ps : List Piece) (t : List UInt8),
      parseLiteral (bQuote :: spell ps ++ [bQuote]) = some (t, []) ∧
      denote ps = [bBackslash, bN] ∧ compileString t = [10] :=
  ⟨[.backslash, .plain bN (by decide) (by decide)], _, parseLiteral_complete _ _, rfl, by decide⟩

/-- Likewise `"\x41"` compiles to the single byte `A`. -/
theorem c37_escaped_backslash_hex :
    ∃ (ps : List Piece) (t : List UInt8),
      parseLiteral (bQuote :: spell ps ++ [bQuote]) = some (t, []) ∧
      denote ps = [bBackslash, bX, 52, 49] ∧ compileString t = [65] :=
  ⟨[.backslash, .plain bX (by decide) (by decide), .plain 52 (by decide) (by decide),
    .plain 49 (by decide) (by decide)], _, parseLiteral_complete _ _, rfl, by decide⟩

end Verif.Parse
