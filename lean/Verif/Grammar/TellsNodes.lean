import Verif.Grammar.Tells
import Verif.Grammar.Sources

/-! What the documents of comments, lists of elements and types write. -/

namespace Verif.Grammar

/-! ## Room -/

theorem Wider.refl (ps : List Piece) : Wider ps ps := fun _ h => h

theorem Wider.trans {ps qs rs : List Piece} (h : Wider ps qs) (h' : Wider qs rs) : Wider ps rs :=
  fun s hs => h' s (h s hs)

theorem Wider.append {ps ps' qs qs' : List Piece} (h : Wider ps ps') (h' : Wider qs qs') :
    Wider (ps ++ qs) (ps' ++ qs') := by
  intro s hs
  obtain ⟨a, b, rfl, ha, hb⟩ := fills_append.mp hs
  exact fills_append.mpr ⟨a, b, rfl, h a ha, h' b hb⟩

theorem Wider.cons {qs qs' : List Piece} (h : Wider qs qs') (p : Piece) : Wider (p :: qs) (p :: qs') :=
  Wider.append (Wider.refl [p]) h

/-- A piece is a piece with more room. -/
theorem wider_head {ps ps' : List Piece} (h : Wider ps ps') (qs : List Piece) :
    Wider (ps ++ qs) (ps' ++ qs) := h.append (Wider.refl qs)

theorem fills_one {p : Piece} {s : List Char} : Fills [p] s ↔ Fill p s := by
  constructor
  · rintro ⟨a, b, rfl, h, rfl⟩; simpa using h
  · intro h; exact ⟨s, [], by simp, h, rfl⟩

theorem fills_two {p q : Piece} {s : List Char} :
    Fills [p, q] s ↔ ∃ a b, s = a ++ b ∧ Fill p a ∧ Fill q b := by
  constructor
  · rintro ⟨a, b, rfl, h, h'⟩; exact ⟨a, b, rfl, h, fills_one.mp h'⟩
  · rintro ⟨a, b, rfl, h, h'⟩; exact ⟨a, b, rfl, h, fills_one.mpr h'⟩

theorem wider_gap_soft : Wider [.gap, .soft] [.gap] := by
  intro s h
  obtain ⟨a, b, rfl, ha, hb⟩ := fills_two.mp h
  exact fills_one.mpr ⟨ha.1.append hb, by simp [ha.2]⟩

theorem wider_gap_gap : Wider [.gap, .gap] [.gap] := by
  intro s h
  obtain ⟨a, b, rfl, ha, hb⟩ := fills_two.mp h
  exact fills_one.mpr ⟨ha.1.append hb.1, by simp [ha.2]⟩

theorem wider_gap : Wider [.gap] [.soft] := by
  intro s h
  exact fills_one.mpr (fills_one.mp h).1

theorem wider_nil : Wider [] [.soft] := by
  rintro s rfl
  exact fills_one.mpr .nil

theorem wider_nil_trail : Wider [] [.trail] := by
  rintro s rfl
  exact fills_one.mpr (.inl rfl)

theorem wider_soft_soft : Wider [.soft, .soft] [.soft] := by
  intro s h
  obtain ⟨a, b, rfl, ha, hb⟩ := fills_two.mp h
  exact fills_one.mpr (Blank.append ha hb)

theorem wider_comma : Wider [text ",", .gap] [.trail] := by
  intro s h
  obtain ⟨a, b, rfl, ha, hb⟩ := fills_two.mp h
  cases ha
  exact fills_one.mpr (.inr ⟨b, rfl, hb.1⟩)

/-! ## Fixed texts -/

/-- Does a text fill pieces, with a space for every gap? -/
def fillsB : List Piece → List Char → Bool
  | [], s => s.isEmpty
  | .txt t :: ps, s => t.isPrefixOf s && fillsB ps (s.drop t.length)
  | .gap :: ps, ' ' :: s => fillsB ps s
  | .gap :: _, _ => false
  | .soft :: ps, s => fillsB ps s
  | .trail :: ps, s => fillsB ps s

theorem fillsB_spec : ∀ (ps : List Piece) (s : List Char), fillsB ps s = true → Fills ps s
  | [], s, h => by simpa [fillsB, Fills] using h
  | .txt t :: ps, s, h => by
    simp only [fillsB, Bool.and_eq_true, List.isPrefixOf_iff_prefix] at h
    obtain ⟨r, rfl⟩ := h.1
    rw [List.drop_left] at h
    exact ⟨t, r, rfl, rfl, fillsB_spec ps r h.2⟩
  | .gap :: ps, s, h => by
    match s with
    | [] => simp [fillsB] at h
    | c :: s =>
      by_cases hc : c = ' '
      · subst hc
        exact ⟨[' '], s, rfl, ⟨.space (by decide) .nil, by simp⟩, fillsB_spec ps s h⟩
      · simp [fillsB, hc] at h
  | .soft :: ps, s, h => ⟨[], s, rfl, .nil, fillsB_spec ps s h⟩
  | .trail :: ps, s, h => ⟨[], s, rfl, .inl rfl, fillsB_spec ps s h⟩

theorem tells_lit (s : String) {ps : List Piece} (h : fillsB ps s.toList = true)
    (hq : Quiet s.toList) (k : Bool) : Tells k (lit s) ps [] :=
  tells_str (fillsB_spec _ _ h) hq.scan k

theorem tells_txt {t : List Char} (h : Quiet t) (k : Bool) : Tells k (.str t) [.txt t] [] :=
  tells_str (ps := [.txt t]) (fills_txt.mpr ⟨[], by simp, rfl⟩) h.scan k

theorem word_quiet {t : List Char} (h : ∀ c ∈ t, isWord c = true ∨ c = '\'') : Quiet t := by
  intro c hc
  rcases h c hc with h | rfl
  · constructor <;> rintro rfl <;> exact absurd h (by decide)
  · decide

theorem IsIdentifier.quiet {x : Name} (h : IsIdentifier x) : Quiet x :=
  word_quiet fun c hc => .inl (h.words c hc)

theorem IsQualified.quiet {x : Name} (h : IsQualified x) : Quiet x := by
  rcases h with h | ⟨a, b, rfl, ha, hb⟩
  · exact h.quiet
  · refine word_quiet fun c hc => ?_
    rcases List.mem_append.mp hc with hc | hc
    · exact .inl (ha.words c hc)
    · rcases List.mem_cons.mp hc with rfl | hc
      · exact .inr rfl
      · exact .inl (hb.words c hc)

theorem quiet_append {a b : List Char} (ha : Quiet a) (hb : Quiet b) : Quiet (a ++ b) := by
  intro c hc
  rcases List.mem_append.mp hc with hc | hc
  · exact ha c hc
  · exact hb c hc

/-! ## Sequences -/

theorem Tells.cast {k : Bool} {d : Doc} {ps qs : List Piece} {xs ys : List (List Char)}
    (h : Tells k d ps xs) (hp : ps = qs) (hx : xs = ys) : Tells k d qs ys := hp ▸ hx ▸ h

/-- Documents that each write pieces and comments. -/
inductive Each (k : Bool) : List Doc → List (List Piece) → List (List Char) → Prop where
  | nil : Each k [] [] []
  | cons {d ds p ps xs ys} : Tells k d p xs → Each k ds ps ys → Each k (d :: ds) (p :: ps) (xs ++ ys)

theorem each_nil {k : Bool} {pss : List (List Piece)} {xs : List (List Char)}
    (h : Each k [] pss xs) : pss = [] ∧ xs = [] := by cases h; exact ⟨rfl, rfl⟩

theorem Each.isEmpty {k : Bool} {ds : List Doc} {pss : List (List Piece)} {xs : List (List Char)}
    (h : Each k ds pss xs) : ds.isEmpty = pss.isEmpty := by cases h <;> rfl

/-- Documents with a separator between them. -/
theorem Each.join {sep : Doc} {q : List Piece} (hsep : Tells false sep q []) {ds : List Doc}
    {pss : List (List Piece)} {xs : List (List Char)} (h : Each false ds pss xs) :
    Tells false (.cat (Doc.intersperse sep ds)) (join q pss) xs := by
  induction h with
  | nil => exact tells_empty _
  | @cons d ds p ps xs ys hd h ih =>
    cases h with
    | nil => exact (hd.and (tells_empty _)).cast (by simp [Verif.Grammar.join]) (by simp)
    | cons hd' h' =>
      exact (hd.and (hsep.and ih)).cast (by simp [Verif.Grammar.join]) (by simp)

theorem Each.cons_inv {k : Bool} {ds : List Doc} {p : List Piece} {pss : List (List Piece)}
    {xs : List (List Char)} (h : Each k ds (p :: pss) xs) :
    ∃ d ds' ys zs, ds = d :: ds' ∧ xs = ys ++ zs ∧ Tells k d p ys ∧ Each k ds' pss zs := by
  cases h with
  | cons hd h => exact ⟨_, _, _, _, rfl, rfl, hd, h⟩

theorem Each.nil_inv {k : Bool} {ds : List Doc} {xs : List (List Char)} (h : Each k ds [] xs) :
    ds = [] ∧ xs = [] := by
  cases h; exact ⟨rfl, rfl⟩

/-- Documents with comments, with a line at the end of the separator between them. -/
theorem Each.joinComments {sep : Doc} {q : List Piece} (hsep : Tells false sep (q ++ [.gap]) [])
    (hf : Flushes sep) : ∀ (pss : List (List Piece)) {ds : List Doc} {xs : List (List Char)},
    Each true ds (pss.map (.soft :: ·)) xs →
    Tells true (.cat (Doc.intersperse sep ds)) (.soft :: Verif.Grammar.join (q ++ [.gap]) pss) xs
  | [], ds, xs, h => by
    obtain ⟨rfl, rfl⟩ := h.nil_inv
    exact (tells_empty _).wider wider_nil
  | [p], ds, xs, h => by
    obtain ⟨d, ds', ys, zs, rfl, rfl, hd, h⟩ := h.cons_inv
    obtain ⟨rfl, rfl⟩ := h.nil_inv
    exact (hd.and (tells_empty _)).cast (by simp [Verif.Grammar.join]) (by simp)
  | p :: p2 :: pss, ds, xs, h => by
    obtain ⟨d, ds', ys, zs, rfl, rfl, hd, h⟩ := h.cons_inv
    have ih := Each.joinComments hsep hf (p2 :: pss) h
    obtain ⟨d2, ds2, ys2, zs2, rfl, rfl, -, -⟩ := h.cons_inv
    have h3 := (hsep.seq ih (fun _ => .inl hf)).wider (qs := (q ++ [.gap]) ++
        Verif.Grammar.join (q ++ [.gap]) (p2 :: pss)) (by
      have := wider_head (Wider.append (Wider.refl q) wider_gap_soft)
        (Verif.Grammar.join (q ++ [.gap]) (p2 :: pss))
      simpa using this)
    exact (hd.and h3).cast (by simp [Verif.Grammar.join]) (by simp)

theorem flushes_separator : Flushes separator :=
  ((flushes_line.keep keeps_empty).seq (lit ","))

theorem tells_separator (k : Bool) : Tells k separator ([text ","] ++ [.gap]) [] :=
  ((tells_lit "," (ps := [text ","]) rfl (by decide) k).and ((tells_line false).and (tells_empty _)))

/-- Elements in parentheses or braces. -/
theorem enclosed_tells {flat : Bool} {ds : List Doc} {pss : List (List Piece)}
    {xs : List (List Char)} (h : Each true ds (pss.map (.soft :: ·)) xs)
    (hf : pss = [] → flat = true) :
    Tells false (enclosed flat (.cat (Doc.intersperse separator ds))) (.soft :: elements pss) xs := by
  have hj := Each.joinComments (tells_separator false) flushes_separator pss h
  cases pss with
  | nil =>
    rw [hf rfl]
    exact hj.flat
  | cons p ps =>
    unfold enclosed
    cases flat with
    | true =>
      exact hj.flat.wider (by
        have := Wider.append (Wider.refl (.soft :: join comma (p :: ps))) wider_nil_trail
        simpa [elements, comma] using this)
    | false =>
      have h1 := ((tells_line false).seq (hj.and (tells_empty _)) (fun _ => .inl flushes_line)).indent
      have h2 := (h1.and ((tells_separator false).and (tells_empty _))).broken
      refine (h2.cast rfl (by simp)).wider ?_
      have w1 : Wider [.gap, .soft] [.soft] := wider_gap_soft.trans wider_gap
      have := (w1.append (Wider.refl (join comma (p :: ps)))).append wider_comma
      simpa [elements, comma] using this

theorem join_gap {q : List Piece} (ps : List (List Piece)) (p : List Piece) :
    join q ((p :: ps).map (.gap :: ·)) = .gap :: join (q ++ [.gap]) (p :: ps) := by
  induction ps generalizing p with
  | nil => rfl
  | cons a ps ih =>
    have := ih a
    simp only [List.map_cons] at this
    simp only [List.map_cons, join, this]
    simp

/-- Elements of lists and maps. -/
theorem listed_tells {flat : Bool} {ds : List Doc} {pss : List (List Piece)}
    {xs : List (List Char)} (h : Each false ds (pss.map (.gap :: ·)) xs)
    (hf : pss = [] → flat = true) :
    Tells false (listed flat (.cat (Doc.intersperse (lit ",") ds)))
      ((if pss.isEmpty then [] else [.gap]) ++ elements pss) xs := by
  have hj := h.join (tells_lit "," (ps := [text ","]) rfl (by decide) false)
  cases pss with
  | nil =>
    rw [hf rfl]
    exact hj.flat
  | cons p ps =>
    rw [join_gap] at hj
    unfold listed
    cases flat with
    | true =>
      refine hj.flat.wider ?_
      have := Wider.append (Wider.refl (.gap :: join comma (p :: ps))) wider_nil_trail
      simpa [elements, comma] using this
    | false =>
      have h2 := (hj.indent.and ((tells_lit "," (ps := [text ","]) rfl (by decide) false).and
        ((tells_line false).and (tells_empty _)))).broken
      refine (h2.cast rfl (by simp)).wider ?_
      have := (Wider.refl (.gap :: join comma (p :: ps))).append wider_comma
      simpa [elements, comma] using this

theorem Tells.paren {d : Doc} {ps : List Piece} {xs : List (List Char)} (h : Tells false d ps xs)
    (b : Bool) : Tells false (parenDoc b d) (paren b ps) xs := by
  cases b with
  | false => exact h
  | true =>
    exact ((tells_lit "(" (ps := [text "("]) rfl (by decide) false).and
      (h.and ((tells_lit ")" (ps := [text ")"]) rfl (by decide) false).and (tells_empty _)))).cast
      (by simp [Verif.Grammar.paren]) (by simp)

/-! ## Comments -/

/-- What is written of a comment. -/
def Comment.kept (c : Comment) : List Char := trimEnd c.text

/-- The comments have no line breaks. -/
def Clean (cs : List Comment) : Prop := ∀ c ∈ cs, OneLine c.text

theorem trimEnd_oneLine {t : List Char} (h : OneLine t) : OneLine (trimEnd t) := by
  intro d hd
  refine h d ?_
  unfold trimEnd at hd
  rw [List.mem_reverse] at hd
  have := (List.dropWhile_sublist (l := t.reverse) isWhite).subset hd
  simpa using this

theorem Clean.kept {cs : List Comment} (h : Clean cs) : ∀ t ∈ cs.map Comment.kept, OneLine t := by
  intro t ht
  obtain ⟨c, hc, rfl⟩ := List.mem_map.mp ht
  exact trimEnd_oneLine (h c hc)

/-- A comment on a line of its own. -/
theorem comment_tells (t : List Char) :
    Tells true (.seq (.str ['#']) (.seq (.str t) (.brk true .line))) [.soft] [t] := by
  intro b n w pend hw hx
  have hp : ∀ u ∈ t :: pend, OneLine u := fun u hu => hx u (by
    rcases List.mem_cons.mp hu with rfl | hu <;> simp [*])
  have hg : OneLine (glue (t :: pend)) := glue_oneLine hp
  have e : (Doc.write (.seq (.str ['#']) (.seq (.str t) (.brk true .line))) b n w).1 =
      w.indentation n ++ '#' :: (glue (t :: pend) ++ '\n' :: []) := by
    simp [Doc.write, glue, hw, Writer.indentation]
  refine ⟨[t :: pend], [], rfl, ?_, ?_, by simp, ?_, ?_, ?_⟩
  · rw [e]
    show FillsIn w.start true _ _
    have hf : ∀ j, Fills [.soft] ('#' :: (glue (t :: pend) ++ '\n' :: []) ++ spaces j) := fun j => by
      refine fills_one.mpr ?_
      show Blank _
      simpa using Blank.comment hg (c := '\n') (by decide) (spaces_blank j)
    unfold Writer.indentation
    cases w.start
    · exact ⟨0, _, by simp, fun _ => rfl, by simpa using hf 0, fun _ => .inr hf⟩
    · exact ⟨2 * n, _, by simp, by simp, by simpa using hf 0, fun _ => .inr hf⟩
  · rw [e]
    refine Scan.append (cs := []) ?_ (.comment hg (by decide) .nil)
    unfold Writer.indentation
    split
    · exact (quiet_spaces _).scan
    · exact .nil
  · simpa using (List.perm_append_singleton t pend).symm
  · intro hb _
    have := (hb (by simp [Doc.isBroken])).2 rfl
    simp [this]
  · rintro rfl _
    simp

theorem comment_flushes (t : List Char) :
    Flushes (.seq (.str ['#']) (.seq (.str t) (.brk true .line))) := fun _ _ => rfl

theorem allComments_flushes : ∀ (cs : List Comment) (n : Nat) (c : Comment),
    Flushes (.cat (allComments (c :: cs) n)) ∧ Keeps (.cat (allComments (c :: cs) n)) ∧
      0 < (Doc.cat (allComments (c :: cs) n)).countLines true
  | [], n, c => by
    have hk : Keeps (if c.line + 1 < n then Doc.line else .empty) := by
      split
      · exact keeps_line
      · exact keeps_empty
    have hk' : ∀ b m (w : Writer), (Doc.write (.cat (allComments [c] n)) b m w).2.suffixes = [] := by
      intro b m w
      exact hk b m ⟨[], true⟩ rfl
    refine ⟨fun m w => hk' true m w, fun b m w _ => hk' b m w, ?_⟩
    simp only [allComments, Doc.cat, Doc.countLines]
    simp
    omega
  | d :: cs, n, c => by
    obtain ⟨h1, h2, h3⟩ := allComments_flushes cs n d
    refine ⟨h1.seq _, ?_, ?_⟩
    · have hk : Keeps (if c.line + 1 < d.line then Doc.line else .empty) := by
        split
        · exact keeps_line
        · exact keeps_empty
      intro b m w hw
      exact h2 b m _ (hk b m ⟨[], true⟩ rfl)
    · show 0 < _ + (Doc.cat (allComments (d :: cs) n)).countLines true
      omega

theorem allComments_keeps (cs : List Comment) (n : Nat) : Keeps (.cat (allComments cs n)) := by
  cases cs with
  | nil => exact keeps_empty
  | cons c cs => exact (allComments_flushes cs n c).2.1

/-- A comment with an empty line after it or not. -/
theorem comment_extra (t : List Char) {x : Doc} (hx : x = .line ∨ x = .empty) :
    Tells true (.cat [.str ['#'], .str t, .brk true .line, x]) [.soft] [t] ∧
      Flushes (.cat [.str ['#'], .str t, .brk true .line, x]) ∧
      ∀ b n w, ((Doc.cat [.str ['#'], .str t, .brk true .line, x]).write b n w).2.suffixes = [] := by
  have hk : Keeps x := by
    rcases hx with rfl | rfl
    · exact keeps_line
    · exact keeps_empty
  have hall : ∀ b n w,
      ((Doc.cat [.str ['#'], .str t, .brk true .line, x]).write b n w).2.suffixes = [] :=
    fun b n w => hk b n ⟨[], true⟩ rfl
  refine ⟨?_, fun n w => hall true n w, hall⟩
  have hx' : Tells false x [.soft] [] := by
    rcases hx with rfl | rfl
    · exact (tells_line _).wider wider_gap
    · exact (tells_empty _).wider wider_nil
  have h := ((comment_tells t).and hx').wider wider_soft_soft
  intro b n w pend hw hone
  have e : (Doc.cat [.str ['#'], .str t, .brk true .line, x]).write b n w =
      (Doc.seq (.seq (.str ['#']) (.seq (.str t) (.brk true .line))) x).write b n w := by
    simp [Doc.write, Doc.cat]
  rw [e]
  have h := h b n w pend hw (by simpa using hone)
  simpa [Doc.isBroken, Doc.tidy, Doc.hasSuffix, Doc.cat] using h

theorem lineOrEmpty (p : Prop) [Decidable p] :
    (if p then Doc.line else .empty) = .line ∨ (if p then Doc.line else .empty) = .empty := by
  by_cases h : p <;> simp [h]

theorem allComments_tells : ∀ (cs : List Comment) (n : Nat),
    Tells true (.cat (allComments cs n)) [.soft] (cs.map Comment.kept)
  | [], _ => (tells_empty _).wider wider_nil
  | c :: cs, n => by
    have h := comment_extra (trimEnd c.text)
      (x := if c.line + 1 < (match cs with | [] => n | d :: _ => d.line) then .line else .empty)
      (lineOrEmpty _)
    exact ((h.1.seq (allComments_tells cs n) (fun _ => .inl h.2.1)).cast rfl rfl).wider wider_soft_soft

theorem suffixes_tells : ∀ (cs : List Comment),
    Tells false (.cat (cs.map fun c => .suffix (" #".toList ++ trimEnd c.text))) []
      (cs.map Comment.kept)
  | [] => tells_empty _
  | c :: cs => ((tells_suffix (trimEnd c.text) false).and (suffixes_tells cs)).cast rfl (by
      simp [Comment.kept])

/-! ## Running the formatter -/

/-- The formatter takes comments from the front, and what it makes of them has this property. -/
def Runs {α : Type} (f : F α) (P : α → List (List Char) → Prop) : Prop :=
  ∀ cs, ∃ used, cs = used ++ (f cs).2 ∧ P (f cs).1 (used.map Comment.kept)

theorem Runs.pure {α : Type} {a : α} {P : α → List (List Char) → Prop} (h : P a []) :
    Runs (Pure.pure a) P := fun _ => ⟨[], rfl, h⟩

theorem Runs.bind {α β : Type} {f : F α} {g : α → F β} {P : α → List (List Char) → Prop}
    {Q : β → List (List Char) → Prop} (hf : Runs f P)
    (hg : ∀ a xs, P a xs → Runs (g a) fun b ys => Q b (xs ++ ys)) : Runs (f >>= g) Q := by
  intro cs
  obtain ⟨u, h1, h2⟩ := hf cs
  obtain ⟨v, h3, h4⟩ := hg _ _ h2 (f cs).2
  refine ⟨u ++ v, ?_, ?_⟩
  · show cs = (u ++ v) ++ (g (f cs).1 (f cs).2).2
    rw [List.append_assoc, ← h3]
    exact h1
  · rw [List.map_append]
    exact h4

theorem Runs.mono {α : Type} {f : F α} {P Q : α → List (List Char) → Prop} (hf : Runs f P)
    (h : ∀ a xs, P a xs → Q a xs) : Runs f Q := by
  intro cs
  obtain ⟨u, h1, h2⟩ := hf cs
  exact ⟨u, h1, h _ _ h2⟩

theorem blockComment_runs (n : Nat) :
    Runs (blockComment n) fun d xs => Tells true d [.soft] xs ∧ Keeps d := by
  intro cs
  exact ⟨cs.takeWhile fun c => c.line < n, (List.takeWhile_append_dropWhile ..).symm,
    allComments_tells _ _, allComments_keeps _ _⟩

theorem suffixComment_runs (n : Nat) : Runs (suffixComment n) fun d xs => Tells false d [] xs := by
  intro cs
  exact ⟨cs.takeWhile fun c => c.line < n + 1, (List.takeWhile_append_dropWhile ..).symm,
    suffixes_tells _⟩

theorem remainingComment_runs :
    Runs remainingComment fun d xs => Tells true d [.soft] xs ∧ Keeps d := by
  intro cs
  exact ⟨cs, by simp [remainingComment], allComments_tells _ _, allComments_keeps _ _⟩

theorem lineComment_runs {n : Nat} {f : F Doc} {ps : List Piece}
    (hf : Runs f fun d xs => Tells false d ps xs) :
    Runs (lineComment n f) fun d xs => Tells true d (.soft :: ps) xs := by
  unfold lineComment
  refine (blockComment_runs n).bind fun b xs hb => hf.bind fun d ys hd =>
    (suffixComment_runs n).bind fun s zs hs => .pure ?_
  exact (hb.1.and (hd.and (hs.and (tells_empty _)))).cast (by simp) (by simp)

end Verif.Grammar
