import Verif.Grammar.Comments
import Verif.Grammar.Rendering

/-! What documents write: the pieces of `Printer.lean`, and comments. -/

namespace Verif.Grammar

/-! ## Reading comments -/

theorem Scan.append {a b : List Char} {cs ds : List (List Char)} (ha : Scan a cs) (hb : Scan b ds) :
    Scan (a ++ b) (cs ++ ds) := by
  induction ha with
  | nil => exact hb
  | char h1 h2 _ ih => exact .char h1 h2 ih
  | string ht _ ih => simpa using Scan.string ht ih
  | comment ht hc _ ih => simpa using Scan.comment ht hc ih

/-- No quote and no `#`. -/
def Quiet (s : List Char) : Prop := ∀ c ∈ s, c ≠ '#' ∧ c ≠ '"'

instance (s : List Char) : Decidable (Quiet s) := by unfold Quiet; infer_instance

theorem Quiet.scan : ∀ {s : List Char}, Quiet s → Scan s []
  | [], _ => .nil
  | _ :: _, h => .char (h _ List.mem_cons_self).1 (h _ List.mem_cons_self).2
      (Quiet.scan fun c hc => h c (List.mem_cons_of_mem _ hc))

theorem quiet_spaces (n : Nat) : Quiet (spaces n) := by
  intro c hc
  rw [List.eq_of_mem_replicate hc]
  decide

/-! ## Comments that are written on one line -/

/-- How a comment at the end of a line is written. -/
def enc (t : List Char) : List Char := ' ' :: '#' :: t

/-- The text of a comment that is made of comments on the same line. -/
def glue : List (List Char) → List Char
  | [] => []
  | t :: ts => t ++ (ts.map enc).flatten

/-- No line breaks. -/
def OneLine (t : List Char) : Prop := ∀ d ∈ t, isNewline d = false

theorem enc_oneLine {t : List Char} (h : OneLine t) : OneLine (enc t) := by
  intro d hd
  rcases List.mem_cons.mp hd with rfl | hd
  · decide
  rcases List.mem_cons.mp hd with rfl | hd
  · decide
  · exact h d hd

theorem glue_oneLine {ts : List (List Char)} (h : ∀ t ∈ ts, OneLine t) : OneLine (glue ts) := by
  cases ts with
  | nil => intro d hd; cases hd
  | cons t ts =>
    intro d hd
    rcases List.mem_append.mp hd with hd | hd
    · exact h t List.mem_cons_self d hd
    · obtain ⟨u, hu, hd⟩ := List.mem_flatten.mp hd
      obtain ⟨v, hv, rfl⟩ := List.mem_map.mp hu
      exact enc_oneLine (h v (List.mem_cons_of_mem _ hv)) d hd

/-- Suffixes and a line break. -/
theorem flush_eq (t : List Char) (ts : List (List Char)) :
    ((t :: ts).map enc).flatten = ' ' :: '#' :: glue (t :: ts) := by simp [enc, glue]

theorem flush_blank {ts : List (List Char)} (h : ∀ t ∈ ts, OneLine t) :
    Blank ((ts.map enc).flatten ++ ['\n']) := by
  cases ts with
  | nil => exact .space (by decide) .nil
  | cons t ts =>
    rw [flush_eq]
    exact .space (by decide) (.comment (glue_oneLine h) (by decide) .nil)

/-- The comments that suffixes are read as. -/
def flushed : List (List Char) → List (List (List Char))
  | [] => []
  | t :: ts => [t :: ts]

theorem flushed_flatten (ts : List (List Char)) : (flushed ts).flatten = ts := by
  cases ts <;> simp [flushed]

theorem flush_scan {ts : List (List Char)} (h : ∀ t ∈ ts, OneLine t) :
    Scan ((ts.map enc).flatten ++ ['\n']) ((flushed ts).map glue) := by
  cases ts with
  | nil => exact .char (by decide) (by decide) .nil
  | cons t ts =>
    rw [flush_eq]
    exact .char (by decide) (by decide) (.comment (glue_oneLine h) (by decide) .nil)

/-! ## Documents -/

namespace Doc

/-- Nothing that is flattened has a broken part. -/
def tidy : Doc → Bool
  | .seq a b => a.tidy && b.tidy
  | .indent d => d.tidy
  | .brk b d => (b || !d.isBroken) && d.tidy
  | _ => true

/-- Are there comments at ends of lines? -/
def hasSuffix : Doc → Bool
  | .suffix _ => true
  | .seq a b => a.hasSuffix || b.hasSuffix
  | .indent d => d.hasSuffix
  | .brk _ d => d.hasSuffix
  | _ => false

end Doc

/-- The text of a document fills pieces.  At the start of a line, the text may have indentation in
front of the pieces; if it ends at the start of a line, the pieces have room for indentation. -/
def FillsIn (start start' : Bool) (ps : List Piece) (s : List Char) : Prop :=
  ∃ k rest, s = spaces k ++ rest ∧ (start = false → k = 0) ∧ Fills ps rest ∧
    (start' = true → (s = [] ∧ start = true) ∨ ∀ j, Fills ps (rest ++ spaces j))

theorem FillsIn.seq {s0 s1 s2 : Bool} {ps qs : List Piece} {a b : List Char}
    (ha : FillsIn s0 s1 ps a) (hb : FillsIn s1 s2 qs b) : FillsIn s0 s2 (ps ++ qs) (a ++ b) := by
  obtain ⟨k, ra, rfl, hk, hf, he⟩ := ha
  obtain ⟨j, rb, rfl, hj, hg, hh⟩ := hb
  cases s1 with
  | false =>
    have := hj rfl
    subst this
    refine ⟨k, ra ++ rb, by simp, hk, fills_append.mpr ⟨_, _, rfl, hf, hg⟩, fun h2 => ?_⟩
    rcases hh h2 with ⟨_, h⟩ | h
    · cases h
    · exact .inr fun i => by
        rw [List.append_assoc]
        exact fills_append.mpr ⟨_, _, rfl, hf, h i⟩
  | true =>
    rcases he rfl with ⟨h, hs⟩ | h
    · obtain ⟨h, rfl⟩ := List.append_eq_nil_iff.mp h
      have h0 : k = 0 := by simpa using h
      subst h0
      refine ⟨j, rb, by simp, by simp [hs], fills_append.mpr ⟨[], _, rfl, hf, hg⟩, fun h2 => ?_⟩
      rcases hh h2 with ⟨h, _⟩ | h
      · exact .inl ⟨by simpa using h, hs⟩
      · exact .inr fun i => fills_append.mpr ⟨[], _, rfl, hf, h i⟩
    · refine ⟨k, (ra ++ spaces j) ++ rb, by simp, hk,
        fills_append.mpr ⟨_, _, rfl, h j, hg⟩, fun h2 => .inr fun i => ?_⟩
      rcases hh h2 with ⟨h', _⟩ | h'
      · obtain ⟨h', rfl⟩ := List.append_eq_nil_iff.mp h'
        have h0 : j = 0 := by simpa using h'
        subst h0
        refine fills_append.mpr ⟨ra ++ spaces i, [], by simp, h i, hg⟩
      · rw [List.append_assoc]
        exact fills_append.mpr ⟨_, _, rfl, h j, h' i⟩

/-- Pieces with more room. -/
def Wider (ps qs : List Piece) : Prop := ∀ s, Fills ps s → Fills qs s

theorem FillsIn.wider {s0 s1 : Bool} {ps qs : List Piece} {a : List Char}
    (ha : FillsIn s0 s1 ps a) (h : Wider ps qs) : FillsIn s0 s1 qs a := by
  obtain ⟨k, ra, rfl, hk, hf, he⟩ := ha
  exact ⟨k, ra, rfl, hk, h _ hf, fun h1 => (he h1).imp id fun h' j => h _ (h' j)⟩

/-- A document writes pieces and comments: in whatever lines, at whatever level and after whatever
suffixes, its text fills the pieces, and the comments of its text are made of the comments that were
waiting and of those of the document.  None of them is lost, and none is written twice.  They stay
in order if nothing is broken in flat lines and, for documents that `starts` with comments, if none
was waiting.  Without comments at ends of lines they are written one by one. -/
def Tells (starts : Bool) (d : Doc) (ps : List Piece) (xs : List (List Char)) : Prop :=
  ∀ (b : Bool) (n : Nat) (w : Writer) (pend : List (List Char)), w.suffixes = pend.map enc →
    (∀ t ∈ pend ++ xs, OneLine t) →
    ∃ gs pend', (d.write b n w).2.suffixes = pend'.map enc ∧
      FillsIn w.start (d.write b n w).2.start ps (d.write b n w).1 ∧
      Scan (d.write b n w).1 (gs.map glue) ∧
      (∀ g ∈ gs, g ≠ []) ∧
      (gs.flatten ++ pend').Perm (pend ++ xs) ∧
      ((d.isBroken = true → b = true ∧ (starts = true → pend = [])) → d.tidy = true →
        gs.flatten ++ pend' = pend ++ xs) ∧
      (pend = [] → d.hasSuffix = false → pend' = [] ∧ gs = xs.map fun x => [x])

/-- Nothing is waiting after the document if nothing was before. -/
def Keeps (d : Doc) : Prop :=
  ∀ b n (w : Writer), w.suffixes = [] → (d.write b n w).2.suffixes = []

/-- In broken lines, nothing is waiting after the document. -/
def Flushes (d : Doc) : Prop := ∀ n (w : Writer), (d.write true n w).2.suffixes = []

theorem Tells.wider {k : Bool} {d : Doc} {ps qs : List Piece} {xs : List (List Char)}
    (h : Tells k d ps xs) (hq : Wider ps qs) : Tells k d qs xs := by
  intro b n w pend hw hx
  obtain ⟨gs, pend', h1, h2, h3, h4, h5, h6, h7⟩ := h b n w pend hw hx
  exact ⟨gs, pend', h1, h2.wider hq, h3, h4, h5, h6, h7⟩

theorem Tells.weaken {d : Doc} {ps : List Piece} {xs : List (List Char)}
    (h : Tells false d ps xs) (k : Bool) : Tells k d ps xs := by
  intro b n w pend hw hx
  obtain ⟨gs, pend', h1, h2, h3, h4, h5, h6, h7⟩ := h b n w pend hw hx
  exact ⟨gs, pend', h1, h2, h3, h4, h5, fun h => h6 fun h' => ⟨(h h').1, by simp⟩, h7⟩

theorem tells_empty (k : Bool) : Tells k .empty [] [] := by
  intro b n w pend hw hx
  refine ⟨[], pend, hw, ⟨0, [], rfl, fun _ => rfl, rfl, fun h => .inl ⟨rfl, h⟩⟩, .nil, by simp, by simp,
    by simp, by simp +contextual⟩

theorem tells_str {t : List Char} {ps : List Piece} (h : Fills ps t) (hs : Scan t []) (k : Bool) :
    Tells k (.str t) ps [] := by
  intro b n w pend hw hx
  refine ⟨[], pend, hw, ?_, ?_, by simp, by simp, by simp, by simp +contextual⟩
  · show FillsIn w.start false ps (w.indentation n ++ t)
    unfold Writer.indentation
    cases w.start
    · exact ⟨0, t, by simp, fun _ => rfl, h, by simp⟩
    · exact ⟨2 * n, t, by simp, by simp, h, by simp⟩
  · show Scan (w.indentation n ++ t) []
    unfold Writer.indentation
    split
    · exact (quiet_spaces _).scan.append hs
    · simpa using hs

theorem spaces_blank : ∀ n, Blank (spaces n)
  | 0 => .nil
  | n + 1 => .space (by decide) (spaces_blank n)

theorem blank_app {a b : List Char} (ha : Blank a) (hb : Blank b) : Blank (a ++ b) := ha.append hb

theorem tells_line (k : Bool) : Tells k .line [.gap] [] := by
  intro b n w pend hw hx
  have hp : ∀ t ∈ pend, OneLine t := fun t ht => hx t (by simp [ht])
  cases b with
  | true =>
    refine ⟨flushed pend, [], rfl, ?_, ?_, ?_, by simp [flushed_flatten], by simp [flushed_flatten],
      by rintro rfl; simp [flushed]⟩
    · show FillsIn w.start true [.gap] (w.suffixes.flatten ++ ['\n'])
      rw [hw]
      refine ⟨0, _, by simp; rfl, fun _ => rfl, ?_, fun _ => .inr fun j => ?_⟩
      · exact fills_gap.mpr ⟨_, [], by simp, ⟨flush_blank hp, by simp⟩, rfl⟩
      · exact fills_gap.mpr ⟨_, [], by simp, ⟨blank_app (flush_blank hp) (spaces_blank j), by simp⟩, rfl⟩
    · show Scan (w.suffixes.flatten ++ ['\n']) _
      rw [hw]
      exact flush_scan hp
    · cases pend <;> simp [flushed]
  | false =>
    refine ⟨[], pend, hw, ?_, ?_, by simp, by simp, by simp, by simp +contextual⟩
    · show FillsIn w.start false [.gap] (w.indentation n ++ [' '])
      have hf : Fills [.gap] [' '] := ⟨[' '], [], rfl, ⟨.space (by decide) .nil, by simp⟩, rfl⟩
      unfold Writer.indentation
      cases w.start
      · exact ⟨0, _, by simp, fun _ => rfl, hf, by simp⟩
      · exact ⟨2 * n, _, by simp, by simp, hf, by simp⟩
    · show Scan (w.indentation n ++ [' ']) []
      have hs : Scan [' '] [] := .char (by decide) (by decide) .nil
      unfold Writer.indentation
      split
      · exact (quiet_spaces _).scan.append hs
      · simpa using hs

theorem tells_suffix (t : List Char) (k : Bool) : Tells k (.suffix (enc t)) [] [t] := by
  intro b n w pend hw hx
  refine ⟨[], pend ++ [t], ?_, ⟨0, [], rfl, fun _ => rfl, rfl, fun h => .inl ⟨rfl, h⟩⟩, .nil, by simp,
    by simp, by simp, by simp [Doc.hasSuffix]⟩
  show w.suffixes ++ [enc t] = _
  simp [hw]

theorem perm_glue {a b c p q r x y : List (List Char)} (h1 : (a ++ q).Perm (p ++ x))
    (h2 : (b ++ r).Perm (q ++ y)) (hc : c = a ++ b) : (c ++ r).Perm (p ++ (x ++ y)) := by
  subst hc
  rw [List.append_assoc]
  refine (List.Perm.append_left a h2).trans ?_
  rw [← List.append_assoc, ← List.append_assoc]
  exact List.Perm.append_right y h1

/-- Two documents.  The second one may start with comments if nothing is waiting then. -/
theorem Tells.seq {k j : Bool} {d e : Doc} {ps qs : List Piece} {xs ys : List (List Char)}
    (hd : Tells k d ps xs) (he : Tells j e qs ys)
    (hj : j = true → Flushes d ∨ (k = true ∧ Keeps d)) : Tells k (.seq d e) (ps ++ qs) (xs ++ ys) := by
  intro b n w pend hw hx
  obtain ⟨gs, pend', h1, h2, h3, h4, h5, h6, h7⟩ := hd b n w pend hw (fun t ht => hx t (by
    rcases List.mem_append.mp ht with h | h <;> simp [h]))
  obtain ⟨hs, pend'', i1, i2, i3, i4, i5, i6, i7⟩ := he b n (d.write b n w).2 pend' h1
    (fun t ht => by
      rcases List.mem_append.mp ht with h | h
      · exact hx t (by
          have := h5.mem_iff.mp (List.mem_append_right _ h)
          rcases List.mem_append.mp this with h | h <;> simp [h])
      · exact hx t (by simp [h]))
  refine ⟨gs ++ hs, pend'', i1, h2.seq i2, ?_, ?_, ?_, ?_, ?_⟩
  · rw [List.map_append]
    exact h3.append i3
  · intro g hg
    rcases List.mem_append.mp hg with hg | hg
    · exact h4 g hg
    · exact i4 g hg
  · exact perm_glue h5 i5 List.flatten_append
  · intro hb ht
    simp only [Doc.isBroken, Doc.tidy, Bool.or_eq_true, Bool.and_eq_true] at hb ht
    have e1 := h6 (fun h => hb (.inl h)) ht.1
    have e2 := i6 (fun h => ⟨(hb (.inr h)).1, fun hj' => ?_⟩) ht.2
    · rw [List.flatten_append, List.append_assoc, e2, ← List.append_assoc, e1, List.append_assoc]
    · obtain ⟨rfl, hp⟩ := hb (.inr h)
      rcases hj hj' with h | ⟨hk, h⟩
      · have := h n w
        rw [h1] at this
        simpa using this
      · have := h true n w (by simp [hw, hp hk])
        rw [h1] at this
        simpa using this
  · intro hp ht
    simp only [Doc.hasSuffix, Bool.or_eq_false_iff] at ht
    obtain ⟨rfl, rfl⟩ := h7 hp ht.1
    obtain ⟨rfl, rfl⟩ := i7 rfl ht.2
    exact ⟨rfl, by simp⟩

/-- Two documents, of which the second one does not start with comments. -/
theorem Tells.and {k : Bool} {d e : Doc} {ps qs : List Piece} {xs ys : List (List Char)}
    (hd : Tells k d ps xs) (he : Tells false e qs ys) : Tells k (.seq d e) (ps ++ qs) (xs ++ ys) :=
  hd.seq he (by simp)

theorem Tells.indent {k : Bool} {d : Doc} {ps : List Piece} {xs : List (List Char)}
    (hd : Tells k d ps xs) : Tells k (.indent d) ps xs := by
  intro b n w pend hw hx
  exact hd b (n + 1) w pend hw hx

/-- A flat document: if it is tidy, nothing in it is broken. -/
theorem Tells.flat {k : Bool} {d : Doc} {ps : List Piece} {xs : List (List Char)}
    (hd : Tells k d ps xs) : Tells false (.brk false d) ps xs := by
  intro b n w pend hw hx
  obtain ⟨gs, pend', h1, h2, h3, h4, h5, h6, h7⟩ := hd false n w pend hw hx
  refine ⟨gs, pend', h1, h2, h3, h4, h5, fun _ ht => ?_, h7⟩
  simp only [Doc.tidy, Bool.false_or, Bool.and_eq_true, Bool.not_eq_true'] at ht
  exact h6 (by simp [ht.1]) ht.2

theorem Tells.broken {k : Bool} {d : Doc} {ps : List Piece} {xs : List (List Char)}
    (hd : Tells k d ps xs) : Tells k (.brk true d) ps xs := by
  intro b n w pend hw hx
  obtain ⟨gs, pend', h1, h2, h3, h4, h5, h6, h7⟩ := hd true n w pend hw hx
  refine ⟨gs, pend', h1, h2, h3, h4, h5, fun hb ht => ?_, h7⟩
  simp only [Doc.tidy, Bool.true_or, Bool.true_and] at ht
  exact h6 (fun _ => ⟨rfl, (hb (by simp [Doc.isBroken])).2⟩) ht

theorem Tells.flattenIf {d : Doc} {ps : List Piece} {xs : List (List Char)}
    (hd : Tells false d ps xs) (o c : Bool) : Tells false (Doc.flattenIf o c d) ps xs := by
  unfold Doc.flattenIf
  split
  · exact hd.flat
  · split
    · exact hd.broken
    · exact hd

/-! ## Nothing is waiting -/

theorem keeps_empty : Keeps .empty := fun _ _ _ h => h
theorem keeps_str (t : List Char) : Keeps (.str t) := fun _ _ _ h => h

theorem keeps_line : Keeps .line := by
  intro b n w h
  cases b
  · exact h
  · rfl

theorem Keeps.seq {d e : Doc} (hd : Keeps d) (he : Keeps e) : Keeps (.seq d e) :=
  fun b n w h => he b n _ (hd b n w h)

theorem Keeps.brk {d : Doc} (hd : Keeps d) (k : Bool) : Keeps (.brk k d) := fun _ n w h => hd k n w h

theorem flushes_line : Flushes .line := fun _ _ => rfl
theorem Flushes.seq {e : Doc} (he : Flushes e) (d : Doc) : Flushes (.seq d e) := fun n _ => he n _
theorem Flushes.keep {d e : Doc} (hd : Flushes d) (he : Keeps e) : Flushes (.seq d e) :=
  fun n w => he true n _ (hd n w)

end Verif.Grammar
