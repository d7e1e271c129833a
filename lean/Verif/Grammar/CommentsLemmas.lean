import Verif.Grammar.Comments
import Verif.Grammar.Literals
import Verif.Grammar.Soundness

/-! The parser of comments finds the comments of a text. -/

namespace Verif.Grammar

theorem dropWhile_head {f : Char → Bool} : ∀ {s r : List Char} {c : Char}, s.dropWhile f = c :: r →
    f c = false
  | [], _, _, h => by cases h
  | d :: s, r, c, h => by
    by_cases hd : f d = true
    · rw [List.dropWhile_cons_of_pos hd] at h
      exact dropWhile_head h
    · rw [List.dropWhile_cons_of_neg hd] at h
      cases h
      simpa using hd

theorem takeWhile_true {f : Char → Bool} : ∀ {s : List Char} {c : Char}, c ∈ s.takeWhile f → f c = true
  | [], _, h => by cases h
  | d :: s, c, h => by
    by_cases hd : f d = true
    · rw [List.takeWhile_cons_of_pos hd] at h
      rcases List.mem_cons.mp h with rfl | h
      · exact hd
      · exact takeWhile_true h
    · rw [List.takeWhile_cons_of_neg hd] at h
      cases h

/-- An item of the parser of comments, from what is left after white space. -/
theorem commentItem_nil {s : List Char} (h : s.dropWhile isSpace = []) : commentItem s = .error := by
  have h' : (s.dropWhile isSpace).dropWhile isSpace = [] := by rw [h]; rfl
  refine (bind_ok (a := ()) (r := s.dropWhile isSpace) rfl).trans (bind_error ?_)
  rw [h]
  rfl

theorem dropWhile_solid {c : Char} {r : List Char} (h : isSpace c = false) :
    (c :: r).dropWhile isSpace = c :: r := List.dropWhile_cons_of_neg (by simp [h])

theorem commentItem_comment {s r : List Char} (h : s.dropWhile isSpace = '#' :: r) :
    commentItem s = .ok (some (r.takeWhile fun c => !isNewline c, '#' :: r))
      ((r.dropWhile fun c => !isNewline c).dropWhile isSpace) := by
  refine (bind_ok (a := ()) (r := s.dropWhile isSpace) rfl).trans ?_
  rw [h]
  refine (bind_ok (a := some (r.takeWhile fun c => !isNewline c, '#' :: r))
    (r := r.dropWhile fun c => !isNewline c) ?_).trans rfl
  rfl

theorem commentItem_string {s t r : List Char} (h : s.dropWhile isSpace = '"' :: (t ++ '"' :: r))
    (ht : IsStringText t) : commentItem s = .ok none (r.dropWhile isSpace) := by
  refine (bind_ok (a := ()) (r := s.dropWhile isSpace) rfl).trans ?_
  rw [h]
  refine (bind_ok (a := none) (r := r) ?_).trans rfl
  have h1 : commentText ('"' :: (t ++ '"' :: r)) = .error := rfl
  show orElse _ (orElse _ _) _ = _
  unfold orElse
  rw [show (commentText >>= fun c => pure (some c)) ('"' :: (t ++ '"' :: r)) = .error from
    bind_error h1]
  have h2 := stringLiteral_ok ht r
  rw [show (stringLiteral >>= fun _ => (pure none : Parser (Option (List Char × List Char))))
    ('"' :: (t ++ '"' :: r)) = .ok none r from bind_ok h2]

theorem commentItem_char {s r : List Char} {c : Char} (h : s.dropWhile isSpace = c :: r)
    (h1 : c ≠ '#') (h2 : c ≠ '"') : commentItem s = .ok none (r.dropWhile isSpace) := by
  have hc := dropWhile_head h
  refine (bind_ok (a := ()) (r := s.dropWhile isSpace) rfl).trans ?_
  rw [h]
  refine (bind_ok (a := none) (r := r) ?_).trans rfl
  have e1 : commentText (c :: r) = .error := by
    unfold commentText
    rw [dropWhile_solid hc]
    split
    · rename_i h'
      cases h'
      exact absurd rfl h1
    · rfl
  have e2 : stringLiteral (c :: r) = .error :=
    stringLiteral_error (blank_solid ⟨hc, h1⟩ r) h2
  show orElse _ (orElse _ (orElse _ _)) _ = _
  unfold orElse
  rw [show (commentText >>= fun c => pure (some c)) (c :: r) = .error from bind_error e1]
  rw [show (stringLiteral >>= fun _ => (pure none : Parser (Option (List Char × List Char))))
    (c :: r) = .error from bind_error e2]
  have e3 : oneOf (fun c => !(c = '"' || c = '#')) (c :: r) = .ok c r := by
    simp [oneOf, h1, h2]
  rw [show (oneOf (fun c => !(c = '"' || c = '#')) >>= fun _ =>
    (pure none : Parser (Option (List Char × List Char)))) (c :: r) = .ok none r from bind_ok e3]

/-- What an item consumes. -/
theorem commentItem_ok {s r : List Char} {c : Option (List Char × List Char)}
    (h : commentItem s = .ok c r) :
    (∃ q, s.dropWhile isSpace = '#' :: q ∧ c = some (q.takeWhile fun c => !isNewline c, '#' :: q) ∧
      r = (q.dropWhile fun c => !isNewline c).dropWhile isSpace) ∨
    (∃ t q, s.dropWhile isSpace = '"' :: (t ++ '"' :: q) ∧ IsStringText t ∧ c = none ∧
      r = q.dropWhile isSpace) ∨
    (∃ d q, s.dropWhile isSpace = d :: q ∧ d ≠ '#' ∧ d ≠ '"' ∧ c = none ∧
      r = q.dropWhile isSpace) := by
  cases hs : s.dropWhile isSpace with
  | nil => rw [commentItem_nil hs] at h; cases h
  | cons d q =>
    by_cases h1 : d = '#'
    · subst h1
      rw [commentItem_comment hs] at h
      cases h
      exact .inl ⟨_, rfl, rfl, rfl⟩
    by_cases h2 : d = '"'
    · subst h2
      right; left
      have e0 : commentItem s = ((alt [
          (do let c ← commentText; pure (some c)),
          (do let _ ← stringLiteral; pure none),
          (do let _ ← oneOf fun c => !(c = '"' || c = '#'); pure none)] : Parser _)
            ('"' :: q)).bind fun c => (do multispace0; pure c) := by
        refine (bind_ok (a := ()) (r := s.dropWhile isSpace) rfl).trans ?_
        rw [hs]
        rfl
      rw [e0] at h
      have h1 : (commentText >>= fun c => pure (some c)) ('"' :: q) = .error := rfl
      unfold alt orElse at h
      simp only [h1] at h
      unfold alt orElse at h
      cases hq : stringLiteral ('"' :: q) with
      | ok t x =>
        rw [show (stringLiteral >>= fun _ => (pure none : Parser (Option (List Char × List Char))))
          ('"' :: q) = .ok none x from bind_ok hq] at h
        simp only [R.bind] at h
        obtain ⟨u, hu, hw⟩ := reads_string _ _ _ hq
        cases hw with
        | mk ht hk =>
          cases hk with
          | mk hb =>
            cases hb with
            | nil =>
              refine ⟨t, x, ?_, ht, ?_⟩
              · simpa using hu
              · have h : (R.ok none (x.dropWhile isSpace) : R (Option (List Char × List Char))) =
                    .ok c r := h
                cases h
                exact ⟨rfl, rfl⟩
            | space hc =>
              simp only [List.cons_append, List.append_assoc, List.cons.injEq] at hu
              rw [← hu.1] at hc
              exact absurd hc (by decide)
            | comment =>
              simp at hu
      | error =>
        rw [show (stringLiteral >>= fun _ => (pure none : Parser (Option (List Char × List Char))))
          ('"' :: q) = .error from bind_error hq] at h
        simp [alt, orElse, oneOf, R.bind, andThen, bind] at h
      | failure =>
        rw [show (stringLiteral >>= fun _ => (pure none : Parser (Option (List Char × List Char))))
          ('"' :: q) = .failure from by simp [bind, andThen, hq, R.bind]] at h
        simp [R.bind] at h
      | fuel =>
        rw [show (stringLiteral >>= fun _ => (pure none : Parser (Option (List Char × List Char))))
          ('"' :: q) = .fuel from by simp [bind, andThen, hq, R.bind]] at h
        simp [R.bind] at h
    · rw [commentItem_char hs h1 h2] at h
      cases h
      exact .inr (.inr ⟨_, _, rfl, h1, h2, rfl, rfl⟩)

/-! ## White space before comments -/

theorem Scan.spaces {b s : List Char} {cs : List (List Char)} (hb : ∀ c ∈ b, isSpace c = true)
    (h : Scan s cs) : Scan (b ++ s) cs := by
  induction b with
  | nil => exact h
  | cons c b ih =>
    have hc := hb c List.mem_cons_self
    refine .char ?_ ?_ (ih fun d hd => hb d (List.mem_cons_of_mem _ hd))
    · rintro rfl; exact absurd hc (by decide)
    · rintro rfl; exact absurd hc (by decide)

theorem CommentsOf.char {c : Char} {s : List Char} {cs : List (List Char)} (h1 : c ≠ '#')
    (h2 : c ≠ '"') (h : CommentsOf s cs) : CommentsOf (c :: s) cs := by
  cases h with
  | scan h => exact .scan (.char h1 h2 h)
  | last h ht => exact .last (.char h1 h2 h) ht

theorem CommentsOf.string {t s : List Char} {cs : List (List Char)} (ht : IsStringText t)
    (h : CommentsOf s cs) : CommentsOf ('"' :: (t ++ '"' :: s)) cs := by
  cases h with
  | scan h => exact .scan (.string ht h)
  | last h h' =>
    have := CommentsOf.last (.string ht h) h'
    simpa using this

theorem CommentsOf.comment {t s : List Char} {c : Char} {cs : List (List Char)}
    (ht : ∀ d ∈ t, isNewline d = false) (hc : isNewline c = true) (h : CommentsOf s cs) :
    CommentsOf ('#' :: (t ++ c :: s)) (t :: cs) := by
  cases h with
  | scan h => exact .scan (.comment ht hc h)
  | last h h' =>
    have := CommentsOf.last (.comment ht hc h) h'
    simpa using this

theorem CommentsOf.spaces : ∀ {b s : List Char} {cs : List (List Char)},
    (∀ c ∈ b, isSpace c = true) → CommentsOf s cs → CommentsOf (b ++ s) cs
  | [], _, _, _, h => h
  | c :: b, s, cs, hb, h => by
    have hc := hb c List.mem_cons_self
    refine .char ?_ ?_ (CommentsOf.spaces (fun d hd => hb d (List.mem_cons_of_mem _ hd)) h)
    · rintro rfl; exact absurd hc (by decide)
    · rintro rfl; exact absurd hc (by decide)

theorem space_split (s : List Char) : ∃ b, s = b ++ s.dropWhile isSpace ∧ ∀ c ∈ b, isSpace c = true :=
  ⟨s.takeWhile isSpace, (List.takeWhile_append_dropWhile ..).symm, fun _ h =>
    takeWhile_true h⟩

/-- How a text with comments starts. -/
theorem CommentsOf.cases' {s : List Char} {cs : List (List Char)} (h : CommentsOf s cs) :
    (s = [] ∧ cs = []) ∨
    (∃ c r, s = c :: r ∧ c ≠ '#' ∧ c ≠ '"' ∧ CommentsOf r cs) ∨
    (∃ t r, s = '"' :: (t ++ '"' :: r) ∧ IsStringText t ∧ CommentsOf r cs) ∨
    (∃ t r ds, s = '#' :: (t ++ r) ∧ cs = t :: ds ∧ (∀ d ∈ t, isNewline d = false) ∧
      ((r = [] ∧ ds = []) ∨ ∃ c q, r = c :: q ∧ isNewline c = true ∧ CommentsOf q ds)) := by
  cases h with
  | scan h =>
    cases h with
    | nil => exact .inl ⟨rfl, rfl⟩
    | char h1 h2 h => exact .inr (.inl ⟨_, _, rfl, h1, h2, .scan h⟩)
    | string ht h => exact .inr (.inr (.inl ⟨_, _, rfl, ht, .scan h⟩))
    | comment ht hc h => exact .inr (.inr (.inr ⟨_, _, _, rfl, rfl, ht, .inr ⟨_, _, rfl, hc, .scan h⟩⟩))
  | last h h' =>
    cases h with
    | nil => exact .inr (.inr (.inr ⟨_, [], [], by simp, rfl, h', .inl ⟨rfl, rfl⟩⟩))
    | char h1 h2 h => exact .inr (.inl ⟨_, _, rfl, h1, h2, .last h h'⟩)
    | string ht h => exact .inr (.inr (.inl ⟨_, _, by simp, ht, .last h h'⟩))
    | comment ht hc h =>
      exact .inr (.inr (.inr ⟨_, _, _, by simp, rfl, ht, .inr ⟨_, _, rfl, hc, .last h h'⟩⟩))

theorem CommentsOf.dropSpaces {s : List Char} : ∀ {cs : List (List Char)},
    CommentsOf s cs → CommentsOf (s.dropWhile isSpace) cs := by
  induction s with
  | nil => exact fun h => h
  | cons c s ih =>
    intro cs h
    by_cases hc : isSpace c = true
    · rw [List.dropWhile_cons_of_pos hc]
      rcases h.cases' with ⟨h, _⟩ | ⟨d, r, h, _, _, hr⟩ | ⟨t, r, h, _⟩ | ⟨t, r, ds, h, _⟩
      · cases h
      · cases h
        exact ih hr
      · cases h
        exact absurd hc (by decide)
      · cases h
        exact absurd hc (by decide)
    · rw [List.dropWhile_cons_of_neg hc]
      exact h

/-- After spaces, the text is at its end or at another character. -/
theorem dropWhile_idem (s : List Char) :
    (s.dropWhile isSpace).dropWhile isSpace = s.dropWhile isSpace := by
  cases h : s.dropWhile isSpace with
  | nil => rfl
  | cons c r => exact dropWhile_solid (dropWhile_head h)

theorem dropWhile_le (f : Char → Bool) (s : List Char) : (s.dropWhile f).length ≤ s.length :=
  (List.dropWhile_sublist f).length_le

theorem takeWhile_comment {t r : List Char} (ht : ∀ d ∈ t, isNewline d = false)
    (hr : r = [] ∨ ∃ c q, r = c :: q ∧ isNewline c = true) :
    ((t ++ r).takeWhile fun c => !isNewline c) = t ∧
      ((t ++ r).dropWhile fun c => !isNewline c) = r := by
  induction t with
  | nil =>
    rcases hr with rfl | ⟨c, q, rfl, hc⟩
    · exact ⟨rfl, rfl⟩
    · simp [hc]
  | cons c t ih =>
    have := ht c List.mem_cons_self
    obtain ⟨h1, h2⟩ := ih fun d hd => ht d (List.mem_cons_of_mem _ hd)
    simp [this, h1, h2]

/-- The texts of what the parser finds. -/
def texts (xs : List (Option (List Char × List Char))) : List (List Char) :=
  (xs.filterMap id).map Prod.fst

/-- The parser finds the comments of a text. -/
theorem commentLoop : ∀ (n : Nat) (s : List Char) (cs : List (List Char)), s.length < n →
    CommentsOf s cs → ∃ xs r, manyLoop commentItem n s = .ok xs r ∧ texts xs = cs ∧
      (r = [] ∨ s.dropWhile isSpace = [])
  | 0, _, _, h, _ => absurd h (Nat.not_lt_zero _)
  | n + 1, s, cs, hn, h => by
    have hd := h.dropSpaces
    have hle := dropWhile_le isSpace s
    -- What is left after an item.
    have go : ∀ (q : List Char) (c : Option (List Char × List Char)) (ds : List (List Char)),
        commentItem s = .ok c (q.dropWhile isSpace) → q.length < s.length → CommentsOf q ds →
        ∃ xs r, manyLoop commentItem (n + 1) s = .ok (c :: xs) r ∧ texts xs = ds ∧
          (r = [] ∨ s.dropWhile isSpace = []) := by
      intro q c ds hi hq hds
      have hq' := dropWhile_le isSpace q
      obtain ⟨xs, r, h1, h2, h3⟩ := commentLoop n (q.dropWhile isSpace) ds (by omega) hds.dropSpaces
      refine ⟨xs, r, ?_, h2, ?_⟩
      · unfold manyLoop
        rw [hi]
        simp only
        rw [if_pos (by omega), h1]
        rfl
      · left
        rcases h3 with h3 | h3
        · exact h3
        · rw [dropWhile_idem] at h3
          rw [h3] at h1
          cases n with
          | zero => simp [manyLoop] at h1
          | succ n =>
            unfold manyLoop at h1
            rw [commentItem_nil rfl] at h1
            cases h1
            rfl
    rcases hd.cases' with ⟨hs, hc⟩ | ⟨c, r, hs, h1, h2, hr⟩ | ⟨t, r, hs, ht, hr⟩ |
      ⟨t, r, ds, hs, rfl, ht, hr⟩
    · refine ⟨[], s, ?_, hc.symm, .inr hs⟩
      unfold manyLoop
      rw [commentItem_nil hs]
    · rw [hs] at hle
      obtain ⟨xs, x, g1, g2, g3⟩ := go r none cs (commentItem_char hs h1 h2)
        (by simp at hle; omega) hr
      exact ⟨_, x, g1, g2, g3⟩
    · rw [hs] at hle
      obtain ⟨xs, x, g1, g2, g3⟩ := go r none cs (commentItem_string hs ht)
        (by simp at hle; omega) hr
      exact ⟨_, x, g1, g2, g3⟩
    · rw [hs] at hle
      have hi := commentItem_comment hs
      have hr' : r = [] ∨ ∃ c q, r = c :: q ∧ isNewline c = true := by
        rcases hr with ⟨rfl, _⟩ | ⟨c, q, rfl, hc, _⟩
        · exact .inl rfl
        · exact .inr ⟨c, q, rfl, hc⟩
      obtain ⟨e1, e2⟩ := takeWhile_comment ht hr'
      rw [e1, e2] at hi
      have hc : CommentsOf r ds := by
        rcases hr with ⟨rfl, rfl⟩ | ⟨c, q, rfl, hc, hq⟩
        · exact .scan .nil
        · refine .char ?_ ?_ hq
          · rintro rfl; exact absurd hc (by decide)
          · rintro rfl; exact absurd hc (by decide)
      obtain ⟨xs, x, g1, g2, g3⟩ := go r _ ds hi (by simp at hle; omega) hc
      refine ⟨_, x, g1, ?_, g3⟩
      show t :: texts xs = t :: ds
      rw [g2]

/-- Only white space, but some. -/
def OnlySpaces (s : List Char) : Prop := s ≠ [] ∧ ∀ c ∈ s, isSpace c = true

theorem dropSpaces_nil {s : List Char} (h : s.dropWhile isSpace = []) :
    s = [] ∨ OnlySpaces s := by
  cases s with
  | nil => exact .inl rfl
  | cons c s =>
    refine .inr ⟨by simp, fun d hd => ?_⟩
    obtain ⟨b, hb, hs⟩ := space_split (c :: s)
    rw [h, List.append_nil] at hb
    rw [hb] at hd
    exact hs d hd

theorem spaces_dropped {s : List Char} (h : ∀ c ∈ s, isSpace c = true) : s.dropWhile isSpace = [] := by
  induction s with
  | nil => rfl
  | cons c s ih =>
    rw [List.dropWhile_cons_of_pos (h c List.mem_cons_self)]
    exact ih fun d hd => h d (List.mem_cons_of_mem _ hd)

theorem parseComments_complete {s : List Char} {ts : List (List Char)} (h : CommentsOf s ts)
    (hs : ¬ OnlySpaces s) : ∃ cs, parseComments s = some cs ∧ cs.map Comment.text = ts := by
  obtain ⟨xs, r, h1, h2, h3⟩ := commentLoop (s.length + 1) s ts (Nat.lt_succ_self _) h
  have hr : r = [] := by
    rcases h3 with h3 | h3
    · exact h3
    · rcases dropSpaces_nil h3 with rfl | h
      · cases h1
        rfl
      · exact absurd h hs
  subst hr
  refine ⟨_, by unfold parseComments many0; rw [h1], ?_⟩
  rw [List.map_map]
  exact h2

/-- White space alone has no comments, but the parser of comments does not accept it. -/
theorem parseComments_spaces {s : List Char} (h : OnlySpaces s) : parseComments s = none := by
  have : many0 commentItem s = .ok [] s := by
    unfold many0 manyLoop
    rw [commentItem_nil (spaces_dropped h.2)]
  unfold parseComments
  rw [this]
  split
  · rename_i h'
    cases h'
    exact absurd rfl h.1
  · rfl

/-! ## What is found are the comments of the text -/

/-- Comments that are found, with the input that is left at each of them. -/
theorem commentLoop_sound : ∀ (n : Nat) (s : List Char) (xs : List (Option (List Char × List Char))),
    manyLoop commentItem n s = .ok xs [] →
    CommentsOf s (texts xs) ∧ (∀ x ∈ xs.filterMap id, x.2 <:+ s) ∧
      (xs.filterMap id).Pairwise fun x y => y.2 <:+ x.2
  | 0, _, _, h => by cases h
  | n + 1, s, xs, h => by
    unfold manyLoop at h
    cases hi : commentItem s with
    | error =>
      rw [hi] at h
      cases h
      exact ⟨.scan .nil, by simp, by simp⟩
    | failure => rw [hi] at h; cases h
    | fuel => rw [hi] at h; cases h
    | ok c r =>
      rw [hi] at h
      simp only at h
      split at h
      case isFalse => cases h
      cases hm : manyLoop commentItem n r with
      | error => rw [hm] at h; cases h
      | failure => rw [hm] at h; cases h
      | fuel => rw [hm] at h; cases h
      | ok ys y =>
        rw [hm] at h
        have h : (R.ok (c :: ys) y : R _) = .ok xs [] := h
        cases h
        obtain ⟨h1, h2, h3⟩ := commentLoop_sound n r ys hm
        obtain ⟨b, hb, hsp⟩ := space_split s
        have hsuf : s.dropWhile isSpace <:+ s := List.dropWhile_suffix _
        have back : ∀ q : List Char, CommentsOf (q.dropWhile isSpace) (texts ys) →
            CommentsOf q (texts ys) := by
          intro q hq
          obtain ⟨b, hb, hsp⟩ := space_split q
          rw [hb]
          exact hq.spaces hsp
        rcases commentItem_ok hi with ⟨q, hs, rfl, rfl⟩ | ⟨t, q, hs, ht, rfl, rfl⟩ |
          ⟨d, q, hs, hd1, hd2, rfl, rfl⟩
        · have hq : ((q.dropWhile fun c => !isNewline c).dropWhile isSpace) <:+ '#' :: q :=
            (List.dropWhile_suffix _).trans ((List.dropWhile_suffix _).trans (List.suffix_cons _ _))
          have hall : ∀ x ∈ ys.filterMap id, x.2 <:+ '#' :: q := fun x hx => (h2 x hx).trans hq
          rw [hs] at hsuf
          refine ⟨?_, ?_, ?_⟩
          · rw [hb, hs]
            refine CommentsOf.spaces hsp ?_
            show CommentsOf _ ((q.takeWhile fun c => !isNewline c) :: texts ys)
            have hone : ∀ d ∈ q.takeWhile (fun c => !isNewline c), isNewline d = false := fun d hd => by
              simpa using takeWhile_true hd
            have hq' := back _ h1
            have hsplit : q = (q.takeWhile fun c => !isNewline c) ++
              (q.dropWhile fun c => !isNewline c) := (List.takeWhile_append_dropWhile ..).symm
            cases hw : q.dropWhile fun c => !isNewline c with
            | nil =>
              rw [hw, List.append_nil] at hsplit
              rw [hw] at hm h1
              have hys : texts ys = [] := by
                cases n with
                | zero => cases hm
                | succ n =>
                  unfold manyLoop at hm
                  rw [commentItem_nil rfl] at hm
                  cases hm
                  rfl
              rw [hys, ← hsplit]
              rw [← hsplit] at hone
              exact .last (cs := []) .nil hone
            | cons e w =>
              have he : isNewline e = true := by simpa using dropWhile_head hw
              rw [hw] at hq' hsplit
              rw [hsplit]
              have : (q.takeWhile fun c => !isNewline c) =
                (((q.takeWhile fun c => !isNewline c) ++ e :: w).takeWhile fun c => !isNewline c) := by
                rw [← hsplit]
              rw [← this]
              refine .comment hone he ?_
              rcases hq'.cases' with ⟨h, _⟩ | ⟨c, x, h, _, _, hx⟩ | ⟨t, x, h, _⟩ | ⟨t, x, ds, h, _⟩
              · cases h
              · cases h
                exact hx
              · cases h
                exact absurd he (by decide)
              · cases h
                exact absurd he (by decide)
          · intro x hx
            rcases List.mem_cons.mp hx with rfl | hx
            · exact hsuf
            · exact (hall x hx).trans hsuf
          · exact List.pairwise_cons.mpr ⟨hall, h3⟩
        · refine ⟨?_, fun x hx => (h2 x hx).trans ?_, h3⟩
          · rw [hb, hs]
            exact CommentsOf.spaces hsp (.string ht (back _ h1))
          · refine (List.dropWhile_suffix _).trans (List.IsSuffix.trans ?_ hsuf)
            rw [hs]
            exact ⟨'"' :: (t ++ ['"']), by simp⟩
        · refine ⟨?_, fun x hx => (h2 x hx).trans ?_, h3⟩
          · rw [hb, hs]
            exact CommentsOf.spaces hsp (.char hd1 hd2 (back _ h1))
          · refine (List.dropWhile_suffix _).trans (List.IsSuffix.trans ?_ hsuf)
            rw [hs]
            exact List.suffix_cons _ _

theorem newlines_suffix {a b : List Char} (h : a <:+ b) : newlines a ≤ newlines b := by
  obtain ⟨t, rfl⟩ := h
  simp [newlines]

theorem parseComments_sound {s : List Char} {cs : List Comment} (h : parseComments s = some cs) :
    CommentsOf s (cs.map Comment.text) ∧ cs.Pairwise fun c d => c.line ≤ d.line := by
  unfold parseComments at h
  split at h
  · rename_i xs hx
    cases h
    obtain ⟨h1, h2, h3⟩ := commentLoop_sound _ _ _ hx
    refine ⟨?_, ?_⟩
    · rw [List.map_map]
      exact h1
    · rw [List.pairwise_map]
      refine h3.imp ?_
      intro x y hxy
      have := newlines_suffix hxy
      simp only [lineAt]
      omega
  · cases h

theorem Scan.oneLine {s : List Char} {cs : List (List Char)} (h : Scan s cs) :
    ∀ t ∈ cs, ∀ d ∈ t, isNewline d = false := by
  induction h with
  | nil => simp
  | char _ _ _ ih => exact ih
  | string _ _ ih => exact ih
  | comment ht _ _ ih =>
    intro u hu
    rcases List.mem_cons.mp hu with rfl | hu
    · exact ht
    · exact ih u hu

theorem CommentsOf.oneLine {s : List Char} {cs : List (List Char)} (h : CommentsOf s cs) :
    ∀ t ∈ cs, ∀ d ∈ t, isNewline d = false := by
  cases h with
  | scan h => exact h.oneLine
  | last h ht =>
    intro u hu
    rcases List.mem_append.mp hu with hu | hu
    · exact h.oneLine u hu
    · rw [List.mem_singleton.mp hu]
      exact ht

/-- A text has no other comments. -/
theorem CommentsOf.unique {s : List Char} {cs ds : List (List Char)} (h : CommentsOf s cs)
    (h' : CommentsOf s ds) : cs = ds := by
  by_cases hs : OnlySpaces s
  · have e : ∀ {xs}, CommentsOf s xs → xs = [] := by
      intro xs hx
      have := hx.dropSpaces
      rw [spaces_dropped hs.2] at this
      rcases this.cases' with ⟨_, h⟩ | ⟨c, r, h, _⟩ | ⟨t, r, h, _⟩ | ⟨t, r, ds, h, _⟩
      · exact h
      all_goals cases h
    rw [e h, e h']
  · obtain ⟨xs, h1, h2⟩ := parseComments_complete h hs
    obtain ⟨ys, h3, h4⟩ := parseComments_complete h' hs
    rw [h1] at h3
    cases h3
    rw [← h2, ← h4]

end Verif.Grammar
