import Verif.Pkg.Html
/-!
# C44: HTML rendering

Specification: a reader of HTML that divides a text into tags, with their attributes, and texts
between them (`tokens`).  What it reads in a rendered document is exactly the tags, attributes and
texts of the tree.
-/
namespace Verif.Pkg.Html

/-! ## Specification -/

/-- What a reader sees. -/
inductive Token
  | text (s : Bytes)
  | opening (tag : Bytes) (attributes : List (Bytes × Bytes)) (closed : Bool)
  | closing (tag : Bytes)
  deriving DecidableEq

/-- The bytes of names: lower-case letters and `-`. -/
def isNameByte (b : UInt8) : Bool := b == 45 || (decide (97 ≤ b) && decide (b ≤ 122))

/-- Names of tags and attributes. -/
def Name (s : Bytes) : Prop := s ≠ [] ∧ ∀ b ∈ s, isNameByte b = true

/-- Character references are read as the characters they denote. -/
def unescape : Bytes → Bytes
  | 38 :: 97 :: 109 :: 112 :: 59 :: r => 38 :: unescape r
  | 38 :: 108 :: 116 :: 59 :: r => 60 :: unescape r
  | 38 :: 103 :: 116 :: 59 :: r => 62 :: unescape r
  | 38 :: 113 :: 117 :: 111 :: 116 :: 59 :: r => 34 :: unescape r
  | 38 :: 35 :: 120 :: 50 :: 55 :: 59 :: r => 39 :: unescape r
  | b :: r => b :: unescape r
  | [] => []

/-- Reads attributes: `key="value"`. -/
def readAttributes : Nat → Bytes → Option (List (Bytes × Bytes) × Bytes)
  | 0, _ => none
  | fuel + 1, s =>
    if s.takeWhile isNameByte = [] then some ([], s)
    else match s.dropWhile isNameByte with
      | 61 :: 34 :: r =>
        match r.dropWhile (· != 34) with
        | 34 :: r' =>
          (readAttributes fuel r').map (fun x => ((s.takeWhile isNameByte, unescape (r.takeWhile (· != 34))) :: x.1, x.2))
        | _ => none
      | _ => none

/-- A space between the tag and its attributes. -/
def skipSpace : Bytes → Bytes
  | 32 :: r => r
  | r => r

/-- Reads the tags and texts of a document. -/
def tokens : Nat → Bytes → Option (List Token)
  | _, [] => some []
  | 0, _ :: _ => none
  | fuel + 1, 60 :: 47 :: r =>
    match r.dropWhile isNameByte with
    | 62 :: r' => (tokens fuel r').map (.closing (r.takeWhile isNameByte) :: ·)
    | _ => none
  | fuel + 1, 60 :: r =>
    match readAttributes (r.length + 1) (skipSpace (r.dropWhile isNameByte)) with
    | some (as, 47 :: 62 :: r') => (tokens fuel r').map (.opening (r.takeWhile isNameByte) as true :: ·)
    | some (as, 62 :: r') => (tokens fuel r').map (.opening (r.takeWhile isNameByte) as false :: ·)
    | _ => none
  | fuel + 1, b :: r =>
    (tokens fuel ((b :: r).dropWhile (· != 60))).map (.text (unescape ((b :: r).takeWhile (· != 60))) :: ·)

/-- Reads a document. -/
def read (s : Bytes) : Option (List Token) := tokens s.length s

/-- The text of a string: the string itself if it is UTF-8, and no text otherwise. -/
def content (s : Bytes) : Bytes := if validUtf8 s then s else []

mutual
/-- The tags and texts of a tree. -/
def flatten : Node → List Token
  | .text s => [.text (content s)]
  | .element tag ats ns =>
    match ns with
    | [] => [.opening tag (ats.map (fun a => (a.1, content a.2))) true]
    | n :: ns => .opening tag (ats.map (fun a => (a.1, content a.2))) false :: (flattenAll (n :: ns) ++ [.closing tag])
/-- The tags and texts of trees. -/
def flattenAll : List Node → List Token
  | [] => []
  | n :: ns => flatten n ++ flattenAll ns
end

/-- Adjacent texts are one text, and empty texts are no texts. -/
def merge : List Token → List Token
  | [] => []
  | .text a :: ts => match merge ts with
    | .text b :: r => .text (a ++ b) :: r
    | r => if a = [] then r else .text a :: r
  | t :: ts => t :: merge ts

mutual
/-- All names of tags and attributes in a tree. -/
def names : Node → List Bytes
  | .text _ => []
  | .element tag ats ns => tag :: ats.map (·.1) ++ namesAll ns
/-- All names in trees. -/
def namesAll : List Node → List Bytes
  | [] => []
  | n :: ns => names n ++ namesAll ns
end

/-! ## Names -/

theorem valid_character (b : UInt8) : validCharacters.any (· == b) = isNameByte b := by
  have : ∀ n : Fin 256, validCharacters.any (· == UInt8.ofNat n) = isNameByte (UInt8.ofNat n) := by decide +kernel
  have h := this ⟨b.toNat, b.toNat_lt⟩
  rwa [UInt8.ofNat_toNat] at h

theorem nameView_eq (s : Bytes) : nameView s = s.all isNameByte := by
  induction s with
  | nil => rfl
  | cons b s ih => rw [nameView, valid_character, ih]; rfl

/-- A name is accepted exactly when it is a name. -/
theorem validName_iff (s : Bytes) : validName s = true ↔ Name s := by
  unfold validName Name
  rw [nameView_eq]
  simp [List.isEmpty_iff]

/-! ## Writing -/

/-- Writes attributes. -/
def writeAttributes : List (Bytes × Bytes) → Bytes
  | [] => []
  | (k, v) :: ats => k ++ [61, 34] ++ v.flatMap escAttributeByte ++ [34] ++ writeAttributes ats

/-- Writes a tag or a text. -/
def writeToken : Token → Bytes
  | .text s => s.flatMap escTextByte
  | .opening tag ats closed =>
    [60] ++ tag ++ (if ats.isEmpty then [] else 32 :: writeAttributes ats) ++ (if closed then [47, 62] else [62])
  | .closing tag => [60, 47] ++ tag ++ [62]

/-- Writes tags and texts. -/
def write (ts : List Token) : Bytes := ts.flatMap writeToken

theorem renderAttributes_some (ats : List (Bytes × Bytes)) (h : ∀ a ∈ ats, Name a.1) :
    renderAttributes ats = some (writeAttributes (ats.map (fun a => (a.1, content a.2)))) := by
  induction ats with
  | nil => rfl
  | cons a ats ih =>
    obtain ⟨k, v⟩ := a
    rw [renderAttributes, if_pos ((validName_iff k).mpr (h (k, v) (by simp))), ih (fun a ha => h a (by simp [ha]))]
    rfl

theorem renderAttributes_none (ats : List (Bytes × Bytes)) (h : ¬ ∀ a ∈ ats, Name a.1) :
    renderAttributes ats = none := by
  induction ats with
  | nil => exact absurd (by simp) h
  | cons a ats ih =>
    obtain ⟨k, v⟩ := a
    rw [renderAttributes]
    split
    · rename_i hk
      rw [ih]; · rfl
      intro h'
      apply h
      intro a ha
      rcases List.mem_cons.mp ha with rfl | ha
      · exact (validName_iff _).mp hk
      · exact h' a ha
    · rfl

theorem render_all (n : Nat) :
    (∀ t : Node, sizeOf t ≤ n → ((∀ s ∈ names t, Name s) → render t = some (write (flatten t))) ∧
      ((¬ ∀ s ∈ names t, Name s) → render t = none)) ∧
    (∀ ts : List Node, sizeOf ts ≤ n → ((∀ s ∈ namesAll ts, Name s) → renderChildren ts = some (write (flattenAll ts))) ∧
      ((¬ ∀ s ∈ namesAll ts, Name s) → renderChildren ts = none)) := by
  induction n with
  | zero =>
    refine ⟨?_, ?_⟩
    · intro t h; cases t <;> simp at h
    · intro ts h; cases ts <;> simp at h
  | succ n ih =>
    obtain ⟨ih1, ih2⟩ := ih
    refine ⟨?_, ?_⟩
    · intro t hz
      cases t with
      | text s =>
        refine ⟨fun _ => ?_, fun h => absurd (by simp [names]) h⟩
        rw [render, flatten, write]
        simp [writeToken, encodeText, utf8OrEmpty, content]
      | element tag ats ns =>
        have ihns := ih2 ns (by simp at hz ⊢; omega)
        refine ⟨fun h => ?_, fun h => ?_⟩
        · have h1 : Name tag := h tag (by simp [names])
          have h2 : ∀ a ∈ ats, Name a.1 := fun a ha => h a.1 (by
            simp only [names, List.mem_cons, List.mem_append, List.cons_append]
            exact Or.inr (Or.inl (List.mem_map.mpr ⟨a, ha, rfl⟩)))
          have h3 : ∀ s ∈ namesAll ns, Name s := fun s hs => h s (by simp [names, hs])
          rw [render, renderAttributes_some _ h2, flatten.eq_def]
          rw [ihns.1 h3]
          simp only
          rw [if_pos ((validName_iff _).mpr h1)]
          cases ns with
          | nil =>
            simp only [write, List.flatMap_cons, List.flatMap_nil, List.append_nil, writeToken, if_true]
            cases ats <;> simp
          | cons m ns =>
            simp only [write, List.flatMap_cons, List.flatMap_append, List.flatMap_nil, List.append_nil, writeToken,
              Bool.false_eq_true, if_false]
            cases ats <;> simp
        · rw [render]
          by_cases h2 : ∀ a ∈ ats, Name a.1
          · rw [renderAttributes_some _ h2]
            simp only
            by_cases h3 : ∀ s ∈ namesAll ns, Name s
            · rw [ihns.1 h3]
              have h1 : ¬ validName tag = true := by
                rw [validName_iff]
                intro h1
                apply h
                intro s hs
                simp only [names, List.mem_cons, List.mem_append, List.cons_append, List.mem_map] at hs
                rcases hs with rfl | ⟨a, ha, rfl⟩ | hs
                · exact h1
                · exact h2 a ha
                · exact h3 s hs
              simp only
              rw [if_neg h1]
            · rw [ihns.2 h3]
          · rw [renderAttributes_none _ h2]
    · intro ts hz
      cases ts with
      | nil => exact ⟨fun _ => by rw [renderChildren]; rfl, fun h => absurd (by simp [namesAll]) h⟩
      | cons t ts =>
        have i1 := ih1 t (by simp at hz ⊢; omega)
        have i2 := ih2 ts (by simp at hz ⊢; omega)
        refine ⟨fun h => ?_, fun h => ?_⟩
        · rw [renderChildren, i1.1 (fun s hs => h s (by simp [namesAll, hs])),
            i2.1 (fun s hs => h s (by simp [namesAll, hs]))]
          simp [flattenAll, write]
        · rw [renderChildren]
          by_cases h1 : ∀ s ∈ names t, Name s
          · rw [i1.1 h1, i2.2]
            · rfl
            · intro h2; apply h; intro s hs
              simp only [namesAll, List.mem_append] at hs
              rcases hs with hs | hs
              · exact h1 s hs
              · exact h2 s hs
          · rw [i1.2 h1]

/-! ## Reading -/

theorem unescape_other (b : UInt8) (x : Bytes) (h : b ≠ 38) : unescape (b :: x) = b :: unescape x := by
  rw [unescape.eq_def]
  split
  · rename_i e; injection e with e1; exact absurd e1 h
  · rename_i e; injection e with e1; exact absurd e1 h
  · rename_i e; injection e with e1; exact absurd e1 h
  · rename_i e; injection e with e1; exact absurd e1 h
  · rename_i e; injection e with e1; exact absurd e1 h
  · rename_i e; injection e with e1 e2; subst e1; subst e2; rfl
  · rename_i e; cases e

theorem unescape_text (b : UInt8) (x : Bytes) : unescape (escTextByte b ++ x) = b :: unescape x := by
  unfold escTextByte
  split
  · rename_i h; subst h; rfl
  · split
    · rename_i h; subst h; rfl
    · split
      · rename_i h; subst h; rfl
      · rename_i h _ _
        exact unescape_other b x h

theorem unescape_attribute (b : UInt8) (x : Bytes) : unescape (escAttributeByte b ++ x) = b :: unescape x := by
  unfold escAttributeByte
  split
  · rename_i h; subst h; rfl
  · split
    · rename_i h; subst h; rfl
    · exact unescape_text b x

theorem unescape_texts (s x : Bytes) : unescape (s.flatMap escTextByte ++ x) = s ++ unescape x := by
  induction s with
  | nil => rfl
  | cons b s ih => rw [List.flatMap_cons, List.append_assoc, unescape_text, ih]; rfl

theorem unescape_attributes (s x : Bytes) : unescape (s.flatMap escAttributeByte ++ x) = s ++ unescape x := by
  induction s with
  | nil => rfl
  | cons b s ih => rw [List.flatMap_cons, List.append_assoc, unescape_attribute, ih]; rfl

/-- Escaped texts have no `<`. -/
theorem escText_lt (s : Bytes) : ∀ b ∈ s.flatMap escTextByte, (b != 60) = true := by
  intro b hb
  rw [List.mem_flatMap] at hb
  obtain ⟨a, _, hb⟩ := hb
  unfold escTextByte at hb
  split at hb
  · revert b; decide
  split at hb
  · revert b; decide
  split at hb
  · revert b; decide
  · rename_i h _
    simp only [List.mem_singleton] at hb
    subst hb
    simpa using h

/-- Escaped values have no `"`. -/
theorem escAttribute_quote (s : Bytes) : ∀ b ∈ s.flatMap escAttributeByte, (b != 34) = true := by
  intro b hb
  rw [List.mem_flatMap] at hb
  obtain ⟨a, _, hb⟩ := hb
  unfold escAttributeByte at hb
  split at hb
  · revert b; decide
  split at hb
  · revert b; decide
  unfold escTextByte at hb
  split at hb
  · revert b; decide
  split at hb
  · revert b; decide
  split at hb
  · revert b; decide
  · rename_i h _ _ _ _
    simp only [List.mem_singleton] at hb
    subst hb
    simpa using h

theorem takeWhile_stop (p : UInt8 → Bool) (s : Bytes) (c : UInt8) (r : Bytes) (h : ∀ b ∈ s, p b = true) (hc : p c = false) :
    (s ++ c :: r).takeWhile p = s ∧ (s ++ c :: r).dropWhile p = c :: r := by
  induction s with
  | nil => simp [hc]
  | cons b s ih =>
    have hb := h b (by simp)
    have := ih (fun b hb => h b (by simp [hb]))
    simp [hb, this.1, this.2]

theorem takeWhile_more (p : UInt8 → Bool) (s r : Bytes) (h : ∀ b ∈ s, p b = true) :
    (s ++ r).takeWhile p = s ++ r.takeWhile p ∧ (s ++ r).dropWhile p = r.dropWhile p := by
  induction s with
  | nil => simp
  | cons b s ih =>
    have hb := h b (by simp)
    have := ih (fun b hb => h b (by simp [hb]))
    simp [hb, this.1, this.2]

theorem readAttributes_write (ats : List (Bytes × Bytes)) (h : ∀ a ∈ ats, Name a.1) (c : UInt8) (r : Bytes)
    (hc : isNameByte c = false) (fuel : Nat) (hf : ats.length + 1 ≤ fuel) :
    readAttributes fuel (writeAttributes ats ++ c :: r) = some (ats, c :: r) := by
  induction ats generalizing fuel with
  | nil =>
    obtain ⟨fuel, rfl⟩ : ∃ f, fuel = f + 1 := ⟨fuel - 1, by omega⟩
    rw [writeAttributes, List.nil_append, readAttributes, if_pos]
    simp [hc]
  | cons a ats ih =>
    obtain ⟨k, v⟩ := a
    obtain ⟨fuel, rfl⟩ : ∃ f, fuel = f + 1 := ⟨fuel - 1, by omega⟩
    have hk : Name k := h (k, v) (by simp)
    have e : writeAttributes ((k, v) :: ats) ++ c :: r =
        k ++ 61 :: (34 :: (v.flatMap escAttributeByte ++ 34 :: (writeAttributes ats ++ c :: r))) := by
      simp [writeAttributes]
    have t1 := takeWhile_stop isNameByte k 61 (34 :: (v.flatMap escAttributeByte ++ 34 :: (writeAttributes ats ++ c :: r)))
      hk.2 (by decide)
    have t2 := takeWhile_stop (· != 34) (v.flatMap escAttributeByte) 34 (writeAttributes ats ++ c :: r)
      (escAttribute_quote v) (by decide)
    rw [e, readAttributes, t1.1, t1.2, if_neg hk.1]
    simp only
    rw [t2.1, t2.2]
    simp only
    rw [ih (fun a ha => h a (by simp [ha])) fuel (by simp only [List.length_cons] at hf; omega)]
    have := unescape_attributes v []
    simp only [List.append_nil] at this
    simp [this, unescape]

/-- The names in tags. -/
def Token.Ok : Token → Prop
  | .text _ => True
  | .opening tag ats _ => Name tag ∧ ∀ a ∈ ats, Name a.1
  | .closing tag => Name tag

theorem tokens_text (fuel : Nat) (b : UInt8) (r : Bytes) (hb : b ≠ 60) :
    tokens (fuel + 1) (b :: r) =
      (tokens fuel ((b :: r).dropWhile (· != 60))).map (.text (unescape ((b :: r).takeWhile (· != 60))) :: ·) := by
  rw [tokens.eq_def]
  split
  · rename_i e; cases e
  · rename_i e _; cases e
  · rename_i e1 e2; cases e2; exact absurd rfl hb
  · rename_i e1 e2; cases e2; exact absurd rfl hb
  · rename_i e1 e2; cases e1; cases e2; rfl

theorem tokens_closing (fuel : Nat) (r : Bytes) :
    tokens (fuel + 1) (60 :: 47 :: r) =
      match r.dropWhile isNameByte with
      | 62 :: r' => (tokens fuel r').map (.closing (r.takeWhile isNameByte) :: ·)
      | _ => none := by
  rw [tokens.eq_def]
  rfl

theorem tokens_opening (fuel : Nat) (b : UInt8) (r : Bytes) (hb : b ≠ 47) :
    tokens (fuel + 1) (60 :: b :: r) =
      match readAttributes ((b :: r).length + 1) (skipSpace ((b :: r).dropWhile isNameByte)) with
      | some (as, 47 :: 62 :: r') => (tokens fuel r').map (.opening ((b :: r).takeWhile isNameByte) as true :: ·)
      | some (as, 62 :: r') => (tokens fuel r').map (.opening ((b :: r).takeWhile isNameByte) as false :: ·)
      | _ => none := by
  rw [tokens.eq_def]
  split
  · rename_i e; cases e
  · rename_i e _; cases e
  · rename_i e1 e2; cases e2; exact absurd rfl hb
  · rename_i e1 e2; cases e1; cases e2; rfl
  · rename_i h e1 e2; cases e2; exact (h rfl).elim

theorem name_head {s : Bytes} (h : Name s) : ∃ b r, s = b :: r ∧ b ≠ 47 := by
  cases s with
  | nil => exact absurd rfl h.1
  | cons b r =>
    refine ⟨b, r, rfl, ?_⟩
    rintro rfl
    exact absurd (h.2 47 (by simp)) (by decide)

theorem tokens_mono (fuel : Nat) : ∀ s ts, tokens fuel s = some ts → tokens (fuel + 1) s = some ts := by
  induction fuel with
  | zero =>
    intro s ts h
    cases s with
    | nil => simpa [tokens] using h
    | cons b r => simp [tokens] at h
  | succ fuel ih =>
    intro s ts h
    have mapm : ∀ {r' : Bytes} {f : List Token → List Token}, (tokens fuel r').map f = some ts →
        (tokens (fuel + 1) r').map f = some ts := by
      intro r' f h
      rw [Option.map_eq_some_iff] at h ⊢
      obtain ⟨x, h1, h2⟩ := h
      exact ⟨x, ih _ _ h1, h2⟩
    cases s with
    | nil => simpa [tokens] using h
    | cons b r =>
      by_cases hb : b = 60
      · subst hb
        cases r with
        | nil =>
          rw [tokens.eq_def] at h ⊢
          simp only at h ⊢
          simp [readAttributes, skipSpace] at h
        | cons c r =>
          by_cases hc : c = 47
          · subst hc
            rw [tokens_closing] at h ⊢
            split at h
            · exact mapm h
            · cases h
          · rw [tokens_opening _ _ _ hc] at h ⊢
            split at h
            · exact mapm h
            · exact mapm h
            · cases h
      · rw [tokens_text _ _ _ hb] at h ⊢
        exact mapm h

theorem merge_text (a : Bytes) (ts : List Token) : merge (.text a :: ts) =
    match merge ts with
    | .text b :: r => .text (a ++ b) :: r
    | r => if a = [] then r else .text a :: r := by rw [merge]

theorem writeAttributes_length (ats : List (Bytes × Bytes)) : ats.length ≤ (writeAttributes ats).length := by
  induction ats with
  | nil => simp
  | cons a ats ih =>
    obtain ⟨k, v⟩ := a
    simp only [writeAttributes, List.length_append, List.length_cons, List.length_nil]
    omega

/-- Reading what was written gives the tags and texts. -/
theorem tokens_write (ts : List Token) (h : ∀ t ∈ ts, t.Ok) (fuel : Nat) (hf : (write ts).length ≤ fuel) :
    tokens fuel (write ts) = some (merge ts) := by
  induction ts generalizing fuel with
  | nil => rw [show write [] = [] from rfl, tokens]; rfl
  | cons t ts ih =>
    have ih := ih (fun t ht => h t (by simp [ht]))
    have ht := h t (by simp)
    have ew : write (t :: ts) = writeToken t ++ write ts := by simp [write]
    rw [ew] at hf ⊢
    rw [List.length_append] at hf
    cases t with
    | closing tag =>
      obtain ⟨fuel, rfl⟩ : ∃ f, fuel = f + 1 := ⟨fuel - 1, by simp [writeToken] at hf; omega⟩
      have e : writeToken (.closing tag) ++ write ts = 60 :: 47 :: (tag ++ 62 :: write ts) := by simp [writeToken]
      have t1 := takeWhile_stop isNameByte tag 62 (write ts) ht.2 (by decide)
      rw [e, tokens_closing, t1.1, t1.2]
      simp only
      rw [ih fuel (by simp [writeToken] at hf; omega)]
      simp [merge]
    | opening tag ats closed =>
      obtain ⟨fuel, rfl⟩ : ∃ f, fuel = f + 1 := ⟨fuel - 1, by simp [writeToken] at hf; omega⟩
      have hih := ih fuel (by simp [writeToken] at hf; omega)
      obtain ⟨b, tag', rfl, hb⟩ := name_head ht.1
      -- what follows the tag
      have key : ∀ (c : UInt8) (r : Bytes), isNameByte c = false → c ≠ 32 →
          readAttributes (((b :: tag') ++ ((if ats.isEmpty then [] else 32 :: writeAttributes ats) ++ c :: r)).length + 1)
            (skipSpace (((b :: tag') ++ ((if ats.isEmpty then [] else 32 :: writeAttributes ats) ++ c :: r)).dropWhile isNameByte)) =
              some (ats, c :: r) ∧
          ((b :: tag') ++ ((if ats.isEmpty then [] else 32 :: writeAttributes ats) ++ c :: r)).takeWhile isNameByte = b :: tag' := by
        intro c r hc hs
        cases ats with
        | nil =>
          have t1 := takeWhile_stop isNameByte (b :: tag') c r ht.1.2 hc
          simp only [List.isEmpty_nil, if_true, List.nil_append]
          rw [t1.1, t1.2]
          refine ⟨?_, rfl⟩
          have hsk : skipSpace (c :: r) = c :: r := by
            unfold skipSpace; split
            · rename_i e; exact absurd (List.cons.inj e).1 hs
            · rfl
          rw [hsk]
          exact readAttributes_write [] (by simp) c r hc _ (by simp)
        | cons a ats =>
          simp only [List.isEmpty_cons, Bool.false_eq_true, if_false]
          rw [show 32 :: writeAttributes (a :: ats) ++ c :: r = 32 :: (writeAttributes (a :: ats) ++ c :: r) from rfl]
          have t1 := takeWhile_stop isNameByte (b :: tag') 32 (writeAttributes (a :: ats) ++ c :: r) ht.1.2 (by decide)
          rw [t1.1, t1.2]
          refine ⟨?_, rfl⟩
          rw [show skipSpace (32 :: (writeAttributes (a :: ats) ++ c :: r)) = writeAttributes (a :: ats) ++ c :: r from rfl]
          refine readAttributes_write _ ht.2 c r hc _ ?_
          have := writeAttributes_length (a :: ats)
          simp only [List.length_append, List.length_cons] at this ⊢
          omega
      have gen : ∀ (x : Bytes), tokens (fuel + 1) (60 :: ((b :: tag') ++ x)) =
          match readAttributes (((b :: tag') ++ x).length + 1) (skipSpace (((b :: tag') ++ x).dropWhile isNameByte)) with
          | some (as, 47 :: 62 :: r') => (tokens fuel r').map (.opening (((b :: tag') ++ x).takeWhile isNameByte) as true :: ·)
          | some (as, 62 :: r') => (tokens fuel r').map (.opening (((b :: tag') ++ x).takeWhile isNameByte) as false :: ·)
          | _ => none := by
        intro x
        exact tokens_opening fuel b (tag' ++ x) hb
      cases closed with
      | true =>
        have e : writeToken (.opening (b :: tag') ats true) ++ write ts =
            60 :: ((b :: tag') ++ ((if ats.isEmpty then [] else 32 :: writeAttributes ats) ++ 47 :: (62 :: write ts))) := by
          simp [writeToken]
        obtain ⟨k1, k2⟩ := key 47 (62 :: write ts) (by decide) (by decide)
        rw [e, gen, k1, k2]
        simp only
        rw [hih]
        simp [merge]
      | false =>
        have e : writeToken (.opening (b :: tag') ats false) ++ write ts =
            60 :: ((b :: tag') ++ ((if ats.isEmpty then [] else 32 :: writeAttributes ats) ++ 62 :: write ts)) := by
          simp [writeToken]
        obtain ⟨k1, k2⟩ := key 62 (write ts) (by decide) (by decide)
        rw [e, gen, k1, k2]
        simp only
        rw [hih]
        simp [merge]
    | text a =>
      rw [merge_text]
      cases a with
      | nil =>
        have : writeToken (.text []) ++ write ts = write ts := rfl
        rw [this, ih fuel (by simp [writeToken] at hf; omega)]
        congr 1
        split
        · rename_i e; rw [e]; rfl
        · simp
      | cons a0 a =>
        have hlen : 1 ≤ (writeToken (.text (a0 :: a))).length := by
          simp only [writeToken, List.flatMap_cons, List.length_append]
          have : 1 ≤ (escTextByte a0).length := by
            unfold escTextByte; split; · simp
            split; · simp
            split <;> simp
          omega
        obtain ⟨fuel, rfl⟩ : ∃ f, fuel = f + 1 := ⟨fuel - 1, by omega⟩
        have hih := ih fuel (by omega)
        have hlt := escText_lt (a0 :: a)
        have tw := takeWhile_more (· != 60) (writeToken (.text (a0 :: a))) (write ts) hlt
        obtain ⟨b, r, hbr⟩ : ∃ b r, writeToken (.text (a0 :: a)) = b :: r := by
          cases hw : writeToken (.text (a0 :: a)) with
          | nil => rw [hw] at hlen; simp at hlen
          | cons b r => exact ⟨b, r, rfl⟩
        have hb : b ≠ 60 := by
          have : (b != 60) = true := hlt b (by show b ∈ writeToken (.text (a0 :: a)); rw [hbr]; simp)
          simpa using this
        have step : tokens (fuel + 1) (writeToken (.text (a0 :: a)) ++ write ts) =
            (tokens fuel ((write ts).dropWhile (· != 60))).map
              (.text (unescape (writeToken (.text (a0 :: a)) ++ (write ts).takeWhile (· != 60))) :: ·) := by
          rw [← tw.1, ← tw.2, hbr, List.cons_append]
          exact tokens_text fuel b (r ++ write ts) hb
        rw [step, show writeToken (.text (a0 :: a)) = (a0 :: a).flatMap escTextByte from rfl, unescape_texts]
        cases hw : write ts with
        | nil =>
          rw [hw] at hih
          have : merge ts = [] := by
            have : tokens fuel [] = some [] := by rw [tokens.eq_def]
            rw [this] at hih; exact (Option.some.inj hih).symm
          rw [this]
          simp [tokens, unescape]
        | cons d w =>
          rw [hw] at hih
          by_cases hd : d = 60
          · subst hd
            simp only [List.dropWhile_cons, List.takeWhile_cons]
            simp only [bne_self_eq_false, Bool.false_eq_true, if_false, unescape, List.append_nil]
            rw [hih]
            have hnt : ∀ b r, merge ts ≠ .text b :: r := by
              intro b r e
              rw [e] at hih
              obtain ⟨f, rfl⟩ : ∃ f, fuel = f + 1 := by
                cases fuel with
                | zero => simp [tokens] at hih
                | succ f => exact ⟨f, rfl⟩
              cases w with
              | nil => rw [tokens.eq_def] at hih; simp [readAttributes, skipSpace] at hih
              | cons c w =>
                by_cases hc : c = 47
                · subst hc
                  rw [tokens_closing] at hih
                  split at hih
                  · simp at hih
                  · cases hih
                · rw [tokens_opening _ _ _ hc] at hih
                  split at hih
                  · simp at hih
                  · simp at hih
                  · cases hih
            split
            · rename_i b r e; exact absurd e (hnt b r)
            · simp
          · obtain ⟨f, rfl⟩ : ∃ f, fuel = f + 1 := by
              cases fuel with
              | zero => simp [tokens] at hih
              | succ f => exact ⟨f, rfl⟩
            rw [tokens_text _ _ _ hd, Option.map_eq_some_iff] at hih
            obtain ⟨x, h1, h2⟩ := hih
            rw [tokens_mono _ _ _ h1, ← h2]
            rfl

/-! ## Properties -/

theorem flatten_ok (n : Nat) :
    (∀ t : Node, sizeOf t ≤ n → (∀ s ∈ names t, Name s) → ∀ k ∈ flatten t, k.Ok) ∧
    (∀ ts : List Node, sizeOf ts ≤ n → (∀ s ∈ namesAll ts, Name s) → ∀ k ∈ flattenAll ts, k.Ok) := by
  induction n with
  | zero =>
    refine ⟨?_, ?_⟩
    · intro t h; cases t <;> simp at h
    · intro ts h; cases ts <;> simp at h
  | succ n ih =>
    refine ⟨?_, ?_⟩
    · intro t hz h k hk
      cases t with
      | text s => rw [flatten, List.mem_singleton] at hk; subst hk; trivial
      | element tag ats ns =>
        have h1 : Name tag := h tag (by simp [names])
        have h2 : ∀ a ∈ ats.map (fun a => (a.1, content a.2)), Name a.1 := by
          intro a ha
          obtain ⟨b, hb, rfl⟩ := List.mem_map.mp ha
          exact h b.1 (by
            simp only [names, List.mem_cons, List.mem_append, List.cons_append]
            exact Or.inr (Or.inl (List.mem_map.mpr ⟨b, hb, rfl⟩)))
        have h3 : ∀ s ∈ namesAll ns, Name s := fun s hs => h s (by simp [names, hs])
        have ihn := ih.2 ns (by simp at hz ⊢; omega) h3
        rw [flatten.eq_def] at hk
        cases ns with
        | nil =>
          simp only [List.mem_singleton] at hk
          subst hk; exact ⟨h1, h2⟩
        | cons m ns =>
          simp only [List.mem_cons, List.mem_append, List.mem_singleton, List.not_mem_nil, or_false] at hk
          rcases hk with rfl | hk | rfl
          · exact ⟨h1, h2⟩
          · exact ihn k hk
          · exact h1
    · intro ts hz h k hk
      cases ts with
      | nil => simp [flattenAll] at hk
      | cons t ts =>
        rw [flattenAll, List.mem_append] at hk
        rcases hk with hk | hk
        · exact ih.1 t (by simp at hz ⊢; omega) (fun s hs => h s (by simp [namesAll, hs])) k hk
        · exact ih.2 ts (by simp at hz ⊢; omega) (fun s hs => h s (by simp [namesAll, hs])) k hk

/-- C44: rendering fails exactly when a name of a tag or an attribute is not a name. -/
theorem c44_error_iff (t : Node) : render t = none ↔ ∃ s ∈ names t, ¬ Name s := by
  have := (render_all _).1 t (Nat.le_refl _)
  constructor
  · intro h
    apply Classical.byContradiction
    intro h'
    rw [this.1 (fun s hs => Classical.byContradiction (fun hn => h' ⟨s, hs, hn⟩))] at h
    cases h
  · rintro ⟨s, hs, hn⟩
    exact this.2 (fun h => hn (h s hs))

/-- C44: a reader of a rendered document sees exactly the tags, attributes and texts of the tree:
nothing in a text, a value or a name is read as a tag or an attribute. -/
theorem c44_no_injection (t : Node) (s : Bytes) (h : render t = some s) : read s = some (merge (flatten t)) := by
  have hn : ∀ s ∈ names t, Name s := by
    apply Classical.byContradiction
    intro hn
    rw [((render_all _).1 t (Nat.le_refl _)).2 hn] at h
    cases h
  rw [((render_all _).1 t (Nat.le_refl _)).1 hn] at h
  cases h
  exact tokens_write _ ((flatten_ok _).1 t (Nat.le_refl _) hn) _ (Nat.le_refl _)

/-- C44: documents that render to the same text have the same tags, attributes and texts. -/
theorem c44_injective (t t' : Node) (s : Bytes) (h : render t = some s) (h' : render t' = some s) :
    merge (flatten t) = merge (flatten t') := by
  have := c44_no_injection t s h
  rw [c44_no_injection t' s h'] at this
  exact (Option.some.inj this).symm

/-- A text that looks like a tag is read as a text. -/
example : render (.element [97] [([98], [34, 62])] [.text [60, 97, 47, 62], .text [38]]) =
    some ([60, 97, 32, 98, 61, 34] ++ [38, 113, 117, 111, 116, 59, 38, 103, 116, 59] ++ [34, 62] ++
      [38, 108, 116, 59, 97, 47, 38, 103, 116, 59] ++ [38, 97, 109, 112, 59] ++ [60, 47, 97, 62]) := by decide +kernel
example : merge (flatten (.element [97] [([98], [34, 62])] [.text [60, 97, 47, 62], .text [38]])) =
    [.opening [97] [([98], [34, 62])] false, .text [60, 97, 47, 62, 38], .closing [97]] := by decide +kernel

/-- Texts that are not UTF-8 are dropped without an error. -/
theorem c44_not_utf8_dropped : render (.element [97] [] [.text [255]]) = some [60, 97, 62, 60, 47, 97, 62] := by
  decide +kernel

/-- Tags with digits, such as `h1`, are rejected. -/
theorem c44_heading_rejected : render (.element [104, 49] [] []) = none := by decide +kernel

end Verif.Pkg.Html
