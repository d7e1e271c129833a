import Verif.Grammar.Soundness

/-! The recursion bound of the model of the parser is never reached, and does not matter. -/

namespace Verif.Grammar

/-- Two parsers agree on inputs shorter than this, and are not stopped by their bounds. -/
def Same {α : Type} (n : Nat) (p q : Parser α) : Prop :=
  ∀ s : List Char, s.length < n → p s = q s ∧ p s ≠ .fuel

/-- A parser that is not stopped by a bound. -/
def Total {α : Type} (p : Parser α) : Prop := ∀ s, p s ≠ .fuel

/-- A parser does not make its input longer. -/
def Shrinks {α : Type} (p : Parser α) : Prop := ∀ s a r, p s = .ok a r → r.length ≤ s.length

/-- A parser consumes some input. -/
def Eats {α : Type} (p : Parser α) : Prop := ∀ s a r, p s = .ok a r → r.length < s.length

section
variable {α β : Type} {p q p' q' : Parser α} {f f' : α → Parser β} {n : Nat}
  {W : α → List Char → Prop}

theorem Total.same (h : Total p) (n : Nat) : Same n p p := fun s _ => ⟨rfl, h s⟩

theorem Same.le {m : Nat} (h : Same n p q) (hm : m ≤ n) : Same m p q :=
  fun s hs => h s (Nat.lt_of_lt_of_le hs hm)

theorem Reads.shrinks (h : Reads p W) : Shrinks p := fun s a r e => by
  obtain ⟨u, rfl, _⟩ := h s a r e
  simp

theorem Reads.eats (h : Reads p W) (hne : ∀ a u, W a u → u ≠ []) : Eats p := fun s a r e => by
  obtain ⟨u, rfl, hW⟩ := h s a r e
  have := List.length_pos_iff.2 (hne a u hW)
  simp only [List.length_append]
  omega

theorem Eats.shrinks (h : Eats p) : Shrinks p := fun s a r e => Nat.le_of_lt (h s a r e)

theorem total_pure (a : α) : Total (pure a : Parser α) := fun _ h => by cases h

theorem same_pure (a : α) : Same n (pure a : Parser α) (pure a) := (total_pure a).same n

theorem Same.bind (h : Same n p q) (hs : Shrinks p) (hf : ∀ a, Same n (f a) (f' a)) :
    Same n (p >>= f) (q >>= f') := by
  intro s hlen
  obtain ⟨e, hne⟩ := h s hlen
  show (p s).bind f = (q s).bind f' ∧ (p s).bind f ≠ .fuel
  rw [← e]
  cases hp : p s with
  | ok a r => exact hf a r (Nat.lt_of_le_of_lt (hs s a r hp) hlen)
  | error => exact ⟨rfl, by simp [R.bind]⟩
  | failure => exact ⟨rfl, by simp [R.bind]⟩
  | fuel => exact absurd hp hne

/-- After some input is consumed, a smaller bound is enough. -/
theorem Same.after (h : Total p) (hs : Eats p) (hf : ∀ a, Same n (f a) (f' a)) :
    Same (n + 1) (p >>= f) (p >>= f') := by
  intro s hlen
  show (p s).bind f = (p s).bind f' ∧ (p s).bind f ≠ .fuel
  cases hp : p s with
  | ok a r => exact hf a r (by have := hs s a r hp; omega)
  | error => exact ⟨rfl, by simp [R.bind]⟩
  | failure => exact ⟨rfl, by simp [R.bind]⟩
  | fuel => exact absurd hp (h s)

theorem Total.bind (h : Total p) (hf : ∀ a, Total (f a)) : Total (p >>= f) := by
  intro s
  show (p s).bind f ≠ .fuel
  cases hp : p s with
  | ok a r => exact hf a r
  | error => simp [R.bind]
  | failure => simp [R.bind]
  | fuel => exact absurd hp (h s)

theorem Same.cut (h : Same n p q) : Same n (cut p) (cut q) := by
  intro s hlen
  obtain ⟨e, hne⟩ := h s hlen
  unfold Grammar.cut
  rw [← e]
  cases hp : p s with
  | fuel => exact absurd hp hne
  | _ => simp

theorem Same.orElse (h : Same n p q) (h' : Same n p' q') : Same n (orElse p p') (orElse q q') := by
  intro s hlen
  obtain ⟨e, hne⟩ := h s hlen
  obtain ⟨e', hne'⟩ := h' s hlen
  unfold Grammar.orElse
  rw [← e]
  cases hp : p s with
  | fuel => exact absurd hp hne
  | error => exact ⟨e', hne'⟩
  | _ => simp

theorem Same.alt_nil : Same n (alt ([] : List (Parser α))) (alt []) :=
  fun _ _ => ⟨rfl, fun h => by cases h⟩

theorem Same.alt {ps qs : List (Parser α)} (h : Same n p q) (h' : Same n (alt ps) (alt qs)) :
    Same n (alt (p :: ps)) (alt (q :: qs)) := h.orElse h'

theorem Same.opt (h : Same n p q) : Same n (opt p) (opt q) := by
  intro s hlen
  obtain ⟨e, hne⟩ := h s hlen
  unfold Grammar.opt
  rw [← e]
  cases hp : p s with
  | fuel => exact absurd hp hne
  | _ => simp

theorem Same.verify {v : α → Bool} (h : Same n p q) : Same n (verify p v) (verify q v) := by
  intro s hlen
  obtain ⟨e, hne⟩ := h s hlen
  unfold Grammar.verify
  rw [← e]
  cases hp : p s with
  | fuel => exact absurd hp hne
  | ok a r => simp only; split <;> simp
  | _ => simp

theorem Same.manyLoop (h : Same n p q) : ∀ (k : Nat) (s : List Char), s.length < n → s.length < k →
    manyLoop p k s = manyLoop q k s ∧ manyLoop p k s ≠ .fuel
  | 0, _, _, hk => by omega
  | k + 1, s, hn, hk => by
    obtain ⟨e, hne⟩ := h s hn
    unfold Grammar.manyLoop
    rw [← e]
    cases hp : p s with
    | ok a r =>
      simp only
      split
      · obtain ⟨e1, e2⟩ := Same.manyLoop h k r (by omega) (by omega)
        rw [← e1]
        refine ⟨rfl, ?_⟩
        cases hm : Grammar.manyLoop p k r with
        | fuel => exact absurd hm e2
        | ok => simp [R.bind, success]
        | error => simp [R.bind]
        | failure => simp [R.bind]
      · simp
    | error => simp
    | failure => simp
    | fuel => exact absurd hp hne

theorem Same.many0 (h : Same n p q) : Same n (many0 p) (many0 q) :=
  fun s hs => h.manyLoop _ s hs (Nat.lt_succ_self _)

theorem shrinks_many0 (p : Parser α) : Shrinks (many0 p) := by
  have : ∀ k s as r, manyLoop p k s = .ok as r → r.length ≤ s.length := by
    intro k
    induction k with
    | zero => intro s as r e; cases e
    | succ k ih =>
      intro s as r e
      unfold Grammar.manyLoop at e
      cases hp : p s with
      | ok a r' =>
        rw [hp] at e
        simp only at e
        split at e
        · cases hm : Grammar.manyLoop p k r' with
          | ok bs r'' =>
            rw [hm] at e
            cases e
            have := ih _ _ _ hm
            omega
          | error => rw [hm] at e; cases e
          | failure => rw [hm] at e; cases e
          | fuel => rw [hm] at e; cases e
        · cases e
      | error => rw [hp] at e; cases e; exact Nat.le_refl _
      | failure => rw [hp] at e; cases e
      | fuel => rw [hp] at e; cases e
  exact fun s as r e => this _ _ _ _ e

theorem Same.many1 (h : Same n p q) (hs : Shrinks p) : Same n (many1 p) (many1 q) :=
  h.bind hs fun _ => h.many0.bind (shrinks_many0 _) fun _ => same_pure _

theorem Same.separated1 {c : Parser Unit} (hc : Total c) (hc' : Shrinks c) (h : Same n p q)
    (hs : Shrinks p) : Same n (separated1 c p) (separated1 c q) :=
  h.bind hs fun _ => (Same.many0 ((hc.same n).bind hc' fun _ => h)).bind (shrinks_many0 _)
    fun _ => same_pure _

theorem shrinks_opt {p : Parser α} (h : Shrinks p) : Shrinks (opt p) := by
  intro s a r e
  unfold Grammar.opt at e
  cases hp : p s with
  | ok b r' => rw [hp] at e; cases e; exact h _ _ _ hp
  | error => rw [hp] at e; cases e; exact Nat.le_refl _
  | failure => rw [hp] at e; cases e
  | fuel => rw [hp] at e; cases e

end

theorem shrinks_pure {α : Type} (a : α) : Shrinks (pure a : Parser α) := fun _ _ _ e => by
  cases e
  exact Nat.le_refl _

theorem Shrinks.bind {α β : Type} {p : Parser α} {f : α → Parser β} (h : Shrinks p)
    (hf : ∀ a, Shrinks (f a)) : Shrinks (p >>= f) := by
  intro s b r e
  have e : (p s).bind f = .ok b r := e
  cases hp : p s with
  | ok a r' => rw [hp] at e; exact Nat.le_trans (hf a _ _ _ e) (h _ _ _ hp)
  | error => rw [hp] at e; cases e
  | failure => rw [hp] at e; cases e
  | fuel => rw [hp] at e; cases e

theorem Shrinks.orElse {α : Type} {p q : Parser α} (h : Shrinks p) (h' : Shrinks q) :
    Shrinks (orElse p q) := by
  intro s a r e
  unfold Grammar.orElse at e
  cases hp : p s with
  | ok b r' => rw [hp] at e; cases e; exact h _ _ _ hp
  | error => rw [hp] at e; exact h' _ _ _ e
  | failure => rw [hp] at e; cases e
  | fuel => rw [hp] at e; cases e

theorem Shrinks.cut {α : Type} {p : Parser α} (h : Shrinks p) : Shrinks (cut p) := by
  intro s a r e
  unfold Grammar.cut at e
  cases hp : p s with
  | ok b r' => rw [hp] at e; cases e; exact h _ _ _ hp
  | error => rw [hp] at e; cases e
  | failure => rw [hp] at e; cases e
  | fuel => rw [hp] at e; cases e

theorem Shrinks.verify {α : Type} {p : Parser α} {v : α → Bool} (h : Shrinks p) :
    Shrinks (verify p v) := by
  intro s a r e
  unfold Grammar.verify at e
  cases hp : p s with
  | ok b r' =>
    rw [hp] at e
    simp only at e
    split at e
    · cases e; exact h _ _ _ hp
    · cases e
  | error => rw [hp] at e; cases e
  | failure => rw [hp] at e; cases e
  | fuel => rw [hp] at e; cases e

theorem shrinks_separated1 {α : Type} {c : Parser Unit} {p : Parser α} (h : Shrinks p) :
    Shrinks (separated1 c p) := h.bind fun _ => (shrinks_many0 _).bind fun _ => shrinks_pure _

/-! ## Names and literals -/

theorem total_tag (t : List Char) : Total (tag t) := by
  induction t with
  | nil => intro s h; cases h
  | cons c t ih =>
    intro s
    cases s with
    | nil => intro h; cases h
    | cons d s =>
      simp only [tag]
      split
      · exact ih s
      · simp

theorem total_notNext (f : Char → Bool) : Total (notNext f) := by
  intro s
  unfold notNext
  split <;> simp

theorem Total.token {α : Type} {p : Parser α} (h : Total p) : Total (token p) := fun s => h (blank s)

theorem Total.verify {α : Type} {p : Parser α} {v : α → Bool} (h : Total p) : Total (verify p v) := by
  intro s
  exact ((h.same (s.length + 1)).verify s (Nat.lt_succ_self _)).2

theorem Total.cut {α : Type} {p : Parser α} (h : Total p) : Total (cut p) := by
  intro s
  exact ((h.same (s.length + 1)).cut s (Nat.lt_succ_self _)).2

theorem Total.opt {α : Type} {p : Parser α} (h : Total p) : Total (opt p) := by
  intro s
  exact ((h.same (s.length + 1)).opt s (Nat.lt_succ_self _)).2

theorem Total.orElse {α : Type} {p q : Parser α} (h : Total p) (h' : Total q) :
    Total (orElse p q) := by
  intro s
  exact ((h.same (s.length + 1)).orElse (h'.same _) s (Nat.lt_succ_self _)).2

theorem Total.many0 {α : Type} {p : Parser α} (h : Total p) : Total (many0 p) := by
  intro s
  exact ((h.same (s.length + 1)).many0 s (Nat.lt_succ_self _)).2

theorem total_alt {α : Type} {ps : List (Parser α)} (h : ∀ p ∈ ps, Total p) : Total (alt ps) := by
  induction ps with
  | nil => intro s e; cases e
  | cons p ps ih => exact (h p (by simp)).orElse (ih fun q hq => h q (by simp [hq]))

theorem total_sign (t : List Char) : Total (sign t) := by
  unfold sign
  split
  · exact (total_tag t).token.bind fun _ => total_notNext _
  · exact (total_tag t).token

theorem total_keyword (t : List Char) : Total (keyword t) :=
  Total.token ((total_tag t).bind fun _ => total_notNext _)

theorem total_rawIdentifier : Total rawIdentifier := by
  refine Total.verify ?_
  intro s
  cases s with
  | nil => simp [uncheckedIdentifier]
  | cons c s =>
    simp only [uncheckedIdentifier]
    split <;> simp

theorem total_identifier : Total identifier := total_rawIdentifier.token

theorem total_qualified : Total (token qualifiedIdentifier) := by
  refine Total.token (total_rawIdentifier.bind fun x => ?_)
  refine Total.bind (Total.opt ((total_tag _).bind fun _ => total_rawIdentifier.cut)) fun y => ?_
  cases y <;> exact total_pure _

theorem total_chars1 (f : Char → Bool) : Total (chars1 f) := by
  intro s
  unfold chars1
  split <;> simp

theorem total_oneOf (f : Char → Bool) : Total (oneOf f) := by
  intro s
  cases s with
  | nil => simp [oneOf]
  | cons c s =>
    simp only [oneOf]
    split <;> simp

theorem total_number : Total number := by
  refine Total.token (Total.bind (total_alt fun p hp => ?_) fun _ =>
    (total_notNext _).bind fun _ => total_pure _)
  simp only [List.mem_cons, List.not_mem_nil, or_false] at hp
  rcases hp with rfl | rfl | rfl
  · exact (total_tag _).bind fun _ => (total_chars1 _).cut.bind fun _ => total_pure _
  · exact (total_tag _).bind fun _ => (total_chars1 _).cut.bind fun _ => total_pure _
  · refine Total.bind ?_ fun _ => total_pure _
    refine (total_oneOf _).opt.bind fun _ => Total.bind (Total.orElse ?_ ?_) fun _ =>
      Total.bind (Total.opt ?_) fun _ => total_pure _
    · exact (total_chars1 _).bind fun _ => (Total.opt ((total_oneOf _).bind fun _ =>
        (total_chars1 _).opt.bind fun _ => total_pure _)).bind fun _ => total_pure _
    · exact (total_oneOf _).bind fun _ => (total_chars1 _).bind fun _ => total_pure _
    · exact (total_oneOf _).bind fun _ => (total_oneOf _).opt.bind fun _ =>
        (total_chars1 _).cut.bind fun _ => total_pure _

theorem total_string : Total stringLiteral := by
  refine Total.token ((total_tag _).bind fun _ => Total.cut (Total.bind (Total.many0 ?_) fun _ =>
    (total_tag _).bind fun _ => total_pure _))
  intro s
  unfold stringPiece
  repeat' split
  all_goals simp

theorem Tok.ne_nil {t u : List Char} (ht : t ≠ []) (h : Tok t u) : u ≠ [] := by
  cases h
  simp [ht]

theorem eats_sign {t : List Char} (ht : t ≠ []) : Eats (sign t) :=
  (reads_sign ht).eats fun _ _ h => h.ne_nil ht

theorem eats_keyword {t : List Char} (ht : t ≠ []) : Eats (keyword t) :=
  (reads_keyword ht).eats fun _ _ h => h.ne_nil ht

theorem eats_identifier : Eats identifier := reads_identifier.eats fun _ _ h => h.ne_nil

theorem eats_qualified : Eats (token qualifiedIdentifier) := reads_qualified.eats fun x u h => by
  cases h with
  | mk h ht =>
    refine ht.ne_nil ?_
    rcases h with h | ⟨a, b, rfl, _⟩
    · exact h.ne_nil
    · simp

/-! ## Types -/

section
variable {α β : Type} {p q : Parser α} {f f' : Unit → Parser β} {n : Nat}

/-- A sign, after which a smaller bound is enough. -/
theorem Same.sign1 {t : List Char} (ht : t ≠ []) (h : Same n (f ()) (f' ())) :
    Same (n + 1) (sign t >>= f) (sign t >>= f') :=
  Same.after (total_sign t) (eats_sign ht) fun _ => h

theorem Same.keyword1 {t : List Char} (ht : t ≠ []) (h : Same n (f ()) (f' ())) :
    Same (n + 1) (keyword t >>= f) (keyword t >>= f') :=
  Same.after (total_keyword t) (eats_keyword ht) fun _ => h

theorem Same.sign {t : List Char} (ht : t ≠ []) (h : Same n (f ()) (f' ())) :
    Same n (sign t >>= f) (sign t >>= f') :=
  ((total_sign t).same n).bind (eats_sign ht).shrinks fun _ => h

theorem Same.keyword {t : List Char} (ht : t ≠ []) (h : Same n (f ()) (f' ())) :
    Same n (keyword t >>= f) (keyword t >>= f') :=
  ((total_keyword t).same n).bind (eats_keyword ht).shrinks fun _ => h

theorem Same.identifier {f f' : Name → Parser β} (h : ∀ x, Same n (f x) (f' x)) :
    Same n (identifier >>= f) (identifier >>= f') :=
  (total_identifier.same n).bind eats_identifier.shrinks h

theorem Same.list1 (h : Same n p q) (hs : Shrinks p) :
    Same n (list1 (Grammar.sign ",".toList) p) (list1 (Grammar.sign ",".toList) q) :=
  (Same.separated1 (total_sign _) (eats_sign (by decide)).shrinks h hs).bind (shrinks_separated1 hs)
    fun _ => ((total_sign _).opt.same n).bind (shrinks_opt (eats_sign (by decide)).shrinks)
      fun _ => same_pure _

theorem Same.list0 (h : Same n p q) (hs : Shrinks p) :
    Same n (list0 (Grammar.sign ",".toList) p) (list0 (Grammar.sign ",".toList) q) := by
  refine Same.bind
    ((Same.separated1 (total_sign _) (eats_sign (by decide)).shrinks h hs).orElse (same_pure _))
    (Shrinks.orElse (shrinks_separated1 hs) (shrinks_pure _)) fun as => ?_
  split
  · exact same_pure _
  · exact ((total_sign _).opt.same n).bind (shrinks_opt (eats_sign (by decide)).shrinks)
      fun _ => same_pure _

end

/-- Two unfoldings of the grammar agree on inputs shorter than this. -/
structure SameG (n : Nat) (g g' : G) : Prop where
  expression : Same n g.expression g'.expression
  operand : Same n g.operand g'.operand
  type : Same n g.type g'.type

variable {n : Nat} {g g' : G}

theorem Same.expr {β : Type} {f f' : Expr → Parser β} (h : SameG n g g') (hg : Sound g)
    (hf : ∀ e, Same n (f e) (f' e)) : Same n (g.expression >>= f) (g'.expression >>= f') :=
  h.expression.bind hg.expression.shrinks hf

theorem Same.ty {β : Type} {f f' : Ty → Parser β} (h : SameG n g g') (hg : Sound g)
    (hf : ∀ e, Same n (f e) (f' e)) : Same n (g.type >>= f) (g'.type >>= f') :=
  h.type.bind hg.type.shrinks hf

theorem same_atomicType (h : SameG n g g') (hg : Sound g) :
    Same (n + 1) (atomicType g) (atomicType g') := by
  refine .alt ?_ (.alt ?_ (.alt ?_ (.alt ?_ .alt_nil)))
  · exact (total_qualified.bind fun _ => total_pure _).same _
  · exact .sign1 (by decide) <| .cut <| .ty h hg fun _ => .sign (by decide) <| same_pure _
  · exact .sign1 (by decide) <| .cut <| .ty h hg fun _ => .sign (by decide) <| .ty h hg fun _ =>
      .sign (by decide) <| same_pure _
  · exact .sign1 (by decide) <| .cut <| .ty h hg fun _ => .sign (by decide) <| same_pure _

theorem same_type (h : SameG n g g') (hg : Sound g) : Same (n + 1) (type g) (type g') := by
  refine .alt ?_ (.alt ?_ .alt_nil)
  · exact .sign1 (by decide) <| .cut <| (h.type.list0 hg.type.shrinks).bind
      hg.type.list0.shrinks fun _ => .sign (by decide) <| .ty h hg fun _ => same_pure _
  · exact ((same_atomicType h hg).separated1 (total_sign _) (eats_sign (by decide)).shrinks
      (reads_atomicType hg).shrinks).bind (shrinks_separated1 (reads_atomicType hg).shrinks)
      fun _ => same_pure _

/-! ## Expressions -/

theorem same_statement (h : SameG n g g') (hg : Sound g) : Same n (statement g) (statement g') := by
  have hb : Total binding :=
    Total.opt (total_identifier.bind fun _ => (total_sign _).bind fun _ => total_pure _)
  have hs : Shrinks binding := shrinks_opt (eats_identifier.shrinks.bind fun _ =>
    (eats_sign (by decide)).shrinks.bind fun _ => shrinks_pure _)
  exact (hb.same n).bind hs fun _ => .expr h hg fun _ => same_pure _

/-- Blocks. -/
theorem same_block (h : SameG n g g') (hg : Sound g) : Same n (block g) (block g') :=
  .sign (by decide) <| .cut <| Same.bind
    (Same.verify ((same_statement h hg).many1 (reads_statement hg).shrinks))
    (Reads.shrinks (reads_statement hg).many1.verify) fun _ => .sign (by decide) <| same_pure _

theorem Same.block {β : Type} {f f' : Block → Parser β} (h : SameG n g g') (hg : Sound g)
    (hf : ∀ e, Same n (f e) (f' e)) : Same n (block g >>= f) (block g' >>= f') :=
  (same_block h hg).bind (reads_block hg).shrinks hf

theorem same_lambda (h : SameG n g g') (hg : Sound g) : Same (n + 1) (lambda g) (lambda g') := by
  have ha : Same n (argument g) (argument g') := .identifier fun _ => h.type.cut.bind
    hg.type.cut.shrinks fun _ => same_pure _
  exact .sign1 (by decide) <| .cut <| (ha.list0 (reads_argument hg).shrinks).bind
    (reads_argument hg).list0.shrinks fun _ => .sign (by decide) <| .ty h hg fun _ =>
    .block h hg fun _ => same_pure _

theorem same_branch (h : SameG n g g') (hg : Sound g) : Same n (ifBranch g) (ifBranch g') :=
  .expr h hg fun _ => .block h hg fun _ => same_pure _

theorem same_typeBranch (h : SameG n g g') (hg : Sound g) :
    Same n (ifTypeBranch g) (ifTypeBranch g') :=
  .ty h hg fun _ => .block h hg fun _ => same_pure _

theorem same_elseIf {α : Type} {p q : Parser α} (h : Same n p q) : Same n (elseIf p) (elseIf q) :=
  .keyword (by decide) <| .keyword (by decide) <| h.cut

theorem same_if (h : SameG n g g') (hg : Sound g) :
    Same (n + 1) (ifExpression g) (ifExpression g') :=
  .keyword1 (by decide) <| .cut <| (same_branch h hg).bind (reads_branch hg).shrinks fun _ =>
    (same_elseIf (same_branch h hg)).many0.bind (shrinks_many0 _) fun _ =>
    .keyword (by decide) <| .block h hg fun _ => same_pure _

theorem same_ifList (h : SameG n g g') (hg : Sound g) : Same (n + 1) (ifList g) (ifList g') :=
  .keyword1 (by decide) <| .sign (by decide) <| .cut <| .identifier fun _ => .sign (by decide) <|
    .sign (by decide) <| .identifier fun _ => .sign (by decide) <| .sign (by decide) <|
    .expr h hg fun _ => .block h hg fun _ => .keyword (by decide) <| .block h hg fun _ => same_pure _

theorem same_ifMap (h : SameG n g g') (hg : Sound g) : Same (n + 1) (ifMap g) (ifMap g') :=
  .keyword1 (by decide) <| .identifier fun _ => .sign (by decide) <| .expr h hg fun _ =>
    .sign (by decide) <| .cut <| .expr h hg fun _ => .sign (by decide) <| .block h hg fun _ =>
    .keyword (by decide) <| .block h hg fun _ => same_pure _

theorem same_ifType (h : SameG n g g') (hg : Sound g) : Same (n + 1) (ifType g) (ifType g') :=
  .keyword1 (by decide) <| .identifier fun _ => .sign (by decide) <| .expr h hg fun _ =>
    .keyword (by decide) <| .cut <| (same_typeBranch h hg).bind (reads_typeBranch hg).shrinks fun _ =>
    (same_elseIf (same_typeBranch h hg)).many0.bind (shrinks_many0 _) fun _ =>
    Same.bind (Same.opt (.keyword (by decide) <| same_block h hg))
      (shrinks_opt ((eats_keyword (by decide)).shrinks.bind fun _ => (reads_block hg).shrinks))
      fun _ => same_pure _

theorem same_field (h : SameG n g g') (hg : Sound g) : Same n (recordField g) (recordField g') :=
  .identifier fun _ => .sign (by decide) <| h.expression.cut.bind hg.expression.cut.shrinks
    fun _ => same_pure _

theorem same_record (h : SameG n g g') (hg : Sound g) : Same (n + 1) (record g) (record g') := by
  refine Same.after total_qualified eats_qualified fun _ => .sign (by decide) <| Same.bind
    (Same.verify (Same.orElse ?_ ?_)) ?_ fun _ => .sign (by decide) <| same_pure _
  · exact .sign (by decide) <| .cut <| .expr h hg fun _ => .sign (by decide) <|
      ((same_field h hg).list1 (reads_field hg).shrinks).bind (reads_field hg).list1.shrinks
        fun _ => same_pure _
  · exact ((same_field h hg).list0 (reads_field hg).shrinks).bind (reads_field hg).list0.shrinks
      fun _ => same_pure _
  · refine Shrinks.verify (Shrinks.orElse ?_ ?_)
    · exact (eats_sign (by decide)).shrinks.bind fun _ => Shrinks.cut <|
        hg.expression.shrinks.bind fun _ => (eats_sign (by decide)).shrinks.bind fun _ =>
        (reads_field hg).list1.shrinks.bind fun _ => shrinks_pure _
    · exact (reads_field hg).list0.shrinks.bind fun _ => shrinks_pure _

theorem same_list (h : SameG n g g') (hg : Sound g) :
    Same (n + 1) (listLiteral g) (listLiteral g') := by
  have he : Same n (listElement g) (listElement g') := Same.orElse
    (.sign (by decide) <| h.expression.cut.bind hg.expression.cut.shrinks fun _ => same_pure _)
    (.expr h hg fun _ => same_pure _)
  exact .sign1 (by decide) <| .cut <| .ty h hg fun _ =>
    (he.list0 (reads_listElement hg).shrinks).bind (reads_listElement hg).list0.shrinks fun _ =>
    .sign (by decide) <| same_pure _

theorem same_comprehension (h : SameG n g g') (hg : Sound g) :
    Same (n + 1) (comprehension g) (comprehension g') := by
  have hb : Same n (compBranch g) (compBranch g') :=
    .keyword (by decide) <| .cut <| ((total_identifier.same n).list1 eats_identifier.shrinks).bind
      reads_identifier.list1.shrinks fun _ => .keyword (by decide) <|
      (h.expression.list1 hg.expression.shrinks).bind hg.expression.list1.shrinks fun _ =>
      Same.bind (Same.opt (.keyword (by decide) <| h.expression))
        (shrinks_opt ((eats_keyword (by decide)).shrinks.bind fun _ => hg.expression.shrinks))
        fun _ => same_pure _
  exact .sign1 (by decide) <| .ty h hg fun _ => .expr h hg fun _ =>
    (hb.many1 (reads_compBranch hg).shrinks).bind (reads_compBranch hg).many1.shrinks fun _ =>
    .sign (by decide) <| same_pure _

theorem same_map (h : SameG n g g') (hg : Sound g) : Same (n + 1) (mapLiteral g) (mapLiteral g') := by
  have he : Same n (mapElement g) (mapElement g') := Same.orElse
    (.expr h hg fun _ => .sign (by decide) <| h.expression.cut.bind hg.expression.cut.shrinks
      fun _ => same_pure _)
    (.sign (by decide) <| h.expression.cut.bind hg.expression.cut.shrinks fun _ => same_pure _)
  exact .sign1 (by decide) <| .cut <| .ty h hg fun _ => .sign (by decide) <| .ty h hg fun _ =>
    (he.list0 (reads_mapElement hg).shrinks).bind (reads_mapElement hg).list0.shrinks fun _ =>
    .sign (by decide) <| same_pure _

theorem same_atomic (h : SameG n g g') (hg : Sound g) : Same (n + 1) (atomic g) (atomic g') := by
  refine .alt ?_ <| .alt (same_ifType h hg) <| .alt (same_ifList h hg) <| .alt (same_ifMap h hg) <|
    .alt (same_if h hg) <| .alt (same_record h hg) <| .alt (same_comprehension h hg) <|
    .alt (same_list h hg) <| .alt (same_map h hg) <| .alt ?_ <| .alt ?_ <| .alt ?_ <| .alt ?_ .alt_nil
  · exact (same_lambda h hg).bind (reads_lambda hg).shrinks fun _ => same_pure _
  · exact (total_number.bind fun _ => total_pure _).same _
  · exact (total_string.bind fun _ => total_pure _).same _
  · exact (total_qualified.bind fun _ => total_pure _).same _
  · exact .sign1 (by decide) <| .expr h hg fun _ => .sign (by decide) <| same_pure _

theorem eats_open : Eats (tag "(".toList) := (reads_tag _).eats fun _ _ h => by simp [h]

theorem same_suffix (h : SameG n g g') (hg : Sound g) :
    Same (n + 1) (suffixOperator g) (suffixOperator g') := by
  refine .alt ?_ <| .alt ?_ <| .alt ?_ .alt_nil
  · exact Same.after (total_tag _) eats_open fun _ => .cut <|
      (h.expression.list0 hg.expression.shrinks).bind hg.expression.list0.shrinks fun _ =>
      .sign (by decide) <| same_pure _
  · exact ((total_sign _).bind fun _ => total_identifier.cut.bind fun _ => total_pure _).same _
  · exact ((total_sign _).bind fun _ => total_pure _).same _

theorem same_operand (h : SameG n g g') (hg : Sound g) : Same (n + 1) (operand g) (operand g') :=
  Same.orElse
    (.sign1 (by decide) <| h.operand.cut.bind hg.operand.cut.shrinks fun _ => same_pure _)
    ((same_atomic h hg).bind (reads_atomic hg).shrinks fun _ =>
      (same_suffix h hg).many0.bind (shrinks_many0 _) fun _ => same_pure _)

theorem total_operator : Total binaryOperator := by
  refine total_alt fun p hp => ?_
  simp only [List.mem_cons, List.not_mem_nil, or_false] at hp
  rcases hp with rfl | rfl | rfl | rfl | rfl | rfl | rfl | rfl | rfl | rfl | rfl | rfl
  all_goals exact (total_sign _).bind fun _ => total_pure _

theorem same_expression (h : SameG n g g') (hg : Sound g) :
    Same (n + 1) (expression g) (expression g') := by
  have hp : Same (n + 1) (operatorAndOperand g) (operatorAndOperand g') :=
    (total_operator.same _).bind reads_operator.shrinks fun _ => (same_operand h hg).cut.bind
      (reads_operand hg).cut.shrinks fun _ => same_pure _
  exact (same_operand h hg).bind (reads_operand hg).shrinks fun _ => hp.many0.bind (shrinks_many0 _)
    fun _ => same_pure _

theorem same_grammar : ∀ {n m : Nat}, n ≤ m → SameG n (grammar n) (grammar m)
  | 0, _, _ => ⟨fun _ h => absurd h (Nat.not_lt_zero _), fun _ h => absurd h (Nat.not_lt_zero _),
      fun _ h => absurd h (Nat.not_lt_zero _)⟩
  | n + 1, m + 1, h =>
    have ih := same_grammar (Nat.le_of_succ_le_succ h)
    ⟨same_expression ih (sound n), same_operand ih (sound n), same_type ih (sound n)⟩

/-! ## Modules -/

theorem total_component {c : Parser Name} (h : Total c) : Total (pathComponents c) :=
  Total.bind ((total_tag _).bind fun _ => h) fun _ => (Total.many0 ((total_tag _).bind fun _ => h)).bind
    fun _ => total_pure _

theorem total_list1 {α : Type} {p : Parser α} (h : Total p) : Total (list1 (sign ",".toList) p) :=
  Total.bind (h.bind fun _ => (Total.many0 ((total_sign _).bind fun _ => h)).bind
    fun _ => total_pure _) fun _ => (total_sign _).opt.bind fun _ => total_pure _

theorem total_import : Total import_ := by
  refine (total_keyword _).bind fun _ => Total.bind (Total.token (Total.orElse ?_ ?_)) fun _ =>
    Total.cut ?_
  · exact total_identifier.bind fun _ => (total_component total_identifier.verify).cut.bind
      fun _ => total_pure _
  · exact (total_component total_identifier).bind fun _ => total_pure _
  · exact (Total.opt ((total_keyword _).bind fun _ => total_identifier)).bind fun _ =>
      (Total.opt ((total_sign _).bind fun _ => (total_list1 total_identifier).bind fun _ =>
        (total_sign _).bind fun _ => total_pure _)).bind fun _ => total_pure _

theorem total_convention : Total (opt callingConvention) :=
  Total.opt (total_string.verify.bind fun _ => total_pure _)

theorem shrinks_convention : Shrinks (opt callingConvention) := reads_convention.shrinks

theorem same_module (h : SameG n g g') (hg : Sound g) : Same n (module_ g) (module_ g') := by
  have hf : Same n (foreignImport g) (foreignImport g') :=
    .keyword (by decide) <| .keyword (by decide) <| .cut <|
      (total_convention.same n).bind shrinks_convention fun _ => .identifier fun _ =>
      .ty h hg fun _ => same_pure _
  have hfd : Same n (fieldDefinition g) (fieldDefinition g') :=
    .identifier fun _ => .ty h hg fun _ => same_pure _
  have ht : Same n (orElse (typeAlias g) (recordDefinition g))
      (orElse (typeAlias g') (recordDefinition g')) := Same.orElse
    (.keyword (by decide) <| .identifier fun _ => .sign (by decide) <|
      h.type.cut.bind hg.type.cut.shrinks fun _ => same_pure _)
    (.keyword (by decide) <| .identifier fun _ => .sign (by decide) <| .cut <|
      hfd.many0.bind (shrinks_many0 _) fun _ => .sign (by decide) <| same_pure _)
  have he : Total foreignExport :=
    (total_keyword _).bind fun _ => total_convention.bind fun _ => total_pure _
  have he' : Shrinks foreignExport := (eats_keyword (by decide)).shrinks.bind fun _ =>
    shrinks_convention.bind fun _ => shrinks_pure _
  have hd : Same n (functionDefinition g) (functionDefinition g') :=
    (he.opt.same n).bind (shrinks_opt he') fun _ => .identifier fun _ => .sign (by decide) <|
      ((same_lambda h hg).le (Nat.le_succ n)).cut.bind (reads_lambda hg).cut.shrinks fun _ =>
      same_pure _
  exact (total_import.many0.same n).bind (shrinks_many0 _) fun _ => hf.many0.bind (shrinks_many0 _)
    fun _ => ht.many0.bind (shrinks_many0 _) fun _ => hd.many0.bind (shrinks_many0 _) fun _ =>
    same_pure _

/-- The bound that `parse` uses is never reached, and larger bounds make no difference. -/
theorem parse_total (s : List Char) {n : Nat} (h : s.length < n) :
    module_ (grammar n) s = module_ (grammar (s.length + 1)) s ∧ module_ (grammar n) s ≠ .fuel := by
  have h1 := same_module (same_grammar (n := s.length + 1) (m := n) h) (sound _) s (Nat.lt_succ_self _)
  exact ⟨h1.1.symm, h1.1 ▸ h1.2⟩

end Verif.Grammar
