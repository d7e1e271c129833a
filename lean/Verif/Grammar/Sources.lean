import Verif.Grammar.Modules

/-! What the parser makes: names are identifiers, literals are literals, nothing is empty that must
not be. -/

namespace Verif.Grammar

/-- All values a parser makes are such. -/
def Yields {α : Type} (p : Parser α) (P : α → Prop) : Prop := ∀ s a r, p s = .ok a r → P a

section
variable {α β : Type} {p q : Parser α} {P Q : α → Prop} {f : α → Parser β} {R' : β → Prop}

theorem yields_any (p : Parser α) : Yields p fun _ => True := fun _ _ _ _ => trivial

theorem Yields.mono (h : Yields p P) (hPQ : ∀ a, P a → Q a) : Yields p Q :=
  fun s a r e => hPQ a (h s a r e)

theorem yields_pure {a : α} (h : P a) : Yields (pure a : Parser α) P := by
  intro s b r e
  cases e
  exact h

theorem Yields.bind (h : Yields p P) (hf : ∀ a, P a → Yields (f a) R') : Yields (p >>= f) R' := by
  intro s b r e
  have e : (p s).bind f = .ok b r := e
  cases hp : p s with
  | ok a s' =>
    rw [hp] at e
    exact hf a (h s a s' hp) s' b r e
  | error => rw [hp] at e; cases e
  | failure => rw [hp] at e; cases e
  | fuel => rw [hp] at e; cases e

theorem yields_then {u : Parser α} {k : α → Parser β} (hf : ∀ a, Yields (k a) R') :
    Yields (u >>= k) R' := (yields_any u).bind fun a _ => hf a

theorem Yields.cut (h : Yields p P) : Yields (cut p) P := by
  intro s a r e
  unfold Grammar.cut at e
  cases hp : p s with
  | ok b r' => rw [hp] at e; cases e; exact h _ _ _ hp
  | error => rw [hp] at e; cases e
  | failure => rw [hp] at e; cases e
  | fuel => rw [hp] at e; cases e

theorem Yields.orElse (h : Yields p P) (h' : Yields q P) : Yields (orElse p q) P := by
  intro s a r e
  unfold Grammar.orElse at e
  cases hp : p s with
  | ok b r' => rw [hp] at e; cases e; exact h _ _ _ hp
  | error => rw [hp] at e; exact h' _ _ _ e
  | failure => rw [hp] at e; cases e
  | fuel => rw [hp] at e; cases e

theorem yields_alt {ps : List (Parser α)} (h : ∀ p ∈ ps, Yields p P) : Yields (alt ps) P := by
  induction ps with
  | nil => intro s a r e; cases e
  | cons p ps ih => exact (h p (by simp)).orElse (ih fun q hq => h q (by simp [hq]))

theorem Yields.opt (h : Yields p P) : Yields (opt p) fun o => ∀ a, o = some a → P a := by
  intro s o r e a ea
  subst ea
  unfold Grammar.opt at e
  cases hp : p s with
  | ok b r' => rw [hp] at e; cases e; exact h _ _ _ hp
  | error => rw [hp] at e; cases e
  | failure => rw [hp] at e; cases e
  | fuel => rw [hp] at e; cases e

theorem Yields.verify {v : α → Bool} (h : Yields p P) :
    Yields (verify p v) fun a => P a ∧ v a = true := by
  intro s a r e
  unfold Grammar.verify at e
  cases hp : p s with
  | ok b r' =>
    rw [hp] at e
    simp only at e
    split at e
    · cases e; exact ⟨h _ _ _ hp, ‹_›⟩
    · cases e
  | error => rw [hp] at e; cases e
  | failure => rw [hp] at e; cases e
  | fuel => rw [hp] at e; cases e

theorem Yields.token (h : Yields p P) : Yields (token p) P := fun _ _ _ e => h _ _ _ e

theorem Yields.manyLoop (h : Yields p P) : ∀ n, Yields (manyLoop p n) fun as => ∀ a ∈ as, P a
  | 0 => by intro s a r e; cases e
  | n + 1 => by
    intro s as r e
    unfold Grammar.manyLoop at e
    cases hp : p s with
    | ok b r' =>
      rw [hp] at e
      simp only at e
      split at e
      · cases hm : Grammar.manyLoop p n r' with
        | ok bs r'' =>
          rw [hm] at e
          cases e
          have := Yields.manyLoop h n _ _ _ hm
          intro a ha
          rcases List.mem_cons.1 ha with rfl | ha
          · exact h _ _ _ hp
          · exact this a ha
        | error => rw [hm] at e; cases e
        | failure => rw [hm] at e; cases e
        | fuel => rw [hm] at e; cases e
      · cases e
    | error => rw [hp] at e; cases e; simp
    | failure => rw [hp] at e; cases e
    | fuel => rw [hp] at e; cases e

theorem Yields.many0 (h : Yields p P) : Yields (many0 p) fun as => ∀ a ∈ as, P a :=
  fun _ _ _ e => h.manyLoop _ _ _ _ e

/-- A non-empty list of such values. -/
def Some1 (P : α → Prop) (as : List α) : Prop := as ≠ [] ∧ ∀ a ∈ as, P a

theorem some1_cons {a : α} {as : List α} (h : P a) (h' : ∀ b ∈ as, P b) : Some1 P (a :: as) :=
  ⟨by simp, fun b hb => by
    rcases List.mem_cons.1 hb with rfl | hb
    · exact h
    · exact h' b hb⟩

theorem Yields.many1 (h : Yields p P) : Yields (many1 p) (Some1 P) :=
  h.bind fun _ ha => h.many0.bind fun _ has => yields_pure (some1_cons ha has)

theorem Yields.separated1 {sep : Parser Unit} (h : Yields p P) : Yields (separated1 sep p) (Some1 P) :=
  h.bind fun _ ha => (Yields.many0 (yields_then fun _ => h)).bind fun _ has =>
    yields_pure (some1_cons ha has)

theorem Yields.list1 {sep : Parser Unit} (h : Yields p P) : Yields (list1 sep p) (Some1 P) :=
  h.separated1.bind fun _ ha => yields_then fun _ => yields_pure ha

theorem Yields.list0 {sep : Parser Unit} (h : Yields p P) :
    Yields (list0 sep p) fun as => ∀ a ∈ as, P a := by
  refine Yields.bind (P := fun as => ∀ a ∈ as, P a)
    ((h.separated1.mono fun _ h => h.2).orElse (yields_pure (P := fun as => ∀ a ∈ as, P a) (by simp)))
    fun as has => ?_
  split
  · exact yields_pure has
  · exact yields_then fun _ => yields_pure has

end

/-! ## Names and literals -/

theorem mem_takeWhile_true {f : Char → Bool} : ∀ {s : List Char} {d : Char}, d ∈ s.takeWhile f → f d = true
  | [], _, h => by cases h
  | c :: s, d, h => by
    rw [List.takeWhile_cons] at h
    split at h
    · cases h with
      | head => assumption
      | tail _ h => exact mem_takeWhile_true h
    · cases h

theorem yields_rawIdentifier : Yields rawIdentifier IsIdentifier := by
  intro s x r e
  have hv : Yields rawIdentifier fun a => (∃ c s, a = c :: s ∧ (c.isAlpha = true ∨ c = '_') ∧
      ∀ d ∈ s, isWord d = true) ∧ (!keywords.contains a) = true := by
    refine Yields.verify ?_
    intro s a r e
    cases s with
    | nil => cases e
    | cons c s =>
      simp only [uncheckedIdentifier] at e
      split at e
      · rename_i h
        cases e
        refine ⟨c, _, rfl, by simpa using h, ?_⟩
        intro d hd
        exact mem_takeWhile_true hd
      · cases e
  obtain ⟨⟨c, t, rfl, h1, h2⟩, h3⟩ := hv s x r e
  exact ⟨c, t, rfl, h1, h2, by simpa using h3⟩

theorem yields_identifier : Yields identifier IsIdentifier := yields_rawIdentifier.token

theorem yields_qualified : Yields (token qualifiedIdentifier) IsQualified := by
  refine Yields.token ?_
  refine yields_rawIdentifier.bind fun x hx => ?_
  refine (Yields.opt (yields_then fun _ => yields_rawIdentifier.cut)).bind fun y hy => ?_
  cases y with
  | none => exact yields_pure (.inl hx)
  | some y => exact yields_pure (.inr ⟨x, y, rfl, hx, hy y rfl⟩)

theorem yields_chars1 (f : Char → Bool) : Yields (chars1 f) fun d => d ≠ [] ∧ ∀ c ∈ d, f c = true := by
  intro s d r e
  unfold chars1 at e
  split at e
  · rename_i h
    cases e
    refine ⟨?_, fun c hc => mem_takeWhile_true hc⟩
    cases s with
    | nil => cases h
    | cons c s =>
      have h : f c = true := h
      simp [h]
  · cases e

theorem yields_oneOf (f : Char → Bool) : Yields (oneOf f) fun c => f c = true := by
  intro s c r e
  cases s with
  | nil => cases e
  | cons d s =>
    simp only [oneOf] at e
    split at e
    · cases e; assumption
    · cases e

theorem isSign_opt {o : Option Char} (h : ∀ c, o = some c → (c = '+' || c = '-') = true) :
    IsSign (optText o) := by
  cases o with
  | none => exact .inl rfl
  | some c =>
    have := h c rfl
    simp at this
    rcases this with rfl | rfl
    · exact .inr (.inl rfl)
    · exact .inr (.inr rfl)

theorem yields_mantissa : Yields mantissa fun m =>
    IsDigits m ∨ (∃ d, m = d ++ ['.'] ∧ IsDigits d) ∨
      (∃ d f, m = d ++ '.' :: f ∧ IsDigits d ∧ IsDigits f) ∨ (∃ f, m = '.' :: f ∧ IsDigits f) := by
  refine Yields.orElse ?_ ?_
  · refine (yields_chars1 _).bind fun d hd => ?_
    refine (Yields.opt (P := fun t => t = ['.'] ∨ ∃ f, t = '.' :: f ∧ IsDigits f) ?_).bind
      fun f hf => yields_pure ?_
    · refine (yields_oneOf _).bind fun c hc => ?_
      refine (yields_chars1 _).opt.bind fun f hf => yields_pure ?_
      simp at hc
      subst hc
      cases f with
      | none => exact .inl rfl
      | some f => exact .inr ⟨f, rfl, hf f rfl⟩
    · cases f with
      | none => left; simpa [IsDigits] using hd
      | some f =>
        rcases hf f rfl with rfl | ⟨f, rfl, h⟩
        · exact .inr (.inl ⟨d, rfl, hd⟩)
        · exact .inr (.inr (.inl ⟨d, f, rfl, hd, h⟩))
  · refine (yields_oneOf _).bind fun c hc => ?_
    refine (yields_chars1 _).bind fun f hf => yields_pure ?_
    simp at hc
    subst hc
    exact .inr (.inr (.inr ⟨f, rfl, hf⟩))

theorem yields_exponent : Yields exponent fun e =>
    ∃ x sgn' d, e = x :: (sgn' ++ d) ∧ (x = 'e' ∨ x = 'E') ∧ IsSign sgn' ∧ IsDigits d := by
  refine (yields_oneOf _).bind fun c hc => ?_
  refine (yields_oneOf _).opt.bind fun o ho => ?_
  refine (yields_chars1 _).cut.bind fun d hd => yields_pure ?_
  exact ⟨c, optText o, d, rfl, by simpa using hc, isSign_opt ho, hd⟩

theorem yields_float : Yields recognizeFloat IsDecimal := by
  rw [recognizeFloat_eq]
  refine (yields_oneOf _).opt.bind fun o ho => ?_
  refine yields_mantissa.bind fun m hm => ?_
  refine yields_exponent.opt.bind fun e he => yields_pure ?_
  refine ⟨optText o, m, e.getD [], rfl, isSign_opt ho, hm, ?_⟩
  cases e with
  | none => exact .inl rfl
  | some e => exact .inr (he e rfl)

theorem hex_lower {c : Char} (h : isHex c = true) :
    isHex c.toLower = true ∧ c.toLower.isUpper = false := by
  have all : ∀ c ∈ "0123456789abcdefABCDEF".toList,
      isHex c.toLower = true ∧ c.toLower.isUpper = false := by decide
  exact all c (hex_cases h)

theorem yields_number : Yields number IsNumber := by
  refine Yields.token (Yields.bind (yields_alt fun p hp => ?_) fun n hn =>
    yields_then fun _ => yields_pure hn)
  simp only [List.mem_cons, List.not_mem_nil, or_false] at hp
  rcases hp with rfl | rfl | rfl
  · refine yields_then fun _ => (yields_chars1 _).cut.bind fun d hd => yields_pure ?_
    exact ⟨hd.1, by simpa using hd.2⟩
  · refine yields_then fun _ => (yields_chars1 _).cut.bind fun d hd => yields_pure ?_
    refine ⟨by simpa using hd.1, fun c hc => ?_⟩
    obtain ⟨a, ha, rfl⟩ := List.mem_map.1 hc
    exact hex_lower (hd.2 a ha)
  · exact yields_float.bind fun t ht => yields_pure ht

theorem yields_stringPiece : Yields stringPiece IsStringPiece := by
  intro s p r e
  cases s with
  | nil => cases e
  | cons c s =>
    simp only [stringPiece] at e
    split at e
    · cases e
    · split at e
      · rename_i h1 h2
        subst h2
        cases s with
        | nil => cases e
        | cons d s =>
          simp only at e
          split at e
          · rename_i h3
            cases e
            refine .inr (.inl ⟨d, rfl, ?_⟩)
            simp only [Bool.or_eq_true, decide_eq_true_eq] at h3
            rcases h3 with (((h | h) | h) | h) | h <;> simp [h]
          · split at e
            · rename_i h3
              subst h3
              match s, e with
              | h :: l :: s, e =>
                simp only at e
                split at e
                · rename_i h4
                  cases e
                  simp only [Bool.and_eq_true] at h4
                  exact .inr (.inr ⟨h, l, rfl, h4.1, h4.2⟩)
                · cases e
              | [_], e => cases e
              | [], e => cases e
            · cases e
      · cases e
        exact .inl ⟨c, rfl, ‹_›, ‹_›⟩

theorem yields_string : Yields stringLiteral IsStringText := by
  refine Yields.token (yields_then fun _ => Yields.cut ?_)
  exact yields_stringPiece.many0.bind fun ps hps => yields_then fun _ => yields_pure ⟨ps, rfl, hps⟩

/-! ## Types -/

/-- The values of the recursive nonterminals. -/
structure Makes (g : G) : Prop where
  expression : Yields g.expression Expr.Made
  operand : Yields g.operand Expr.Made
  type : Yields g.type Ty.Made

theorem allMadeTypes_iff (ts : List Ty) : allMadeTypes ts ↔ ∀ t ∈ ts, t.Made := by
  induction ts with
  | nil => simp [allMadeTypes]
  | cons t ts ih => simp [allMadeTypes, ih]

theorem yields_atomicType {g : G} (h : Makes g) : Yields (atomicType g) Ty.Made := by
  refine yields_alt fun p hp => ?_
  simp only [List.mem_cons, List.not_mem_nil, or_false] at hp
  rcases hp with rfl | rfl | rfl | rfl
  · exact yields_qualified.bind fun x hx => yields_pure (by simpa [Ty.Made] using hx)
  · refine yields_then fun _ => (Yields.cut (h.type.bind fun t ht => yields_then fun _ =>
      yields_pure ?_))
    simpa [Ty.Made] using ht
  · refine yields_then fun _ => (Yields.cut (h.type.bind fun t ht => yields_then fun _ =>
      h.type.bind fun u hu => yields_then fun _ => yields_pure ?_))
    exact show (Ty.map t u).Made by simp only [Ty.Made]; exact ⟨ht, hu⟩
  · exact yields_then fun _ => (Yields.cut (h.type.bind fun t ht => yields_then fun _ =>
      yields_pure ht))

theorem foldl_union {ts : List Ty} : ∀ {t : Ty}, t.Made → (∀ u ∈ ts, u.Made) →
    (ts.foldl .union t).Made := by
  induction ts with
  | nil => intro t h _; exact h
  | cons u us ih =>
    intro t h h'
    refine ih ?_ fun v hv => h' v (by simp [hv])
    simp only [Ty.Made]
    exact ⟨h, h' u (by simp)⟩

theorem yields_type {g : G} (h : Makes g) : Yields (type g) Ty.Made := by
  refine yields_alt fun p hp => ?_
  simp only [List.mem_cons, List.not_mem_nil, or_false] at hp
  rcases hp with rfl | rfl
  · refine yields_then fun _ => Yields.cut (h.type.list0.bind fun ts hts => yields_then fun _ =>
      h.type.bind fun t ht => yields_pure ?_)
    exact show (Ty.function ts t).Made by
      simp only [Ty.Made, allMadeTypes_iff]; exact ⟨hts, ht⟩
  · refine (yields_atomicType h).separated1.bind fun ts hts => yields_pure ?_
    cases ts with
    | nil => exact absurd rfl hts.1
    | cons t ts => exact foldl_union (hts.2 t (by simp)) fun u hu => hts.2 u (by simp [hu])

/-! ## Blocks -/

def MadeStatement : Statement → Prop
  | .mk x e => (∀ y, x = some y → IsIdentifier y) ∧ e.Made

theorem allMadeStatements_iff (ss : List Statement) :
    allMadeStatements ss ↔ ∀ s ∈ ss, MadeStatement s := by
  induction ss with
  | nil => simp [allMadeStatements]
  | cons s ss ih => cases s; simp [allMadeStatements, ih, MadeStatement, and_assoc]

theorem allMade_iff (es : List Expr) : allMade es ↔ ∀ e ∈ es, e.Made := by
  induction es with
  | nil => simp [allMade]
  | cons e es ih => simp [allMade, ih]

theorem yields_statement {g : G} (h : Makes g) : Yields (statement g) MadeStatement := by
  refine Yields.bind (P := fun x => ∀ y, x = some y → IsIdentifier y) ?_ fun x hx =>
    h.expression.bind fun e he => yields_pure ⟨hx, he⟩
  exact Yields.opt (yields_identifier.bind fun x hx => yields_then fun _ => yields_pure hx)

theorem toBlock_made {ss : List Statement} (hne : ss ≠ []) (h : ∀ s ∈ ss, MadeStatement s) :
    (toBlock ss).Made := by
  unfold toBlock
  cases hl : ss.getLast? with
  | none => rw [List.getLast?_eq_none_iff] at hl; exact absurd hl hne
  | some s =>
    obtain ⟨x, e⟩ := s
    have hm := List.mem_of_getLast? hl
    simp only [Block.Made, allMadeStatements_iff]
    exact ⟨fun s hs => h s (List.dropLast_subset _ hs), (h _ hm).2⟩

theorem yields_block {g : G} (h : Makes g) : Yields (block g) Block.Made := by
  refine yields_then fun _ => Yields.cut ?_
  refine (yields_statement h).many1.verify.bind fun ss hss => yields_then fun _ => yields_pure ?_
  exact toBlock_made hss.1.1 hss.1.2

/-! ## Expressions -/

def MadeArgument (a : Name × Ty) : Prop := IsIdentifier a.1 ∧ a.2.Made

theorem yields_argument {g : G} (h : Makes g) : Yields (argument g) MadeArgument :=
  yields_identifier.bind fun _ hx => h.type.cut.bind fun _ ht => yields_pure ⟨hx, ht⟩

theorem yields_lambda {g : G} (h : Makes g) : Yields (lambda g) fun l => l.expression.Made := by
  refine yields_then fun _ => Yields.cut ?_
  refine (yields_argument h).list0.bind fun as has => yields_then fun _ => ?_
  refine h.type.bind fun t ht => (yields_block h).bind fun b hb => yields_pure ?_
  simp only [Lambda.expression, Expr.Made]
  exact ⟨has, ht, hb⟩

def MadeBranch : Branch → Prop
  | .mk c b => c.Made ∧ b.Made

theorem allMadeBranches_iff (bs : List Branch) : allMadeBranches bs ↔ ∀ b ∈ bs, MadeBranch b := by
  induction bs with
  | nil => simp [allMadeBranches]
  | cons b bs ih => cases b; simp [allMadeBranches, ih, MadeBranch, and_assoc]

theorem yields_ifBranch {g : G} (h : Makes g) : Yields (ifBranch g) MadeBranch :=
  h.expression.bind fun _ he => (yields_block h).bind fun _ hb => yields_pure ⟨he, hb⟩

theorem yields_elseIf {α : Type} {p : Parser α} {P : α → Prop} (h : Yields p P) :
    Yields (elseIf p) P := yields_then fun _ => yields_then fun _ => h.cut

theorem forall_cons {α : Type} {P : α → Prop} {a : α} {as : List α} (h : P a)
    (h' : ∀ b ∈ as, P b) : ∀ b ∈ a :: as, P b := (some1_cons h h').2

theorem yields_if {g : G} (h : Makes g) : Yields (ifExpression g) Expr.Made := by
  refine yields_then fun _ => Yields.cut ?_
  refine (yields_ifBranch h).bind fun b hb => ?_
  refine (yields_elseIf (yields_ifBranch h)).many0.bind fun bs hbs => yields_then fun _ => ?_
  refine (yields_block h).bind fun e he => yields_pure ?_
  simp only [Expr.Made, allMadeBranches_iff]
  exact ⟨by simp, forall_cons hb hbs, he⟩

theorem yields_ifList {g : G} (h : Makes g) : Yields (ifList g) Expr.Made := by
  refine yields_then fun _ => yields_then fun _ => Yields.cut ?_
  refine yields_identifier.bind fun x hx => yields_then fun _ => yields_then fun _ => ?_
  refine yields_identifier.bind fun y hy => yields_then fun _ => yields_then fun _ => ?_
  refine h.expression.bind fun e he => (yields_block h).bind fun t ht => yields_then fun _ => ?_
  refine (yields_block h).bind fun f hf => yields_pure ?_
  simp only [Expr.Made]
  exact ⟨he, hx, hy, ht, hf⟩

theorem yields_ifMap {g : G} (h : Makes g) : Yields (ifMap g) Expr.Made := by
  refine yields_then fun _ => yields_identifier.bind fun x hx => yields_then fun _ => ?_
  refine h.expression.bind fun m hm => yields_then fun _ => Yields.cut ?_
  refine h.expression.bind fun k hk => yields_then fun _ => ?_
  refine (yields_block h).bind fun t ht => yields_then fun _ => ?_
  refine (yields_block h).bind fun f hf => yields_pure ?_
  simp only [Expr.Made]
  exact ⟨hx, hm, hk, ht, hf⟩

def MadeTypeBranch : TypeBranch → Prop
  | .mk t b => t.Made ∧ b.Made

theorem allMadeTypeBranches_iff (bs : List TypeBranch) :
    allMadeTypeBranches bs ↔ ∀ b ∈ bs, MadeTypeBranch b := by
  induction bs with
  | nil => simp [allMadeTypeBranches]
  | cons b bs ih => cases b; simp [allMadeTypeBranches, ih, MadeTypeBranch, and_assoc]

theorem yields_ifTypeBranch {g : G} (h : Makes g) : Yields (ifTypeBranch g) MadeTypeBranch :=
  h.type.bind fun _ he => (yields_block h).bind fun _ hb => yields_pure ⟨he, hb⟩

theorem yields_ifType {g : G} (h : Makes g) : Yields (ifType g) Expr.Made := by
  refine yields_then fun _ => yields_identifier.bind fun x hx => yields_then fun _ => ?_
  refine h.expression.bind fun e he => yields_then fun _ => Yields.cut ?_
  refine (yields_ifTypeBranch h).bind fun b hb => ?_
  refine (yields_elseIf (yields_ifTypeBranch h)).many0.bind fun bs hbs => ?_
  refine (Yields.opt (yields_then fun _ => yields_block h)).bind fun f hf => yields_pure ?_
  simp only [Expr.Made, allMadeTypeBranches_iff]
  refine ⟨hx, he, by simp, forall_cons hb hbs, ?_⟩
  cases f with
  | none => simp [madeElse]
  | some b => simp only [madeElse]; exact hf b rfl

def MadeField : Field → Prop
  | .mk x e => IsIdentifier x ∧ e.Made

theorem allMadeFields_iff (fs : List Field) : allMadeFields fs ↔ ∀ f ∈ fs, MadeField f := by
  induction fs with
  | nil => simp [allMadeFields]
  | cons f fs ih => cases f; simp [allMadeFields, ih, MadeField, and_assoc]

theorem yields_recordField {g : G} (h : Makes g) : Yields (recordField g) MadeField :=
  yields_identifier.bind fun _ hx => yields_then fun _ => h.expression.cut.bind fun _ he =>
    yields_pure ⟨hx, he⟩

theorem yields_record {g : G} (h : Makes g) : Yields (record g) Expr.Made := by
  refine yields_qualified.bind fun x hx => yields_then fun _ => ?_
  refine (Yields.verify (P := fun r : Option Expr × List Field => madeOption r.1 ∧
    (r.1.isSome = true → r.2 ≠ []) ∧ ∀ f ∈ r.2, MadeField f) (Yields.orElse ?_ ?_)).bind
      fun r hr => yields_then fun _ => yields_pure ?_
  · refine yields_then fun _ => Yields.cut (h.expression.bind fun e he => yields_then fun _ =>
      (yields_recordField h).list1.bind fun fs hfs => yields_pure ?_)
    simp only [madeOption]
    exact ⟨he, fun _ => hfs.1, hfs.2⟩
  · refine (yields_recordField h).list0.bind fun fs hfs => yields_pure ?_
    simp only [madeOption]
    exact ⟨trivial, by simp, hfs⟩
  · obtain ⟨⟨h1, h2, h3⟩, h4⟩ := hr
    simp only [Expr.Made, allMadeFields_iff]
    exact ⟨hx, h1, h2, h3, by simpa [distinct] using h4⟩

def MadeListElement : ListElement → Prop
  | .multiple e => e.Made
  | .single e => e.Made

theorem allMadeListElements_iff (es : List ListElement) :
    allMadeListElements es ↔ ∀ e ∈ es, MadeListElement e := by
  induction es with
  | nil => simp [allMadeListElements]
  | cons e es ih => cases e <;> simp [allMadeListElements, ih, MadeListElement]

theorem yields_listElement {g : G} (h : Makes g) : Yields (listElement g) MadeListElement :=
  Yields.orElse
    (yields_then fun _ => h.expression.cut.bind fun _ he => yields_pure he)
    (h.expression.bind fun _ he => yields_pure he)

theorem yields_list {g : G} (h : Makes g) : Yields (listLiteral g) Expr.Made := by
  refine yields_then fun _ => Yields.cut (h.type.bind fun t ht => ?_)
  refine (yields_listElement h).list0.bind fun es hes => yields_then fun _ => yields_pure ?_
  simp only [Expr.Made, allMadeListElements_iff]
  exact ⟨ht, hes⟩

def MadeCompBranch : CompBranch → Prop
  | .mk xs es c =>
    xs ≠ [] ∧ (∀ x ∈ xs, IsIdentifier x) ∧ es ≠ [] ∧ (∀ e ∈ es, e.Made) ∧ madeOption c

theorem allMadeCompBranches_iff (bs : List CompBranch) :
    allMadeCompBranches bs ↔ ∀ b ∈ bs, MadeCompBranch b := by
  induction bs with
  | nil => simp [allMadeCompBranches]
  | cons b bs ih =>
    cases b
    simp only [allMadeCompBranches, allMade_iff, ih, List.mem_cons, forall_eq_or_imp,
      MadeCompBranch, and_assoc]

theorem yields_compBranch {g : G} (h : Makes g) : Yields (compBranch g) MadeCompBranch := by
  refine yields_then fun _ => Yields.cut (yields_identifier.list1.bind fun xs hxs => ?_)
  refine yields_then fun _ => h.expression.list1.bind fun es hes => ?_
  refine (Yields.opt (yields_then fun _ => h.expression)).bind fun c hc => yields_pure ?_
  refine ⟨hxs.1, hxs.2, hes.1, hes.2, ?_⟩
  cases c with
  | none => simp [madeOption]
  | some c => simp only [madeOption]; exact hc c rfl

theorem yields_comprehension {g : G} (h : Makes g) : Yields (comprehension g) Expr.Made := by
  refine yields_then fun _ => h.type.bind fun t ht => h.expression.bind fun e he => ?_
  refine (yields_compBranch h).many1.bind fun bs hbs => yields_then fun _ => yields_pure ?_
  simp only [Expr.Made, allMadeCompBranches_iff]
  exact ⟨ht, he, hbs.1, hbs.2⟩

def MadeMapElement : MapElement → Prop
  | .multiple e => e.Made
  | .entry k v => k.Made ∧ v.Made

theorem allMadeMapElements_iff (es : List MapElement) :
    allMadeMapElements es ↔ ∀ e ∈ es, MadeMapElement e := by
  induction es with
  | nil => simp [allMadeMapElements]
  | cons e es ih => cases e <;> simp [allMadeMapElements, ih, MadeMapElement, and_assoc]

theorem yields_mapElement {g : G} (h : Makes g) : Yields (mapElement g) MadeMapElement :=
  Yields.orElse
    (h.expression.bind fun _ hk => yields_then fun _ => h.expression.cut.bind fun _ hv =>
      yields_pure ⟨hk, hv⟩)
    (yields_then fun _ => h.expression.cut.bind fun _ he => yields_pure he)

theorem yields_map {g : G} (h : Makes g) : Yields (mapLiteral g) Expr.Made := by
  refine yields_then fun _ => Yields.cut (h.type.bind fun k hk => yields_then fun _ => ?_)
  refine h.type.bind fun v hv => (yields_mapElement h).list0.bind fun es hes => ?_
  refine yields_then fun _ => yields_pure ?_
  simp only [Expr.Made, allMadeMapElements_iff]
  exact ⟨hk, hv, hes⟩

theorem yields_atomic {g : G} (h : Makes g) : Yields (atomic g) Expr.Made := by
  refine yields_alt fun p hp => ?_
  simp only [List.mem_cons, List.not_mem_nil, or_false] at hp
  rcases hp with rfl | rfl | rfl | rfl | rfl | rfl | rfl | rfl | rfl | rfl | rfl | rfl | rfl
  · exact (yields_lambda h).bind fun _ hl => yields_pure hl
  · exact yields_ifType h
  · exact yields_ifList h
  · exact yields_ifMap h
  · exact yields_if h
  · exact yields_record h
  · exact yields_comprehension h
  · exact yields_list h
  · exact yields_map h
  · exact yields_number.bind fun _ hn => yields_pure (by simpa [Expr.Made] using hn)
  · exact yields_string.bind fun _ hn => yields_pure (by simpa [Expr.Made] using hn)
  · exact yields_qualified.bind fun _ hn => yields_pure (by simpa [Expr.Made] using hn)
  · exact yields_then fun _ => h.expression.bind fun _ he => yields_then fun _ => yields_pure he

def MadeSuffix : Suffix → Prop
  | .call as => ∀ a ∈ as, a.Made
  | .field x => IsIdentifier x
  | .try_ => True

theorem yields_suffix {g : G} (h : Makes g) : Yields (suffixOperator g) MadeSuffix := by
  refine yields_alt fun p hp => ?_
  simp only [List.mem_cons, List.not_mem_nil, or_false] at hp
  rcases hp with rfl | rfl | rfl
  · exact yields_then fun _ => Yields.cut (h.expression.list0.bind fun as has => yields_then fun _ =>
      yields_pure has)
  · exact yields_then fun _ => yields_identifier.cut.bind fun x hx => yields_pure hx
  · exact yields_then fun _ => yields_pure trivial

theorem apply_made {e : Expr} (he : e.Made) : ∀ {s : Suffix}, MadeSuffix s → (s.apply e).Made
  | .call as, h => by simp only [Suffix.apply, Expr.Made, allMade_iff]; exact ⟨he, h⟩
  | .field x, h => by simp only [Suffix.apply, Expr.Made]; exact ⟨he, h⟩
  | .try_, _ => by simp only [Suffix.apply, Expr.Made]; exact he

theorem foldl_made {ss : List Suffix} : ∀ {e : Expr}, e.Made → (∀ s ∈ ss, MadeSuffix s) →
    (ss.foldl Suffix.apply e).Made := by
  induction ss with
  | nil => intro e h _; exact h
  | cons s ss ih =>
    intro e h h'
    exact ih (apply_made h (h' s (by simp))) fun t ht => h' t (by simp [ht])

theorem yields_operand {g : G} (h : Makes g) : Yields (operand g) Expr.Made := by
  refine Yields.orElse ?_ ?_
  · refine yields_then fun _ => h.operand.cut.bind fun e he => yields_pure ?_
    simp only [Expr.Made]
    exact he
  · exact (yields_atomic h).bind fun a ha => (yields_suffix h).many0.bind fun ss hss =>
      yields_pure (foldl_made ha hss)

theorem reduceOperations_made : ∀ (n : Nat) (ps : List (BinOp × Expr)), ps.length ≤ n →
    ∀ {e : Expr}, e.Made → (∀ p ∈ ps, p.2.Made) → (reduceOperations .binary e ps).Made := by
  intro n ps _ e he hps
  obtain ⟨u, _, hf, hp, hr⟩ := reduceOperations_grouped (E := Expr) .binary ps.length ps
    (Nat.le_refl _) (.leaf e) trivial (fun _ _ _ h => by cases h)
  have hmade : ∀ t : Tree Expr, t.first.Made → (∀ p ∈ t.pairs, p.2.Made) →
      (t.expression .binary).Made := by
    intro t
    induction t with
    | leaf e => intro h _; exact h
    | node o l r ihl ihr =>
      intro h h'
      simp only [Tree.expression, Expr.Made]
      exact ⟨ihl h fun p hp => h' p (by simp [Tree.pairs, hp]),
        ihr (h' (o, r.first) (by simp [Tree.pairs])) fun p hp => h' p (by simp [Tree.pairs, hp])⟩
  have hr : reduceOperations .binary e ps = u.expression .binary := hr
  rw [hr]
  refine hmade u (by rw [hf]; exact he) fun p hp' => ?_
  rw [hp] at hp'
  exact hps p (by simpa [Tree.pairs] using hp')

theorem yields_expression {g : G} (h : Makes g) : Yields (expression g) Expr.Made := by
  refine (yields_operand h).bind fun e he => ?_
  refine (Yields.many0 (P := fun p : BinOp × Expr => p.2.Made) (yields_then fun _ =>
    (yields_operand h).cut.bind fun e he => yields_pure he)).bind fun ps hps => yields_pure ?_
  exact reduceOperations_made _ ps (Nat.le_refl _) he hps

theorem makes : ∀ n, Makes (grammar n)
  | 0 => ⟨(fun _ _ _ e => by cases e), (fun _ _ _ e => by cases e), (fun _ _ _ e => by cases e)⟩
  | n + 1 => ⟨yields_expression (makes n), yields_operand (makes n), yields_type (makes n)⟩

/-! ## Modules -/

theorem yields_pathComponents {c : Parser Name} {P : Name → Prop} (h : Yields c P) :
    Yields (pathComponents c) (Some1 P) :=
  Yields.many1 (yields_then fun _ => h)

theorem yields_path : Yields modulePath PlainPath := by
  refine Yields.token (Yields.orElse ?_ ?_)
  · refine yields_identifier.bind fun p hp => ?_
    refine (yields_pathComponents yields_identifier.verify).cut.bind
      fun cs hcs => yields_pure ?_
    exact ⟨hp, hcs.1, hcs.2⟩
  · exact (yields_pathComponents yields_identifier).bind fun cs hcs =>
      yields_pure ⟨hcs.1, hcs.2⟩

theorem yields_import : Yields import_ PlainImport := by
  refine yields_then fun _ => yields_path.bind fun p hp => Yields.cut ?_
  refine (Yields.opt (yields_then fun _ => yields_identifier)).bind fun a ha => ?_
  refine (Yields.opt (yields_then fun _ => yields_identifier.list1.bind fun ns hns =>
    yields_then fun _ => yields_pure (P := Some1 IsIdentifier) hns)).bind fun ns hns => yields_pure ?_
  refine ⟨hp, ha, ?_⟩
  cases ns with
  | none => simp
  | some ns => exact (hns ns rfl).2

theorem yields_foreignImport {g : G} (h : Makes g) :
    Yields (foreignImport g) fun i => IsIdentifier i.name ∧ i.type.Made := by
  refine yields_then fun _ => yields_then fun _ => Yields.cut (yields_then fun _ => ?_)
  exact yields_identifier.bind fun x hx => h.type.bind fun t ht => yields_pure ⟨hx, ht⟩

theorem yields_typeDefinition {g : G} (h : Makes g) :
    Yields (orElse (typeAlias g) (recordDefinition g)) MadeTypeDefinition := by
  refine Yields.orElse ?_ ?_
  · exact yields_then fun _ => yields_identifier.bind fun x hx => yields_then fun _ =>
      h.type.cut.bind fun t ht => yields_pure ⟨hx, ht⟩
  · refine yields_then fun _ => yields_identifier.bind fun x hx => yields_then fun _ => Yields.cut ?_
    refine (Yields.many0 (P := MadeArgument) (yields_identifier.bind fun x hx =>
      h.type.bind fun t ht => yields_pure ⟨hx, ht⟩)).bind fun fs hfs => yields_then fun _ => ?_
    exact yields_pure ⟨hx, hfs⟩

theorem yields_function {g : G} (h : Makes g) : Yields (functionDefinition g) fun d =>
    IsIdentifier d.name ∧ d.lambda.expression.Made :=
  yields_then fun _ => yields_identifier.bind fun _ hx => yields_then fun _ =>
    (yields_lambda h).cut.bind fun _ hl => yields_pure ⟨hx, hl⟩

theorem yields_module {g : G} (h : Makes g) : Yields (module_ g) Module.Made :=
  yields_import.many0.bind fun _ h1 => (yields_foreignImport h).many0.bind fun _ h2 =>
    (yields_typeDefinition h).many0.bind fun _ h3 => (yields_function h).many0.bind fun _ h4 =>
      yields_pure ⟨h1, h2, h3, h4⟩

/-- What the parser makes. -/
theorem parse_made {s : List Char} {m : Module} (h : parse s = some m) : m.Made := by
  unfold parse at h
  split at h
  · rename_i m' r hm
    split at h
    · cases h
      exact yields_module (makes _) _ _ _ hm
    · cases h
  · cases h

/-! ## What the formatter keeps of it -/

mutual

theorem plainType_of : ∀ t : Ty, t.Made → t.Safe → t.Plain
  | .function as r, h, h' => by
    simp only [Ty.Made, Ty.Safe, Ty.Plain] at *
    exact ⟨plainTypes_of as h.1 h'.1, plainType_of r h.2 h'.2⟩
  | .list t, h, h' => by
    simp only [Ty.Made, Ty.Safe, Ty.Plain] at *
    exact plainType_of t h h'
  | .map k v, h, h' => by
    simp only [Ty.Made, Ty.Safe, Ty.Plain] at *
    exact ⟨plainType_of k h.1 h'.1, plainType_of v h.2 h'.2⟩
  | .reference x, h, _ => by
    simp only [Ty.Made, Ty.Plain] at *
    exact h
  | .union l r, h, h' => by
    simp only [Ty.Made, Ty.Safe, Ty.Plain] at *
    exact ⟨plainType_of l h.1 h'.1, plainType_of r h.2 h'.2.1, h'.2.2⟩

theorem plainTypes_of : ∀ ts : List Ty, allMadeTypes ts → allSafeTypes ts → allPlainTypes ts
  | [], _, _ => by simp [allPlainTypes]
  | t :: ts, h, h' => by
    simp only [allMadeTypes, allSafeTypes, allPlainTypes] at *
    exact ⟨plainType_of t h.1 h'.1, plainTypes_of ts h.2 h'.2⟩

end

mutual

theorem plain_of : ∀ e : Expr, e.Made → e.Safe → e.Plain
  | .binary o l r, h, h' => by
    simp only [Expr.Made, Expr.Safe, Expr.Plain] at *
    exact ⟨plain_of l h.1 h'.1, plain_of r h.2 h'.2.1, h'.2.2⟩
  | .call f as, h, h' => by
    simp only [Expr.Made, Expr.Safe, Expr.Plain] at *
    exact ⟨plain_of f h.1 h'.1, h'.2.1, plainAll_of as h.2 h'.2.2⟩
  | .if_ bs e, h, h' => by
    simp only [Expr.Made, Expr.Safe, Expr.Plain] at *
    exact ⟨h'.1 h.1, plainBranches_of bs h.2.1 h'.2.1, plainBlock_of e h.2.2 h'.2.2⟩
  | .ifList l x y t e, h, h' => by
    simp only [Expr.Made, Expr.Safe, Expr.Plain] at *
    exact ⟨plain_of l h.1 h'.1, h.2.1, h.2.2.1, plainBlock_of t h.2.2.2.1 h'.2.1,
      plainBlock_of e h.2.2.2.2 h'.2.2⟩
  | .ifMap x m k t e, h, h' => by
    simp only [Expr.Made, Expr.Safe, Expr.Plain] at *
    exact ⟨h.1, plain_of m h.2.1 h'.1, plain_of k h.2.2.1 h'.2.1, plainBlock_of t h.2.2.2.1 h'.2.2.1,
      plainBlock_of e h.2.2.2.2 h'.2.2.2⟩
  | .ifType x e bs f, h, h' => by
    simp only [Expr.Made, Expr.Safe, Expr.Plain] at *
    exact ⟨h.1, plain_of e h.2.1 h'.1, h.2.2.1, plainTypeBranches_of bs h.2.2.2.1 h'.2.1,
      plainElse_of f h.2.2.2.2 h'.2.2⟩
  | .lambda as t b, h, h' => by
    simp only [Expr.Made, Expr.Safe, Expr.Plain] at *
    exact ⟨fun a ha => ⟨(h.1 a ha).1, plainType_of _ (h.1 a ha).2 (h'.1 a ha)⟩,
      plainType_of t h.2.1 h'.2.1, plainBlock_of b h.2.2 h'.2.2⟩
  | .list t es, h, h' => by
    simp only [Expr.Made, Expr.Safe, Expr.Plain] at *
    exact ⟨plainType_of t h.1 h'.1, plainListElements_of es h.2 h'.2⟩
  | .comprehension t e bs, h, h' => by
    simp only [Expr.Made, Expr.Safe, Expr.Plain] at *
    exact ⟨plainType_of t h.1 h'.1, plain_of e h.2.1 h'.2.1, h.2.2.1,
      plainCompBranches_of bs h.2.2.2 h'.2.2⟩
  | .map k v es, h, h' => by
    simp only [Expr.Made, Expr.Safe, Expr.Plain] at *
    exact ⟨plainType_of k h.1 h'.1, plainType_of v h.2.1 h'.2.1, plainMapElements_of es h.2.2 h'.2.2⟩
  | .number n, h, _ => by
    simp only [Expr.Made, Expr.Plain] at *
    exact h
  | .record x r fs, h, h' => by
    simp only [Expr.Made, Expr.Safe, Expr.Plain] at *
    exact ⟨h.1, plainOption_of r h.2.1 h'.1, h.2.2.1, plainFields_of fs h.2.2.2.1 h'.2, h.2.2.2.2⟩
  | .field r x, h, h' => by
    simp only [Expr.Made, Expr.Safe, Expr.Plain] at *
    exact ⟨plain_of r h.1 h'.1, h'.2.1, h'.2.2, h.2⟩
  | .string s, h, _ => by
    simp only [Expr.Made, Expr.Plain] at *
    exact h
  | .unary .not e, h, h' => by
    simp only [Expr.Made, Expr.Safe, Expr.Plain] at *
    exact plain_of e h h'
  | .unary .try_ e, h, h' => by
    simp only [Expr.Made, Expr.Safe, Expr.Plain] at *
    exact ⟨plain_of e h h'.1, h'.2⟩
  | .variable x, h, _ => by
    simp only [Expr.Made, Expr.Plain] at *
    exact h

theorem plainAll_of : ∀ es : List Expr, allMade es → allSafe es → allPlain es
  | [], _, _ => by simp [allPlain]
  | e :: es, h, h' => by
    simp only [allMade, allSafe, allPlain] at *
    exact ⟨plain_of e h.1 h'.1, plainAll_of es h.2 h'.2⟩

theorem plainBranches_of : ∀ bs : List Branch, allMadeBranches bs → allSafeBranches bs →
    allPlainBranches bs
  | [], _, _ => by simp [allPlainBranches]
  | .mk c b :: bs, h, h' => by
    simp only [allMadeBranches, allSafeBranches, allPlainBranches] at *
    exact ⟨plain_of c h.1 h'.1, plainBlock_of b h.2.1 h'.2.1, plainBranches_of bs h.2.2 h'.2.2⟩

theorem plainTypeBranches_of : ∀ bs : List TypeBranch, allMadeTypeBranches bs →
    allSafeTypeBranches bs → allPlainTypeBranches bs
  | [], _, _ => by simp [allPlainTypeBranches]
  | .mk t b :: bs, h, h' => by
    simp only [allMadeTypeBranches, allSafeTypeBranches, allPlainTypeBranches] at *
    exact ⟨plainType_of t h.1 h'.1, plainBlock_of b h.2.1 h'.2.1,
      plainTypeBranches_of bs h.2.2 h'.2.2⟩

theorem plainElse_of : ∀ b : Option Block, madeElse b → safeElse b → plainElse b
  | none, _, _ => by simp [plainElse]
  | some b, h, h' => by
    simp only [madeElse, safeElse, plainElse] at *
    exact plainBlock_of b h h'

theorem plainBlock_of : ∀ b : Block, b.Made → b.Safe → b.Plain
  | .mk ss e, h, h' => by
    simp only [Block.Made, Block.Safe, Block.Plain] at *
    exact ⟨plainStatements_of ss h.1 h'.1, plain_of e h.2 h'.2.1, h'.2.2⟩

theorem plainStatements_of : ∀ ss : List Statement, allMadeStatements ss → allSafeStatements ss →
    allPlainStatements ss
  | [], _, _ => by simp [allPlainStatements]
  | .mk x e :: ss, h, h' => by
    simp only [allMadeStatements, allSafeStatements, allPlainStatements] at *
    exact ⟨h.1, plain_of e h.2.1 h'.1, plainStatements_of ss h.2.2 h'.2⟩

theorem plainListElements_of : ∀ es : List ListElement, allMadeListElements es →
    allSafeListElements es → allPlainListElements es
  | [], _, _ => by simp [allPlainListElements]
  | .multiple e :: es, h, h' => by
    simp only [allMadeListElements, allSafeListElements, allPlainListElements] at *
    exact ⟨plain_of e h.1 h'.1, plainListElements_of es h.2 h'.2⟩
  | .single e :: es, h, h' => by
    simp only [allMadeListElements, allSafeListElements, allPlainListElements] at *
    exact ⟨plain_of e h.1 h'.1, plainListElements_of es h.2 h'.2⟩

theorem plainMapElements_of : ∀ es : List MapElement, allMadeMapElements es →
    allSafeMapElements es → allPlainMapElements es
  | [], _, _ => by simp [allPlainMapElements]
  | .multiple e :: es, h, h' => by
    simp only [allMadeMapElements, allSafeMapElements, allPlainMapElements] at *
    exact ⟨plain_of e h.1 h'.1, plainMapElements_of es h.2 h'.2⟩
  | .entry k v :: es, h, h' => by
    simp only [allMadeMapElements, allSafeMapElements, allPlainMapElements] at *
    exact ⟨plain_of k h.1 h'.1, plain_of v h.2.1 h'.2.1, plainMapElements_of es h.2.2 h'.2.2⟩

theorem plainOption_of : ∀ e : Option Expr, madeOption e → safeOption e → plainOption e
  | none, _, _ => by simp [plainOption]
  | some e, h, h' => by
    simp only [madeOption, safeOption, plainOption] at *
    exact plain_of e h h'

theorem plainFields_of : ∀ fs : List Field, allMadeFields fs → allSafeFields fs → allPlainFields fs
  | [], _, _ => by simp [allPlainFields]
  | .mk x e :: fs, h, h' => by
    simp only [allMadeFields, allSafeFields, allPlainFields] at *
    exact ⟨h.1, plain_of e h.2.1 h'.1, plainFields_of fs h.2.2 h'.2⟩

theorem plainCompBranches_of : ∀ bs : List CompBranch, allMadeCompBranches bs →
    allSafeCompBranches bs → allPlainCompBranches bs
  | [], _, _ => by simp [allPlainCompBranches]
  | .mk xs es c :: bs, h, h' => by
    simp only [allMadeCompBranches, allSafeCompBranches, allPlainCompBranches] at *
    exact ⟨h.1, h.2.1, h.2.2.1, plainAll_of es h.2.2.2.1 h'.1, plainOption_of c h.2.2.2.2.1 h'.2.1,
      plainCompBranches_of bs h.2.2.2.2.2 h'.2.2⟩

end

theorem Module.Made.plain {m : Module} (h : m.Made) (h' : m.Safe) : m.Plain := by
  obtain ⟨h1, h2, h3, h4⟩ := h
  obtain ⟨i1, i2, i3⟩ := h'
  refine ⟨h1, fun i hi => ⟨(h2 i hi).1, plainType_of _ (h2 i hi).2 (i1 i hi)⟩, fun d hd => ?_,
    fun d hd => ⟨(h4 d hd).1, plain_of _ (h4 d hd).2 (i3 d hd)⟩⟩
  have j1 := h3 d hd
  have j2 := i2 d hd
  cases d with
  | record x fs => exact ⟨j1.1, fun f hf => ⟨(j1.2 f hf).1, plainType_of _ (j1.2 f hf).2 (j2 f hf)⟩⟩
  | alias_ x t => exact ⟨j1.1, plainType_of t j1.2 j2⟩

end Verif.Grammar
