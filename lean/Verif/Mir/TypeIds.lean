import Verif.Mir.TypeRules

/-
Type information: which types it is generated for, and what its globals are named.

* `/repo/lib/mir/src/analysis/variant_type_collection.rs`
* `/repo/lib/mir/src/analysis/type_id.rs`
* `/repo/lib/mir-fmm/src/type_information.rs:4-39` and `/repo/lib/mir-fmm/src/lib.rs:46-48`

Sets are lists. The functions for clone, drop and synchronization in type information are left out.
-/
namespace Verif.Mir.Typed

mutual
/-- `collect_from_expression`: variant_type_collection.rs:18-110. -/
def TExpr.collect : TExpr → List Ty
  | .literal _ => []
  | .variable _ => []
  | .op (.variant τ) es => τ :: es.collect
  | .op _ es => es.collect
  | .case e as => e.collect ++ as.collect false
  | .if_ c t e => c.collect ++ t.collect ++ e.collect
  | .let_ _ _ e b => e.collect ++ b.collect
  | .letRec _ _ _ _ _ body b => body.collect ++ b.collect
  | .try_ e _ τ t => τ :: (e.collect ++ t.collect)
  | .clone _ e => e.collect
  | .drop _ e => e.collect
def TExprs.collect : TExprs → List Ty
  | .nil => []
  | .cons e es => e.collect ++ es.collect
/-- The default alternative is collected from in the loop over the other alternatives (variant_type_collection.rs:28-36),
so that it is not collected from if there are none before it. -/
def TAlts.collect (others : Bool) : TAlts → List Ty
  | .nil => []
  | .default _ e => if others then e.collect else []
  | .cons types _ e as => types ++ e.collect ++ as.collect true
end

/-- `collect`: variant_type_collection.rs:4-12. -/
def TModule.collect (m : TModule) : List Ty := m.definitions.flatMap fun d => d.body.collect

/-- The types of tags of a module. -/
def TModule.tags (m : TModule) : List Ty := m.definitions.flatMap fun d => d.body.tags

/-- Joins strings by commas. -/
def joinCommas : List (List Char) → List Char
  | [] => []
  | [s] => s
  | s :: ss => s ++ ',' :: joinCommas ss

mutual
/-- `calculate_string`: type_id.rs:15-36. -/
def Ty.chars : Ty → List Char
  | .boolean => "boolean".toList
  | .byteString => "string".toList
  | .function args r => '(' :: '\\' :: '(' :: (joinCommas (Ty.charsList args) ++ ')' :: (r.chars ++ [')']))
  | .none => "none".toList
  | .number => "number".toList
  | .record n => n.toList
  | .variant => "variant".toList
def Ty.charsList : List Ty → List (List Char)
  | [] => []
  | τ :: ts => τ.chars :: Ty.charsList ts
end

/-- `calculate`, with the hash of strings, which the standard library does not specify: type_id.rs:7-13. -/
def typeId (hash : List Char → TypeId) (τ : Ty) : TypeId := hash τ.chars

/-- `get_global_variable_name`: mir-fmm/src/type_information.rs:34-39. -/
def informationName (id : Ty → TypeId) (τ : Ty) : String := "mir:type_information:" ++ id τ

/-- The globals of type information: their names, and the functions in them: mir-fmm/src/lib.rs:46-48 and
type_information.rs:4-32. Nothing if a type has no type information (`TypeInformationNotFound`). -/
def TModule.informationGlobals (m : TModule) (id : Ty → TypeId) : Option (List (String × Name)) :=
  m.collect.mapM fun τ => (m.information.find? (·.1 == τ)).map fun x => (informationName id τ, x.2)

/-! ### Specification -/

mutual
/-- No case has a default alternative only. -/
def TExpr.noBareDefault : TExpr → Bool
  | .literal _ => true
  | .variable _ => true
  | .op _ es => es.noBareDefault
  | .case e as => e.noBareDefault && as.noBareDefault false
  | .if_ c t e => c.noBareDefault && t.noBareDefault && e.noBareDefault
  | .let_ _ _ e b => e.noBareDefault && b.noBareDefault
  | .letRec _ _ _ _ _ body b => body.noBareDefault && b.noBareDefault
  | .try_ e _ _ t => e.noBareDefault && t.noBareDefault
  | .clone _ e => e.noBareDefault
  | .drop _ e => e.noBareDefault
def TExprs.noBareDefault : TExprs → Bool
  | .nil => true
  | .cons e es => e.noBareDefault && es.noBareDefault
def TAlts.noBareDefault (others : Bool) : TAlts → Bool
  | .nil => true
  | .default _ e => others && e.noBareDefault
  | .cons _ _ e as => e.noBareDefault && as.noBareDefault true
end

/-- A name that cannot be taken for a part of another type. -/
def PlainName (n : Name) : Prop :=
  n ≠ "" ∧ n ∉ ["boolean", "string", "none", "number", "variant"] ∧ ∀ c ∈ n.toList, c ≠ '(' ∧ c ≠ ')' ∧ c ≠ ','

mutual
/-- All records of a type have such names. -/
def Ty.Plain : Ty → Prop
  | .function args r => Ty.PlainList args ∧ r.Plain
  | .record n => PlainName n
  | _ => True
def Ty.PlainList : List Ty → Prop
  | [] => True
  | τ :: ts => τ.Plain ∧ Ty.PlainList ts
end

/-! ### Collection -/

mutual
theorem mem_collect (τ : Ty) : (e : TExpr) → e.noBareDefault = true → (τ ∈ e.collect ↔ τ ∈ e.tags)
  | .literal _, _ => Iff.rfl
  | .variable _, _ => Iff.rfl
  | .op o es, h => by
      have ih := mem_collects τ es (by simpa [TExpr.noBareDefault] using h)
      cases o <;> simp [TExpr.collect, TExpr.tags, ih]
  | .case e as, h => by
      simp only [TExpr.noBareDefault, Bool.and_eq_true] at h
      simp [TExpr.collect, TExpr.tags, mem_collect τ e h.1, mem_collectAlts τ as false h.2]
  | .if_ c t e, h => by
      simp only [TExpr.noBareDefault, Bool.and_eq_true] at h
      simp [TExpr.collect, TExpr.tags, mem_collect τ c h.1.1, mem_collect τ t h.1.2, mem_collect τ e h.2]
  | .let_ _ _ e b, h => by
      simp only [TExpr.noBareDefault, Bool.and_eq_true] at h
      simp [TExpr.collect, TExpr.tags, mem_collect τ e h.1, mem_collect τ b h.2]
  | .letRec _ _ _ _ _ body b, h => by
      simp only [TExpr.noBareDefault, Bool.and_eq_true] at h
      simp [TExpr.collect, TExpr.tags, mem_collect τ body h.1, mem_collect τ b h.2]
  | .try_ e _ _ t, h => by
      simp only [TExpr.noBareDefault, Bool.and_eq_true] at h
      simp [TExpr.collect, TExpr.tags, mem_collect τ e h.1, mem_collect τ t h.2]
  | .clone _ e, h => by
      simpa [TExpr.collect, TExpr.tags] using mem_collect τ e (by simpa [TExpr.noBareDefault] using h)
  | .drop _ e, h => by
      simpa [TExpr.collect, TExpr.tags] using mem_collect τ e (by simpa [TExpr.noBareDefault] using h)
theorem mem_collects (τ : Ty) : (es : TExprs) → es.noBareDefault = true → (τ ∈ es.collect ↔ τ ∈ es.tags)
  | .nil, _ => Iff.rfl
  | .cons e es, h => by
      simp only [TExprs.noBareDefault, Bool.and_eq_true] at h
      simp [TExprs.collect, TExprs.tags, mem_collect τ e h.1, mem_collects τ es h.2]
theorem mem_collectAlts (τ : Ty) : (as : TAlts) → (b : Bool) → as.noBareDefault b = true → (τ ∈ as.collect b ↔ τ ∈ as.tags)
  | .nil, _, _ => Iff.rfl
  | .default _ e, b, h => by
      simp only [TAlts.noBareDefault, Bool.and_eq_true] at h
      simp [TAlts.collect, TAlts.tags, h.1, mem_collect τ e h.2]
  | .cons _ _ e as, b, h => by
      simp only [TAlts.noBareDefault, Bool.and_eq_true] at h
      simp [TAlts.collect, TAlts.tags, mem_collect τ e h.1, mem_collectAlts τ as true h.2]
end

/-! ### Ids -/

/-- What may follow a type. -/
def Delimited : List Char → Prop
  | [] => True
  | c :: _ => c = ',' ∨ c = ')'

theorem delimited_unique {a b s t : List Char} (ha : ∀ c ∈ a, c ≠ ',' ∧ c ≠ ')') (hb : ∀ c ∈ b, c ≠ ',' ∧ c ≠ ')')
    (hs : Delimited s) (ht : Delimited t) (h : a ++ s = b ++ t) : a = b ∧ s = t := by
  induction a generalizing b with
  | nil =>
    cases b with
    | nil => exact ⟨rfl, h⟩
    | cons c b =>
      simp only [List.nil_append, List.cons_append] at h
      subst h
      have := hb c (by simp)
      exact absurd hs (by simp [Delimited, this.1, this.2])
  | cons c a ih =>
    cases b with
    | nil =>
      simp only [List.nil_append, List.cons_append] at h
      subst h
      have := ha c (by simp)
      exact absurd ht (by simp [Delimited, this.1, this.2])
    | cons d b =>
      simp only [List.cons_append, List.cons.injEq] at h
      obtain ⟨rfl, h⟩ := h
      obtain ⟨rfl, rfl⟩ := ih (fun c hc => ha c (by simp [hc])) (fun c hc => hb c (by simp [hc])) h
      exact ⟨rfl, rfl⟩

/-- Simple types have no delimiters, and do not begin as functions do. -/
theorem word_chars {τ : Ty} (hp : τ.Plain) (hf : ∀ as r, τ ≠ .function as r) :
    (∀ c ∈ τ.chars, c ≠ '(' ∧ c ≠ ',' ∧ c ≠ ')') ∧ τ.chars ≠ [] := by
  cases τ with
  | function as r => exact absurd rfl (hf as r)
  | record n =>
    simp only [Ty.Plain, PlainName] at hp
    refine ⟨fun c hc => ?_, ?_⟩
    · have := hp.2.2 c hc
      exact ⟨this.1, this.2.2, this.2.1⟩
    · simp only [Ty.chars, ne_eq, String.toList_eq_nil_iff]
      exact hp.1
  | _ => exact ⟨by decide, by decide⟩

theorem word_inj {σ τ : Ty} (hσ : σ.Plain) (hτ : τ.Plain) (hf : ∀ as r, σ ≠ .function as r) (hf' : ∀ as r, τ ≠ .function as r)
    (h : σ.chars = τ.chars) : σ = τ := by
  have key : ∀ n : Name, PlainName n → ∀ s ∈ ["boolean", "string", "none", "number", "variant"], n.toList ≠ s.toList := by
    intro n hn s hs he
    exact hn.2.1 (by rwa [String.toList_injective he])
  cases σ <;> cases τ
  case record.record n n' => simp only [Ty.chars] at h; rw [String.toList_injective h]
  all_goals
    first
    | rfl
    | exact absurd rfl (hf _ _)
    | exact absurd rfl (hf' _ _)
    | (exfalso; exact key _ hσ _ (by decide) h)
    | (exfalso; exact key _ hτ _ (by decide) h.symm)
    | (exfalso; revert h; decide)

theorem word_function {σ : Ty} (hσ : σ.Plain) (hf : ∀ as r, σ ≠ .function as r) (as : List Ty) (r : Ty) (s t : List Char)
    (h : σ.chars ++ s = (Ty.function as r).chars ++ t) : False := by
  have := word_chars hσ hf
  cases hc : σ.chars with
  | nil => exact this.2 hc
  | cons c cs =>
    rw [hc] at h
    simp only [Ty.chars, List.cons_append, List.cons.injEq] at h
    exact (this.1 c (by simp [hc])).1 h.1

theorem word_case {σ : Ty} (hσ : σ.Plain) (hf : ∀ as r, σ ≠ .function as r) {τ : Ty} (hτ : τ.Plain) {s t : List Char}
    (hs : Delimited s) (ht : Delimited t) (h : σ.chars ++ s = τ.chars ++ t) : σ = τ ∧ s = t := by
  by_cases hf' : ∃ as r, τ = .function as r
  · obtain ⟨as, r, rfl⟩ := hf'
    exact (word_function hσ hf as r s t h).elim
  · have hf' : ∀ as r, τ ≠ .function as r := fun as r e => hf' ⟨as, r, e⟩
    have h1 := (word_chars hσ hf).1
    have h2 := (word_chars hτ hf').1
    obtain ⟨h', rfl⟩ := delimited_unique (fun c hc => (h1 c hc).2) (fun c hc => (h2 c hc).2) hs ht h
    exact ⟨word_inj hσ hτ hf hf' h', rfl⟩

theorem chars_not_close {τ : Ty} (hp : τ.Plain) : ∃ c cs, τ.chars = c :: cs ∧ c ≠ ')' := by
  by_cases hf : ∃ as r, τ = .function as r
  · obtain ⟨as, r, rfl⟩ := hf
    exact ⟨'(', _, by rw [Ty.chars], by decide⟩
  · have := word_chars hp (fun as r e => hf ⟨as, r, e⟩)
    cases hc : τ.chars with
    | nil => exact absurd hc this.2
    | cons c cs => exact ⟨c, cs, rfl, (this.1 c (by simp [hc])).2.2⟩

/-- The characters of a list of types after the first one. -/
def restCommas : List Ty → List Char
  | [] => []
  | τ :: ts => ',' :: (τ.chars ++ restCommas ts)

theorem joinCommas_eq (τ : Ty) (ts : List Ty) : joinCommas (Ty.charsList (τ :: ts)) = τ.chars ++ restCommas ts := by
  induction ts generalizing τ with
  | nil => simp [Ty.charsList, joinCommas, restCommas]
  | cons σ ts ih =>
    have := ih σ
    simp only [Ty.charsList] at this
    simp only [Ty.charsList, joinCommas, restCommas, this]

theorem delimited_rest (ts : List Ty) (s : List Char) : Delimited (restCommas ts ++ ')' :: s) := by
  cases ts with
  | nil => exact .inr rfl
  | cons => exact .inl rfl

mutual
theorem chars_inj : (σ τ : Ty) → σ.Plain → τ.Plain → (s t : List Char) → Delimited s → Delimited t →
    σ.chars ++ s = τ.chars ++ t → σ = τ ∧ s = t
  | .function as r, τ, hσ, hτ, s, t, hs, ht, h => by
      by_cases hf : ∃ bs q, τ = .function bs q
      · obtain ⟨bs, q, rfl⟩ := hf
        simp only [Ty.Plain] at hσ hτ
        simp only [Ty.chars, List.cons_append, List.append_assoc, List.cons.injEq, true_and, List.nil_append] at h
        have hl : as = bs ∧ r.chars ++ ')' :: s = q.chars ++ ')' :: t := by
          match as, bs with
          | [], [] => simpa [Ty.charsList, joinCommas] using h
          | [], b :: bs =>
            exfalso
            obtain ⟨c, cs, hc, hne⟩ := chars_not_close hτ.1.1
            simp only [joinCommas_eq, hc] at h
            simp only [Ty.charsList, joinCommas, List.nil_append, List.cons_append, List.cons.injEq] at h
            exact hne h.1.symm
          | a :: as, [] =>
            exfalso
            obtain ⟨c, cs, hc, hne⟩ := chars_not_close hσ.1.1
            simp only [joinCommas_eq, hc] at h
            simp only [Ty.charsList, joinCommas, List.nil_append, List.cons_append, List.cons.injEq] at h
            exact hne h.1
          | a :: as, b :: bs =>
            simp only [joinCommas_eq, List.append_assoc] at h
            obtain ⟨e1, h⟩ := chars_inj a b hσ.1.1 hτ.1.1 _ _ (delimited_rest as _) (delimited_rest bs _) h
            obtain ⟨e2, h⟩ := restCommas_inj as bs hσ.1.2 hτ.1.2 _ _ h
            exact ⟨by rw [e1, e2], h⟩
        obtain ⟨e1, h⟩ := hl
        obtain ⟨e2, h⟩ := chars_inj r q hσ.2 hτ.2 (')' :: s) (')' :: t) (Or.inr rfl) (Or.inr rfl) h
        simp only [List.cons.injEq, true_and] at h
        exact ⟨by rw [e1, e2], h⟩
      · exact (word_function hτ (fun as r e => hf ⟨as, r, e⟩) as r t s h.symm).elim
  | .boolean, τ, hσ, hτ, s, t, hs, ht, h => word_case hσ nofun hτ hs ht h
  | .byteString, τ, hσ, hτ, s, t, hs, ht, h => word_case hσ nofun hτ hs ht h
  | .none, τ, hσ, hτ, s, t, hs, ht, h => word_case hσ nofun hτ hs ht h
  | .number, τ, hσ, hτ, s, t, hs, ht, h => word_case hσ nofun hτ hs ht h
  | .record _, τ, hσ, hτ, s, t, hs, ht, h => word_case hσ nofun hτ hs ht h
  | .variant, τ, hσ, hτ, s, t, hs, ht, h => word_case hσ nofun hτ hs ht h
theorem restCommas_inj : (as bs : List Ty) → Ty.PlainList as → Ty.PlainList bs → (s t : List Char) →
    restCommas as ++ ')' :: s = restCommas bs ++ ')' :: t → as = bs ∧ s = t
  | [], [], _, _, s, t, h => by simpa [restCommas] using h
  | [], b :: bs, _, _, s, t, h => by simp [restCommas] at h
  | a :: as, [], _, _, s, t, h => by simp [restCommas] at h
  | a :: as, b :: bs, ha, hb, s, t, h => by
      simp only [restCommas, List.cons_append, List.append_assoc, List.cons.injEq, true_and] at h
      simp only [Ty.PlainList] at ha hb
      obtain ⟨e1, h⟩ := chars_inj a b ha.1 hb.1 _ _ (delimited_rest as _) (delimited_rest bs _) h
      obtain ⟨e2, h⟩ := restCommas_inj as bs ha.2 hb.2 _ _ h
      exact ⟨by rw [e1, e2], h⟩
end

end Verif.Mir.Typed
