import Verif.Hir.Typing

/-! # Lemmas about typed values -/

namespace Verif.Hir

variable {m : Module}

theorem notVariant_list {c : Ty} (h : IsVariant (.list c)) : False := by
  rcases h with h | ⟨_, _, h⟩ <;> cases h

theorem HasType.boolean_inv {v : Val} (h : HasType m v .boolean) : ∃ b, v = .boolean b := by
  cases h with
  | boolean b => exact ⟨b, rfl⟩
  | variant h => rcases h with h | ⟨_, _, h⟩ <;> cases h

theorem HasType.number_inv {v : Val} (h : HasType m v .number) : ∃ b, v = .number b := by
  cases h with
  | number b => exact ⟨b, rfl⟩
  | variant h => rcases h with h | ⟨_, _, h⟩ <;> cases h

theorem HasType.string_inv {v : Val} (h : HasType m v .string) : ∃ b, v = .string b := by
  cases h with
  | string b => exact ⟨b, rfl⟩
  | variant h => rcases h with h | ⟨_, _, h⟩ <;> cases h

theorem HasType.error_inv {v : Val} (h : HasType m v .error) : ∃ s, v = .error s ∧ HasType m s .any := by
  cases h with
  | error h => exact ⟨_, rfl, h⟩
  | variant h => rcases h with h | ⟨_, _, h⟩ <;> cases h

theorem HasType.list_inv {v : Val} {c : Ty} (h : HasType m v (.list c)) :
    ∃ is, v = .list is ∧ Canon m.ctx.types c c ∧ ∀ i ∈ is, ItemOk m i c := by
  cases h with
  | list h1 h2 => exact ⟨_, rfl, h1, h2⟩
  | variant h => rcases h with h | ⟨_, _, h⟩ <;> cases h

theorem HasType.map_inv {v : Val} {k w : Ty} (h : HasType m v (.map k w)) :
    ∃ es, v = .map es ∧ Canon m.ctx.types k k ∧ Canon m.ctx.types w w ∧
      (∀ p ∈ es, IsVariantOf m p.1 k) ∧ (∀ p ∈ es, IsVariantOf m p.2 w) := by
  cases h with
  | map h1 h2 h3 h4 => exact ⟨_, rfl, h1, h2, h3, h4⟩
  | variant h => rcases h with h | ⟨_, _, h⟩ <;> cases h

theorem HasType.record_inv {v : Val} {n : String} (h : HasType m v (.record n)) :
    ∃ vs, v = .record n vs ∧ (∀ x c, FieldTy m.ctx n x c → (lookupField vs x).isSome) ∧
      (∀ x c v, FieldTy m.ctx n x c → lookupField vs x = some v → HasType m v c) := by
  cases h with
  | record h1 h2 => exact ⟨_, rfl, h1, h2⟩
  | variant h => rcases h with h | ⟨_, _, h⟩ <;> cases h

theorem HasType.variant_inv {v : Val} {c : Ty} (h : HasType m v c) (hc : IsVariant c) :
    IsVariantOf m v c := by
  cases h with
  | variant _ h => exact h
  | _ => rcases hc with h | ⟨_, _, h⟩ <;> cases h

theorem IsVariantOf.mono {v : Val} {c d t : Ty} (h : IsVariantOf m v c) (hs : Sub c d)
    (hd : Canon m.ctx.types t d) : IsVariantOf m v d := by
  cases h with
  | mk h1 h2 h3 h4 h5 =>
    refine .mk ?_ h2 h3 h4 h5
    rcases hs with hs | hs
    · exact Or.inl hs
    · rcases h1 with h1 | h1
      · subst h1
        exact Or.inl (any_mem_members hd (hs _ (by simp [unionMembers])))
      · exact Or.inr (hs _ h1)

theorem ItemOk.mono {i : Item} {c d t : Ty} (h : ItemOk m i c) (hs : Sub c d)
    (hd : Canon m.ctx.types t d) : ItemOk m i d := by
  cases h with
  | one h1 h2 h3 h4 => exact .one h1 h2 h3 (h4.trans hs hd)
  | many h1 h2 h3 => exact .many h1 h2 (h3.trans hs hd)
  | comprehension h1 h2 h3 h4 => exact .comprehension h1 h2 h3 (h4.trans hs hd)
  | loop h1 h2 h3 h4 h5 h6 => exact .loop h1 h2 h3 h4 h5 (h6.trans hs hd)
  | keys h1 h2 h3 h4 => exact .keys h1 h2 h3 (h4.trans hs hd)
  | values h1 h2 h3 h4 => exact .values h1 h2 h3 (h4.trans hs hd)
  | stored h1 h2 h3 => exact .stored h1 h2 (h3.trans hs hd)
  | race h1 h2 h3 h4 => exact .race h1 h2 h3 (h4.trans hs hd)
  | racing h1 h2 h3 => exact .racing h1 h2 (h3.trans hs hd)

/-! ## Outcomes -/

/-- An outcome that is not stuck: a value satisfying `P`, or an early return from a function with result
type `ρ`. -/
def ResultOk (m : Module) {α : Type} (ρ : Option Ty) (P : α → Prop) : Result α → Prop
  | .val a _ => P a
  | .ret v _ => ∃ r, ρ = some r ∧ HasType m v r
  | .stuck => False
  | .more => True

/-- A computation that does not get stuck, whatever happened before. -/
def OutOk (m : Module) {α : Type} (ρ : Option Ty) (P : α → Prop) (o : Out α) : Prop :=
  ∀ log, ResultOk m ρ P (o log)

theorem OutOk.bind {α β : Type} {ρ : Option Ty} {P : α → Prop} {Q : β → Prop} {x : Out α} {f : α → Out β}
    (h : OutOk m ρ P x) (hf : ∀ a, P a → OutOk m ρ Q (f a)) : OutOk m ρ Q (x >>= f) := by
  intro log
  show ResultOk m ρ Q (Out.bind x f log)
  have := h log
  unfold Out.bind
  cases hx : x log with
  | val a log' => rw [hx] at this; exact hf a this log'
  | ret v log' => rw [hx] at this; exact this
  | stuck => rw [hx] at this; exact this
  | more => trivial

theorem OutOk.weaken {α : Type} {ρ : Option Ty} {P : α → Prop} {x : Out α} (h : OutOk m none P x) :
    OutOk m ρ P x := by
  intro log
  have := h log
  cases hx : x log with
  | val a log' => rw [hx] at this; exact this
  | ret v log' => rw [hx] at this; obtain ⟨r, h, _⟩ := this; cases h
  | stuck => rw [hx] at this; exact this
  | more => trivial

theorem OutOk.imp {α : Type} {ρ : Option Ty} {P Q : α → Prop} {x : Out α} (h : OutOk m ρ P x)
    (hp : ∀ a, P a → Q a) : OutOk m ρ Q x := by
  intro log
  have := h log
  cases hx : x log with
  | val a log' => rw [hx] at this; exact hp a this
  | ret v log' => rw [hx] at this; exact this
  | stuck => rw [hx] at this; exact this
  | more => trivial

theorem OutOk.noReturn {α : Type} {P : α → Prop} {x : Out α} (h : OutOk m none P x) :
    OutOk m none P x.noReturn := by
  intro log
  have := h log
  unfold Out.noReturn
  cases hx : x log with
  | val a log' => rw [hx] at this; exact this
  | ret v log' => rw [hx] at this; obtain ⟨r, h, _⟩ := this; cases h
  | stuck => rw [hx] at this; exact this
  | more => trivial

theorem OutOk.absorb {c : Ty} {x : Out Val} (h : OutOk m (some c) (HasType m · c) x) :
    OutOk m none (HasType m · c) x.absorb := by
  intro log
  have := h log
  unfold Out.absorb
  cases hx : x log with
  | val a log' => rw [hx] at this; exact this
  | ret v log' => rw [hx] at this; obtain ⟨r, h, h'⟩ := this; cases h; exact h'
  | stuck => rw [hx] at this; exact this
  | more => trivial

theorem OutOk.absorb_none {P : Val → Prop} {x : Out Val} (h : OutOk m none P x) :
    OutOk m none P x.absorb := by
  intro log
  have := h log
  unfold Out.absorb
  cases hx : x log with
  | val a log' => rw [hx] at this; exact this
  | ret v log' => rw [hx] at this; obtain ⟨r, h, _⟩ := this; cases h
  | stuck => rw [hx] at this; exact this
  | more => trivial

theorem OutOk.more {α : Type} {ρ : Option Ty} {P : α → Prop} : OutOk m ρ P (.more) := fun _ => trivial

theorem OutOk.val {α : Type} {ρ : Option Ty} {P : α → Prop} {a : α} (h : P a) : OutOk m ρ P (.val a) := fun _ => h

theorem OutOk.mapList {α β : Type} {ρ : Option Ty} {R : α → β → Prop} {f : α → Out β} : ∀ {as : List α},
    (∀ a ∈ as, OutOk m ρ (R a) (f a)) → OutOk m ρ (List.Forall₂ R as) (Out.mapList f as)
  | [], _ => OutOk.val (P := List.Forall₂ R []) .nil
  | a :: as, h => by
    unfold Out.mapList
    refine OutOk.bind (h a (by simp)) fun b hb => ?_
    refine OutOk.bind (OutOk.mapList fun a ha => h a (by simp [ha])) fun bs hbs => ?_
    exact OutOk.val (P := List.Forall₂ R (a :: as)) (.cons hb hbs)

/-! ## Compile-time information -/

theorem OutOk.canonicalize {ρ : Option Ty} {t c : Ty} (n : Nat) (h : Canon m.ctx.types t c) :
    OutOk m ρ (· = c) (Out.ofRes (canonicalize n m.ctx.types t)) := by
  rcases h.ok_or_more n with h | h <;> rw [h]
  · exact OutOk.val (P := (· = c)) rfl
  · exact OutOk.more

theorem OutOk.expectFunction {ρ : Option Ty} {t r : Ty} {as : List Ty} (n : Nat)
    (h : Canon m.ctx.types t (.function as r)) :
    OutOk m ρ (· = (as, r)) (Out.ofRes (expectFunction n m.ctx.types t)) := by
  unfold Verif.Hir.expectFunction
  rcases h.ok_or_more n with h | h <;> rw [h]
  · exact OutOk.val (P := (· = (as, r))) rfl
  · exact OutOk.more

theorem OutOk.functionType {ρ : Option Ty} {t r : Ty} {as : List Ty} (n : Nat)
    (h : Canon m.ctx.types t (.function as r)) :
    OutOk m ρ (· = (as, r)) (functionType n m.ctx.types (some t)) := OutOk.expectFunction n h

theorem OutOk.expectList {ρ : Option Ty} {t c : Ty} (n : Nat) (h : Canon m.ctx.types t (.list c)) :
    OutOk m ρ (· = c) (Out.ofRes (expectList n m.ctx.types t)) := by
  unfold Verif.Hir.expectList
  rcases h.ok_or_more n with h | h <;> rw [h]
  · exact OutOk.val (P := (· = c)) rfl
  · exact OutOk.more

theorem OutOk.expectMap {ρ : Option Ty} {t k v : Ty} (n : Nat) (h : Canon m.ctx.types t (.map k v)) :
    OutOk m ρ (· = (k, v)) (Out.ofRes (expectMap n m.ctx.types t)) := by
  unfold Verif.Hir.expectMap
  rcases h.ok_or_more n with h | h <;> rw [h]
  · exact OutOk.val (P := (· = (k, v))) rfl
  · exact OutOk.more

/-! ## Coercions -/

theorem isVariant_or (c : Ty) : IsVariant c ∨ (NotUnion c ∧ c ≠ .any) := by
  cases c <;> simp [IsVariant, NotUnion]

theorem coerceValue_eq {n : Nat} {A : Aliases} {src dst c d : Ty} {v : Val} (hc : NotUnion c) (ha : c ≠ .any)
    (hr : NoReference c) (hd : ∀ e, d ≠ .list e) (hd' : ∀ k w, d ≠ .map k w)
    (h1 : Out.ofRes (canonicalize n A src) = .val c) (h2 : Out.ofRes (canonicalize n A dst) = .val d) :
    coerceValue n A src dst v = .val (.variant c v) := by
  unfold coerceValue
  rw [h1, h2]
  show (match c, d with
    | .any, _ => Out.val v
    | .union _ _, _ => .val v
    | .list _, .list _ => .val v
    | .map _ _, .map _ _ => .val v
    | .reference _, _ => .stuck
    | f, _ => .val (.variant f v)) = _
  cases c with
  | any => exact absurd rfl ha
  | union l r => exact absurd rfl (hc l r)
  | reference x => cases hr
  | list e => cases d with
    | list e' => exact absurd rfl (hd e')
    | _ => rfl
  | map k w => cases d with
    | map k' w' => exact absurd rfl (hd' k' w')
    | _ => rfl
  | _ => rfl

theorem coerceValue_variant {n : Nat} {A : Aliases} {src dst c d : Ty} {v : Val} (hc : IsVariant c)
    (h1 : Out.ofRes (canonicalize n A src) = .val c) (h2 : Out.ofRes (canonicalize n A dst) = .val d) :
    coerceValue n A src dst v = .val v := by
  unfold coerceValue
  rw [h1, h2]
  rcases hc with rfl | ⟨_, _, rfl⟩ <;> rfl

theorem ofRes_cases {ρ : Option Ty} {t c : Ty} (n : Nat) (h : Canon m.ctx.types t c) :
    Out.ofRes (canonicalize n m.ctx.types t) = .val c ∨ Out.ofRes (canonicalize n m.ctx.types t) = .more := by
  rcases h.ok_or_more n with h | h <;> rw [h]
  · exact Or.inl rfl
  · exact Or.inr rfl

/-- Coercing to a variant type. -/
theorem OutOk.coerceVariant {ρ : Option Ty} {src dst c d : Ty} {v : Val} (n : Nat)
    (hv : HasType m v c) (hs : Canon m.ctx.types src c) (hd : Canon m.ctx.types dst d) (hd' : IsVariant d) :
    OutOk m ρ (IsVariantOf m · c) (coerceValue n m.ctx.types src dst v) := by
  rcases ofRes_cases (ρ := ρ) n hs with h1 | h1
  · rcases ofRes_cases (ρ := ρ) n hd with h2 | h2
    · rcases isVariant_or c with hc | ⟨hu, ha⟩
      · rw [coerceValue_variant hc h1 h2]
        exact OutOk.val (P := (IsVariantOf m · c)) (hv.variant_inv hc)
      · rw [coerceValue_eq hu ha hs.noReference (by
          rcases hd' with rfl | ⟨_, _, rfl⟩ <;> simp) (by
          rcases hd' with rfl | ⟨_, _, rfl⟩ <;> simp) h1 h2]
        refine OutOk.val (P := (IsVariantOf m · c)) (.mk (Or.inr ?_) hs.self hu ha hv)
        rw [unionMembers_of_notUnion hu]; simp
    · unfold coerceValue; rw [h1, h2]; exact OutOk.more
  · unfold coerceValue; rw [h1]; exact OutOk.more

theorem OutOk.coerceAny {ρ : Option Ty} {src c : Ty} {v : Val} (n : Nat)
    (hv : HasType m v c) (hs : Canon m.ctx.types src c) :
    OutOk m ρ (IsVariantOf m · c) (coerceValue n m.ctx.types src .any v) :=
  OutOk.coerceVariant n hv hs canon_any (Or.inl rfl)

theorem OutOk.coerce {ρ : Option Ty} {src dst c d : Ty} {v : Val} (n : Nat)
    (hv : HasType m v c) (hs : Canon m.ctx.types src c) (hd : Canon m.ctx.types dst d) (h : Coercible c d) :
    OutOk m ρ (HasType m · d) (coerceValue n m.ctx.types src dst v) := by
  cases h with
  | variant h1 h2 =>
    exact (OutOk.coerceVariant n hv hs hd h1).imp fun w hw => .variant h1 (hw.mono h2 hd)
  | list h1 =>
    unfold coerceValue
    refine OutOk.bind (OutOk.canonicalize n hs) fun _ h2 => ?_
    refine OutOk.bind (OutOk.canonicalize n hd) fun _ h3 => ?_
    subst h2; subst h3
    obtain ⟨is, h4, h5, h6⟩ := hv.list_inv
    subst h4
    exact OutOk.val (P := (HasType m · _)) (.list hd.list_arg fun i hi => (h6 i hi).mono h1 hd.list_arg)
  | map h1 h2 =>
    unfold coerceValue
    refine OutOk.bind (OutOk.canonicalize n hs) fun _ h3 => ?_
    refine OutOk.bind (OutOk.canonicalize n hd) fun _ h4 => ?_
    subst h3; subst h4
    obtain ⟨es, h5, h6, h7, h8, h9⟩ := hv.map_inv
    subst h5
    exact OutOk.val (P := (HasType m · _)) (.map hd.map_arg.1 hd.map_arg.2
      (fun p hp => (h8 p hp).mono h1 hd.map_arg.1) fun p hp => (h9 p hp).mono h2 hd.map_arg.2)

/-- What a matching alternative binds. -/
theorem alternativeValue_ok {c tag t : Ty} {v : Val} (hc : Canon m.ctx.types t c)
    (h : alternativeMatches c tag = true) (h2 : Canon m.ctx.types tag tag) (h3 : NotUnion tag)
    (h4 : tag ≠ .any) (h5 : HasType m v tag) : HasType m (alternativeValue c tag v) c := by
  unfold alternativeMatches at h
  rw [List.contains_iff_mem] at h
  rcases isVariant_or c with hv | ⟨hu, ha⟩
  · rcases hv with rfl | ⟨l, r, rfl⟩
    · simp only [unionMembers, List.mem_singleton] at h
      exact absurd h h4
    · exact .variant (Or.inr ⟨l, r, rfl⟩) (.mk (Or.inr h) h2 h3 h4 h5)
  · rw [unionMembers_of_notUnion hu] at h
    simp only [List.mem_singleton] at h
    subst h
    unfold alternativeValue
    cases tag <;> first | exact h5 | exact absurd rfl (hu _ _)

theorem OutOk.downcast {ρ : Option Ty} {t c : Ty} {v : Val} (n : Nat) (hc : Canon m.ctx.types t c)
    (hv : IsVariantOf m v c) : OutOk m ρ (HasType m · c) (downcastValue n m.ctx.types t v) := by
  unfold downcastValue
  refine OutOk.bind (OutOk.canonicalize n hc) fun c' h => ?_
  subst h
  split
  · rename_i h
    subst h
    exact OutOk.val (P := (HasType m · _)) (.variant (Or.inl rfl) hv)
  · rename_i h
    cases hv with
    | @mk tag v _ h1 h2 h3 h4 h5 =>
      have h6 := h1.resolve_left h
      have h7 : alternativeMatches c' tag = true := by
        unfold alternativeMatches; rw [List.contains_iff_mem]; exact h6
      simp only [h7, if_true]
      exact OutOk.val (P := (HasType m · _)) (alternativeValue_ok hc h7 h2 h3 h4 h5)

/-! ## Environments -/

theorem EnvOk.insert {env : Env} {Γ : Vars} {x : String} {v : Val} {t c : Ty} (h : EnvOk m env Γ)
    (hc : Canon m.ctx.types t c) (hv : HasType m v c) : EnvOk m (env.insert x v) (Γ.insert x t) := by
  cases h with
  | mk h1 h2 =>
    refine .mk ?_ ?_
    · intro y w u d hy hu hd
      unfold Env.insert at hy
      unfold Vars.insert at hu
      by_cases hx : y = x
      · simp only [hx, if_true, Option.some.injEq] at hy hu
        subst hy; subst hu
        rwa [hd.det hc]
      · simp only [hx, if_false] at hy hu
        exact h1 y w u d hy hu hd
    · intro y hy
      unfold Env.insert at hy
      unfold Vars.insert
      by_cases hx : y = x
      · simp [hx] at hy
      · simp only [hx, if_false] at hy ⊢
        exact h2 y hy

theorem EnvOk.insertAll {as : List Ty} {vs : List Val} (hv : List.Forall₂ (HasType m) vs as) :
    ∀ {xs : List String} {ts : List Ty} {env : Env} {Γ : Vars}, EnvOk m env Γ → xs.length = ts.length →
    List.Forall₂ (Canon m.ctx.types) ts as →
    EnvOk m (env.insertAll (xs.zip vs)) (Γ.insertAll (xs.zip ts)) := by
  induction hv with
  | nil =>
    intro xs ts env Γ h _ hc
    cases hc
    simpa [Env.insertAll, Vars.insertAll] using h
  | cons h1 _ ih =>
    intro xs ts env Γ h hl hc
    cases hc with
    | cons h2 h3 =>
      cases xs with
      | nil => simp at hl
      | cons x xs =>
        simp only [List.zip_cons_cons, Env.insertAll, Vars.insertAll]
        exact ih (h.insert h2 h1) (by simpa using hl) h3

end Verif.Hir
