import Verif.Hir.ValueLemmas

/-! # Soundness of the type system for evaluation -/

namespace Verif.Hir

variable {m : Module} {W : World} {r : Evaluator}

/-- Every definition has the type its signature says. -/
def ModuleOk (m : Module) : Prop := ∀ d ∈ m.definitions, ∃ as c,
  Canon m.ctx.types (lambdaType d.params d.result) (.function as c) ∧
  Typed m.ctx (m.vars.insertAll d.params) (some c) d.body c

/-- Functions of other modules and of the system result in values of the declared types. -/
def WorldOk (m : Module) (W : World) : Prop := ∀ log x d as c args, lastLookup m.declarations x = some d →
  Canon m.ctx.types (.function d.1 d.2) (.function as c) → List.Forall₂ (HasType m) args as →
  HasType m (W.call log x args) c

/-- Results of deconstruction. -/
def UnconsOk (m : Module) (c : Ty) (o : Option (Item × List Item)) : Prop :=
  ∀ i is, o = some (i, is) → Forcible i ∧ ItemOk m i c ∧ ∀ j ∈ is, ItemOk m j c

/-- Evaluation does not get stuck. -/
structure Sound (m : Module) (r : Evaluator) : Prop where
  eval : ∀ {env Γ ρ e c}, EnvOk m env Γ → Typed m.ctx Γ ρ e c →
    OutOk m ρ (HasType m · c) (r.eval env e)
  apply : ∀ {f as c args}, HasType m f (.function as c) → List.Forall₂ (HasType m) args as →
    OutOk m none (HasType m · c) (r.apply f args)
  uncons : ∀ {is c}, Canon m.ctx.types c c → (∀ i ∈ is, ItemOk m i c) →
    OutOk m none (UnconsOk m c) (r.uncons is)
  force : ∀ {i c}, Canon m.ctx.types c c → Forcible i → ItemOk m i c →
    OutOk m none (IsVariantOf m · c) (r.force i)

/-! ## Variables -/

theorem lastLookup_append {β : Type} (xs ys : List (String × β)) (n : String) :
    lastLookup (xs ++ ys) n = (lastLookup ys n).or (lastLookup xs n) := by
  unfold lastLookup
  rw [List.reverse_append, List.find?_append]
  cases ys.reverse.find? (fun p => p.1 == n) <;> simp

theorem lastLookup_map {α β : Type} (xs : List α) (k : α → String) (f : α → β) (n : String) :
    lastLookup (xs.map fun a => (k a, f a)) n = (lastLookup (xs.map fun a => (k a, a)) n).map f := by
  unfold lastLookup
  rw [← List.map_reverse, ← List.map_reverse, List.find?_map, List.find?_map]
  have : ((fun p : String × β => p.1 == n) ∘ fun a => (k a, f a)) =
      ((fun p : String × α => p.1 == n) ∘ fun a => (k a, a)) := rfl
  rw [this]
  cases xs.reverse.find? _ <;> rfl

theorem vars_eq (m : Module) (x : String) : m.vars x =
    ((lastLookup (m.definitions.map fun d => (d.name, d)) x).map fun d => lambdaType d.params d.result).or
      ((lastLookup m.declarations x).map fun d => .function d.1 d.2) := by
  unfold Module.vars
  rw [lastLookup_append, lastLookup_map m.definitions]
  congr 1
  have := lastLookup_map m.declarations (·.1) (fun d => Ty.function d.2.1 d.2.2) x
  rw [this]
  have h2 := lastLookup_map m.declarations (·.1) (·.2) x
  have h3 : (m.declarations.map fun a => (a.1, a.2)) = m.declarations := by simp
  rw [h3] at h2
  rw [h2, Option.map_map]
  rfl

theorem zip_params (ps : List (String × Ty)) : (ps.map (·.1)).zip (ps.map (·.2)) = ps := by
  induction ps with
  | nil => rfl
  | cons p ps ih => simp [ih]

theorem definition_mem {x : String} {d : Definition}
    (h : lastLookup (m.definitions.map fun d => (d.name, d)) x = some d) : d ∈ m.definitions := by
  have := lastLookup_some h
  simp only [List.mem_map, Prod.mk.injEq] at this
  obtain ⟨_, h1, _, rfl⟩ := this
  exact h1

theorem envOk_empty : EnvOk m (fun _ => none) m.vars := .mk (by simp) (by simp)

theorem closure_ok {Γ : Vars} {env : Env} {params : List (String × Ty)} {result : Ty} {b : Expr} {as : List Ty}
    {c : Ty} (he : EnvOk m env Γ) (h : Canon m.ctx.types (lambdaType params result) (.function as c))
    (hb : Typed m.ctx (Γ.insertAll params) (some c) b c) :
    HasType m (.closure env (params.map (·.1)) b) (.function as c) := by
  obtain ⟨as', c', h1, h2, h3⟩ := canon_function_inv h
  cases h1
  refine .closure (ts := params.map (·.2)) he (by simp) h2 h3.self ?_
  rwa [zip_params]

theorem lookup_ok {Γ : Vars} {ρ : Option Ty} {env : Env} {x : String} {t c : Ty} (hm : ModuleOk m)
    (he : EnvOk m env Γ) (hx : Γ x = some t) (hc : Canon m.ctx.types t c) :
    OutOk m ρ (HasType m · c) (lookup m env x) := by
  unfold lookup
  cases he with
  | mk h1 h2 =>
    cases hv : env x with
    | some v => exact OutOk.val (P := (HasType m · c)) (h1 x v t c hv hx hc)
    | none =>
      have h3 := h2 x hv
      rw [hx, vars_eq] at h3
      simp only
      cases hd : lastLookup (m.definitions.map fun d => (d.name, d)) x with
      | some d =>
        simp only [hd, Option.map_some, Option.some_or, Option.some.injEq] at h3
        obtain ⟨as, c', h4, h5⟩ := hm d (definition_mem hd)
        rw [h3] at hc
        rw [hc.det h4]
        exact OutOk.val (P := (HasType m · _)) (closure_ok envOk_empty h4 h5)
      | none =>
        simp only [hd, Option.map_none, Option.none_or] at h3
        cases hl : lastLookup m.declarations x with
        | none => simp [hl] at h3
        | some d =>
          simp only [hl, Option.map_some, Option.some.injEq] at h3
          have := lastLookup_some hl
          have hmem : (m.declarations.map (·.1)).contains x = true := by
            rw [List.contains_iff_mem]
            exact List.mem_map.mpr ⟨_, this, rfl⟩
          simp only [hmem, if_true]
          rw [h3] at hc
          obtain ⟨as, c', h4, _⟩ := canon_function_inv hc
          subst h4
          exact OutOk.val (P := (HasType m · _)) (.foreign hl hc)

/-! ## Function values -/

theorem stepApply_ok (S : Sound m r) (hw : WorldOk m W) {f : Val} {as : List Ty} {c : Ty} {args : List Val}
    (hf : HasType m f (.function as c)) (ha : List.Forall₂ (HasType m) args as) :
    OutOk m none (HasType m · c) (stepApply W m r f args) := by
  cases hf with
  | variant h => rcases h with h | ⟨_, _, h⟩ <;> cases h
  | @closure _ _ params _ ts _ _ h1 h2 h3 h4 h5 =>
    unfold stepApply
    have hl : params.length = args.length := by rw [ha.length_eq, ← h3.length_eq, ← h2]
    simp only [hl, if_true]
    exact (S.eval (EnvOk.insertAll ha h1 h2 h3) h5).absorb
  | foreign h1 h2 =>
    unfold stepApply
    exact fun log => hw log _ _ _ _ _ h1 h2 ha
  | element h1 h2 h3 =>
    cases ha
    unfold stepApply
    exact OutOk.bind (S.force h3.self h1 h2) fun v hv => OutOk.downcast _ h3 hv
  | spawned h1 h2 h3 =>
    cases ha
    unfold stepApply
    refine OutOk.bind (P := (IsVariantOf m · c)) ?_ fun v hv => OutOk.downcast _ h3 hv
    refine OutOk.absorb_none ?_
    refine OutOk.bind (S.eval h1 h2) fun f hf => ?_
    refine OutOk.bind (S.apply hf .nil).noReturn fun v hv => ?_
    exact OutOk.coerceAny _ hv h3

/-! ## Lists -/

theorem stepForce_ok (S : Sound m r) {i : Item} {c : Ty} (hc : Canon m.ctx.types c c) (hf : Forcible i)
    (hi : ItemOk m i c) : OutOk m none (IsVariantOf m · c) (stepForce m r i) := by
  cases hi with
  | one h1 h2 h3 h4 =>
    unfold stepForce
    refine OutOk.bind (S.eval h1 h3).noReturn fun v hv => ?_
    exact (OutOk.coerceAny _ hv h2).imp fun w hw => hw.mono h4 hc
  | stored h1 h2 h3 =>
    unfold stepForce
    refine OutOk.bind (OutOk.downcast _ h1 h2) fun v hv => ?_
    exact (OutOk.coerceAny _ hv h1).imp fun w hw => hw.mono h3 hc
  | _ => cases hf

theorem asList_ok {ρ : Option Ty} {v : Val} {c : Ty} (h : HasType m v (.list c)) :
    OutOk m ρ (fun is => ∀ i ∈ is, ItemOk m i c) v.asList := by
  obtain ⟨is, h1, h2, h3⟩ := h.list_inv
  subst h1
  exact OutOk.val (P := fun is => ∀ i ∈ is, ItemOk m i c) h3

theorem asMap_ok {ρ : Option Ty} {v : Val} {k w : Ty} (h : HasType m v (.map k w)) :
    OutOk m ρ (fun es => (∀ p ∈ es, IsVariantOf m p.1 k) ∧ ∀ p ∈ es, IsVariantOf m p.2 w) v.asMap := by
  obtain ⟨es, h1, h2, h3, h4⟩ := h.map_inv
  subst h1
  exact OutOk.val (P := fun es : List (Val × Val) =>
    (∀ p ∈ es, IsVariantOf m p.1 k) ∧ ∀ p ∈ es, IsVariantOf m p.2 w) h4

theorem asBoolean_ok {ρ : Option Ty} {v : Val} (h : HasType m v .boolean) :
    OutOk m ρ (fun _ => True) v.asBoolean := by
  obtain ⟨b, rfl⟩ := h.boolean_inv
  exact OutOk.val (P := fun _ => True) trivial

theorem asNumber_ok {ρ : Option Ty} {v : Val} (h : HasType m v .number) :
    OutOk m ρ (fun _ => True) v.asNumber := by
  obtain ⟨b, rfl⟩ := h.number_inv
  exact OutOk.val (P := fun _ => True) trivial

theorem asString_ok {ρ : Option Ty} {v : Val} (h : HasType m v .string) :
    OutOk m ρ (fun _ => True) v.asString := by
  obtain ⟨b, rfl⟩ := h.string_inv
  exact OutOk.val (P := fun _ => True) trivial

/-- Results of taking an element of each list of a branch. -/
def UnconsAllOk (m : Module) (Γ : Vars) (ts : List Ty) (o : Option (Env × List (List Item))) : Prop :=
  ∀ env ls, o = some (env, ls) → EnvOk m env Γ ∧ List.Forall₂ (fun l t => ∀ i ∈ l, ItemOk m i t) ls ts

theorem unconsAll_ok (S : Sound m r) : ∀ {is : List ((String × (Option Ty × Expr)) × List Item)} {ts : List Ty}
    {env : Env} {Γ : Vars}, EnvOk m env Γ →
    List.Forall₂ (fun i t => (∃ u, i.1.2.1 = some u ∧ Canon m.ctx.types u (.list t)) ∧
      ∀ j ∈ i.2, ItemOk m j t) is ts →
    OutOk m none (UnconsAllOk m (Γ.insertAll ((is.map (·.1.1)).zip (ts.map (.function [])))) ts)
      (unconsAll m r env is)
  | [], _, env, Γ, he, .nil => by
    unfold unconsAll
    refine OutOk.val (P := UnconsAllOk m _ []) ?_
    intro env' ls h
    cases h
    exact ⟨he, .nil⟩
  | ((x, (u, e)), l) :: is, t :: ts, env, Γ, he, .cons ⟨⟨u', h1, h2⟩, h3⟩ h4 => by
    simp only at h1
    subst h1
    unfold unconsAll
    refine OutOk.bind (S.uncons h2.list_arg h3) fun o ho => ?_
    cases o with
    | none =>
      refine OutOk.val (P := UnconsAllOk m _ _) ?_
      intro env' ls h
      cases h
    | some p =>
      obtain ⟨i, l'⟩ := p
      obtain ⟨g1, g2, g3⟩ := ho i l' rfl
      simp only
      refine OutOk.bind (OutOk.expectList _ h2) fun t' ht => ?_
      subst ht
      have hf : Canon m.ctx.types (.function [] t') (.function [] t') := Canon.function .nil h2.list_arg
      refine OutOk.bind (unconsAll_ok S (he.insert (x := x) hf (.element g1 g2 h2.list_arg)) h4) fun o ho => ?_
      cases o with
      | none =>
        refine OutOk.val (P := UnconsAllOk m _ _) ?_
        intro env' ls h
        cases h
      | some q =>
        obtain ⟨env', ls⟩ := q
        obtain ⟨f1, f2⟩ := ho env' ls rfl
        refine OutOk.val (P := UnconsAllOk m _ _) ?_
        intro env'' ls' h
        cases h
        exact ⟨f1, .cons g3 f2⟩

theorem forceAll_ok (S : Sound m r) {c : Ty} (hc : Canon m.ctx.types c c) : ∀ (n : Nat) {is : List Item},
    (∀ i ∈ is, ItemOk m i c) → OutOk m none (fun vs => ∀ v ∈ vs, IsVariantOf m v c) (forceAll r n is)
  | 0, _, _ => OutOk.more
  | n + 1, is, h => by
    unfold forceAll
    refine OutOk.bind (S.uncons hc h) fun o ho => ?_
    cases o with
    | none => exact OutOk.val (P := fun vs => ∀ v ∈ vs, IsVariantOf m v c) (by simp)
    | some p =>
      obtain ⟨i, is'⟩ := p
      obtain ⟨g1, g2, g3⟩ := ho i is' rfl
      refine OutOk.bind (S.force hc g1 g2) fun v hv => ?_
      refine OutOk.bind (forceAll_ok S hc n g3) fun vs hvs => ?_
      refine OutOk.val (P := fun vs => ∀ v ∈ vs, IsVariantOf m v c) ?_
      intro w hw
      rcases List.mem_cons.mp hw with rfl | hw
      · exact hv
      · exact hvs w hw

theorem countAll_ok (S : Sound m r) {c : Ty} (hc : Canon m.ctx.types c c) : ∀ (n : Nat) {is : List Item},
    (∀ i ∈ is, ItemOk m i c) → OutOk m none (fun _ => True) (countAll r n is)
  | 0, _, _ => OutOk.more
  | n + 1, is, h => by
    unfold countAll
    refine OutOk.bind (S.uncons hc h) fun o ho => ?_
    cases o with
    | none => exact OutOk.val (P := fun _ => True) trivial
    | some p =>
      obtain ⟨i, is'⟩ := p
      obtain ⟨g1, g2, g3⟩ := ho i is' rfl
      exact OutOk.bind (countAll_ok S hc n g3) fun _ _ => OutOk.val (P := fun _ => True) trivial

theorem forall₂_of_zip {α β : Type} {P : α × β → Prop} : ∀ {as : List α} {bs : List β},
    as.length = bs.length → (∀ p ∈ as.zip bs, P p) → List.Forall₂ (fun a b => P (a, b)) as bs
  | [], [], _, _ => .nil
  | [], _ :: _, h, _ => by simp at h
  | _ :: _, [], h, _ => by simp at h
  | a :: as, b :: bs, h, hp => .cons (hp _ (by simp)) (forall₂_of_zip (by simpa using h) fun p hp' =>
      hp p (by simp [hp']))

theorem forall₂_comp {α β γ : Type} {R : α → β → Prop} {S : α → γ → Prop} :
    ∀ {as : List α} {bs : List β} {cs : List γ}, List.Forall₂ R as bs → List.Forall₂ S as cs →
    List.Forall₂ (fun b c => ∃ a ∈ as, R a b ∧ S a c) bs cs
  | [], _, _, .nil, .nil => .nil
  | a :: as, _, _, .cons h hs, .cons g gs =>
    .cons ⟨a, by simp, h, g⟩ ((forall₂_comp hs gs).imp fun _ _ ⟨x, h1, h2⟩ => ⟨x, by simp [h1], h2⟩)

theorem mem_zip_of_forall₂ {α β : Type} {P : α × β → Prop} {as : List α} {bs : List β}
    (h : List.Forall₂ (fun a b => P (a, b)) as bs) : ∀ p ∈ as.zip bs, P p := by
  intro p hp
  rw [List.forall₂_iff_zip] at h
  exact h.2 hp

theorem appendOk {c : Ty} {is js : List Item} (h : ∀ i ∈ is, ItemOk m i c) (h' : ∀ i ∈ js, ItemOk m i c) :
    ∀ i ∈ is ++ js, ItemOk m i c := by
  intro i hi
  rcases List.mem_append.mp hi with hi | hi
  · exact h i hi
  · exact h' i hi

theorem consOk {c : Ty} {i : Item} {js : List Item} (h : ItemOk m i c) (h' : ∀ i ∈ js, ItemOk m i c) :
    ∀ j ∈ i :: js, ItemOk m j c := by
  intro j hj
  rcases List.mem_cons.mp hj with rfl | hj
  · exact h
  · exact h' j hj

theorem forall₂_zip3 {α β γ δ : Type} {P : α → β → Prop} {Q : γ → β → Prop} : ∀ {xs : List δ} {as : List α}
    {bs : List β} {ls : List γ}, xs.length = as.length → List.Forall₂ P as bs → List.Forall₂ Q ls bs →
    List.Forall₂ (fun i t => P i.1.2 t ∧ Q i.2 t) ((xs.zip as).zip ls) bs
  | [], [], _, _, _, .nil, .nil => .nil
  | [], _ :: _, _, _, h, _, _ => by simp at h
  | _ :: _, [], _, _, h, _, _ => by simp at h
  | x :: xs, a :: as, _, _, h, .cons h1 h2, .cons h3 h4 =>
    .cons ⟨h1, h3⟩ (forall₂_zip3 (by simpa using h) h2 h4)

theorem map_names {α β γ δ : Type} {R : γ → β → Prop} : ∀ {xs : List δ} {as : List α} {ls : List γ} {bs : List β},
    xs.length = as.length → as.length = bs.length → List.Forall₂ R ls bs →
    ((xs.zip as).zip ls).map (·.1.1) = xs
  | [], _, _, _, _, _, _ => rfl
  | _ :: _, [], _, _, h, _, _ => by simp at h
  | _ :: _, _ :: _, _, [], _, h, _ => by simp at h
  | x :: xs, a :: as, _, _, h, h', .cons _ hs => by
    simpa using map_names (by simpa using h) (by simpa using h') hs

theorem stepUncons_ok (S : Sound m r) {is : List Item} {c : Ty} (hc : Canon m.ctx.types c c)
    (h : ∀ i ∈ is, ItemOk m i c) : OutOk m none (UnconsOk m c) (stepUncons W m r is) := by
  cases is with
  | nil =>
    refine OutOk.val (P := UnconsOk m c) ?_
    intro i is h; cases h
  | cons i is =>
    have hi := h i (by simp)
    have his : ∀ j ∈ is, ItemOk m j c := fun j hj => h j (by simp [hj])
    cases hi with
    | one h1 h2 h3 h4 =>
      refine OutOk.val (P := UnconsOk m c) ?_
      intro i is h; cases h
      exact ⟨trivial, .one h1 h2 h3 h4, his⟩
    | stored h1 h2 h3 =>
      refine OutOk.val (P := UnconsOk m c) ?_
      intro i is h; cases h
      exact ⟨trivial, .stored h1 h2 h3, his⟩
    | many h1 h2 h3 =>
      unfold stepUncons
      refine OutOk.bind (S.eval h1 h2).noReturn fun v hv => ?_
      refine OutOk.bind (asList_ok hv) fun js hjs => ?_
      exact S.uncons hc (appendOk (fun i hi => (hjs i hi).mono h3 hc) his)
    | @comprehension _ env _ _ b _ _ _ h1 h2 h3 h4 =>
      unfold stepUncons
      cases h3 with
      | @cons _ _ _ _ _ ts g1 g2 g3 g4 g5 g6 =>
        have hev : ∀ i ∈ b.iteratees, OutOk m none
            (fun v => ∀ u f, i.1 = some u → Canon m.ctx.types u (.list f) → HasType m v (.list f))
            (r.eval env i.2) := by
          intro i hi
          have h5 := forall₂_of_zip g2 fun p hp => And.intro (g3 p hp) (g4 p hp)
          obtain ⟨t, _, ⟨⟨u, h6, h7⟩, h8⟩⟩ := forall₂_mem_left h5 hi
          refine (S.eval h1 h8).imp fun v hv u' f hu hf => ?_
          simp only at h6 h7
          rw [h6] at hu
          cases hu
          cases hf.det h7
          exact hv
        refine OutOk.bind (OutOk.mapList hev).noReturn fun vs hvs => ?_
        have hl : ∀ v ∈ vs, OutOk m none
            (fun is => ∀ i ∈ b.iteratees, ∀ u f, i.1 = some u → Canon m.ctx.types u (.list f) →
              HasType m v (.list f) → ∀ j ∈ is, ItemOk m j f) v.asList := by
          intro v hv
          obtain ⟨i, hi, h5⟩ := forall₂_mem_right hvs hv
          have h6 := forall₂_of_zip g2 fun p hp => (g3 p hp)
          obtain ⟨t, _, ⟨u, h7, h8⟩⟩ := forall₂_mem_left h6 hi
          obtain ⟨is, h9, _, _⟩ := (h5 u t h7 h8).list_inv
          subst h9
          refine OutOk.val (P := fun is => ∀ i ∈ b.iteratees, ∀ u f, i.1 = some u →
            Canon m.ctx.types u (.list f) → HasType m (.list _) (.list f) → ∀ j ∈ is, ItemOk m j f) ?_
          intro i _ u f _ _ hv
          obtain ⟨is', h10, _, h11⟩ := hv.list_inv
          cases h10
          exact h11
        refine OutOk.bind (OutOk.mapList hl) fun ls hls => ?_
        refine S.uncons hc (consOk (.loop h1 h2 (.cons g1 g2 g3 g4 g5 g6) ?_ ?_ h4) his)
        · rw [← hls.length_eq, ← hvs.length_eq]
        · have h5 : List.Forall₂ (fun (i : Option Ty × Expr) l => ∀ u f, i.1 = some u →
              Canon m.ctx.types u (.list f) → ∀ j ∈ l, ItemOk m j f) b.iteratees ls := by
            clear hev hl g1 g2 g3 g4 g5 g6
            generalize hb : b.iteratees = its at *
            have : ∀ its' : List (Option Ty × Expr), (∀ i ∈ its', i ∈ its) → ∀ (vs : List Val) (ls : List (List Item)),
                List.Forall₂ (fun (i : Option Ty × Expr) v => ∀ u f, i.1 = some u →
                  Canon m.ctx.types u (.list f) → HasType m v (.list f)) its' vs →
                List.Forall₂ (fun v is => ∀ i ∈ its, ∀ u f, i.1 = some u → Canon m.ctx.types u (.list f) →
                  HasType m v (.list f) → ∀ j ∈ is, ItemOk m j f) vs ls →
                List.Forall₂ (fun (i : Option Ty × Expr) l => ∀ u f, i.1 = some u →
                  Canon m.ctx.types u (.list f) → ∀ j ∈ l, ItemOk m j f) its' ls := by
              intro its' hsub vs ls hv
              induction hv generalizing ls with
              | nil => intro hl; cases hl; exact .nil
              | cons h1 _ ih =>
                intro hl
                cases hl with
                | cons h2 h3 =>
                  refine .cons ?_ (ih (fun i hi => hsub i (by simp [hi])) _ h3)
                  intro u f hu hf
                  exact h2 _ (hsub _ (by simp)) u f hu hf (h1 u f hu hf)
            exact this its (fun _ h => h) vs ls hvs hls
          intro p hp u f hu hf
          exact mem_zip_of_forall₂ (P := fun p => ∀ u f, p.1.1 = some u → Canon m.ctx.types u (.list f) →
            ∀ j ∈ p.2, ItemOk m j f) h5 p hp u f hu hf
    | @loop Γ env t e b bs ls d c h1 h2 h3 h4 h5 h6 =>
      unfold stepUncons
      cases h3 with
      | @cons _ _ _ _ _ ts g1 g2 g3 g4 g5 g6 =>
        have f1 := forall₂_of_zip g2 g3
        have f2 : List.Forall₂ (fun l t => ∀ j ∈ l, ItemOk m j t) ls ts := by
          have h7 := forall₂_of_zip h4.symm h5
          refine (forall₂_comp h7 f1).imp ?_
          rintro l t ⟨i, _, h8, u, h9, h10⟩ j hj
          exact h8 u t h9 h10 j hj
        have f3 := forall₂_zip3 (P := fun i t => ∃ u, i.1 = some u ∧ Canon m.ctx.types u (.list t)) g1 f1 f2
        refine OutOk.bind (unconsAll_ok S h1 f3) fun o ho => ?_
        cases o with
        | none => exact S.uncons hc his
        | some p =>
          obtain ⟨env', ls'⟩ := p
          obtain ⟨k1, k2⟩ := ho env' ls' rfl
          rw [map_names g1 g2 f2] at k1
          have hloop : ItemOk m (.loop env t e b bs ls') c := by
            refine .loop h1 h2 (.cons g1 g2 g3 g4 g5 g6) ?_ ?_ h6
            · rw [k2.length_eq, g2]
            · have : List.Forall₂ (fun (i : Option Ty × Expr) l => ∀ u f, i.1 = some u →
                  Canon m.ctx.types u (.list f) → ∀ j ∈ l, ItemOk m j f) b.iteratees ls' := by
                refine (forall₂_comp f1.flip k2.flip).imp ?_
                rintro i l ⟨t, _, ⟨u, h7, h8⟩, h9⟩ u' f hu hf j hj
                simp only at h7
                rw [h7] at hu
                cases hu
                cases hf.det h8
                exact h9 j hj
              intro p hp u f hu hf
              exact mem_zip_of_forall₂ (P := fun p => ∀ u f, p.1.1 = some u → Canon m.ctx.types u (.list f) →
                ∀ j ∈ p.2, ItemOk m j f) this p hp u f hu hf
          have hjp : ∀ q : Bool, OutOk m none (UnconsOk m c)
              (if q = true then r.uncons (comprehensionItem env' t e bs :: .loop env t e b bs ls' :: is)
                else r.uncons (.loop env t e b bs ls' :: is)) := by
            intro q
            have hitem : ItemOk m (comprehensionItem env' t e bs) c := by
              cases bs with
              | nil =>
                cases g6 with
                | nil h => exact .one k1 h2 h h6
              | cons b' bs' => exact .many k1 (.comprehension h2 g6) h6
            cases q
            · exact S.uncons hc (consOk hloop his)
            · exact S.uncons hc (consOk hitem (consOk hloop his))
          simp only
          cases hcnd : b.condition with
          | none => exact hjp true
          | some cnd =>
            exact OutOk.bind (S.eval k1 (g5 cnd hcnd)).noReturn fun v hv =>
              OutOk.bind (asBoolean_ok hv) fun q _ => hjp q
    | keys h1 h2 h3 h4 =>
      unfold stepUncons
      refine OutOk.bind (S.eval h1 h3).noReturn fun v hv => ?_
      refine OutOk.bind (asMap_ok hv) fun es hes => ?_
      refine S.uncons hc (appendOk ?_ his)
      intro i hi
      simp only [List.mem_map] at hi
      obtain ⟨p, hp, rfl⟩ := hi
      exact .stored h2 (hes.1 p hp) h4
    | values h1 h2 h3 h4 =>
      unfold stepUncons
      refine OutOk.bind (S.eval h1 h3).noReturn fun v hv => ?_
      refine OutOk.bind (asMap_ok hv) fun es hes => ?_
      refine S.uncons hc (appendOk ?_ his)
      intro i hi
      simp only [List.mem_map] at hi
      obtain ⟨p, hp, rfl⟩ := hi
      exact .stored h2 (hes.2 p hp) h4
    | @race _ _ _ _ d _ h1 h2 h3 h4 =>
      unfold stepUncons
      refine OutOk.bind (S.eval h1 h3).noReturn fun v hv => ?_
      refine OutOk.bind (asList_ok hv) fun js hjs => ?_
      refine OutOk.bind (forceAll_ok S h2.self _ hjs) fun vs hvs => ?_
      have : ∀ v ∈ vs, OutOk m none (fun l => ∀ i ∈ l, ItemOk m i d) (do
          let v ← downcastValue r.types (m.ctx.types) _ v
          v.asList) := fun v hv =>
        OutOk.bind (OutOk.downcast _ h2 (hvs v hv)) fun w hw => asList_ok hw
      refine OutOk.bind (OutOk.mapList this) fun ls hls => ?_
      refine S.uncons hc (consOk (.racing h2.list_arg ?_ h4) his)
      intro l hl
      obtain ⟨_, _, h⟩ := forall₂_mem_right hls hl
      exact h
    | @racing ls d _ h1 h2 h3 =>
      cases ls with
      | nil => exact S.uncons hc his
      | cons l ls =>
        unfold stepUncons
        have hg : ∀ i ∈ (l :: ls).getD (W.pick r.fuel (l :: ls).length % (l :: ls).length) [], ItemOk m i d := by
          intro i hi
          rw [List.getD_eq_getElem?_getD] at hi
          cases hq : (l :: ls)[W.pick r.fuel (l :: ls).length % (l :: ls).length]? with
          | none => rw [hq] at hi; simp at hi
          | some q =>
            rw [hq] at hi
            exact h2 q (List.mem_of_getElem? hq) i hi
        refine OutOk.bind (S.uncons h1 hg) fun o ho => ?_
        cases o with
        | none =>
          refine S.uncons hc (consOk (.racing h1 ?_ h3) his)
          intro q hq
          exact h2 q (List.mem_of_mem_eraseIdx hq)
        | some p =>
          obtain ⟨i, is'⟩ := p
          obtain ⟨g1, g2, g3⟩ := ho i is' rfl
          refine OutOk.val (P := UnconsOk m c) ?_
          intro j js h
          cases h
          refine ⟨g1, g2.mono h3 hc, consOk (.racing h1 ?_ h3) his⟩
          intro q hq
          rcases List.mem_or_eq_of_mem_set hq with hq | rfl
          · exact h2 q hq
          · exact g3

/-! ## Built-in functions -/

theorem forall₂_args {Γ : Vars} {ρ : Option Ty} {args : List Expr} {as : List Ty}
    (hl : args.length = as.length) (h : ∀ p ∈ args.zip as, Typed m.ctx Γ ρ p.1 p.2) :
    List.Forall₂ (Typed m.ctx Γ ρ) args as := forall₂_of_zip hl h

theorem stepBuiltIn_ok (S : Sound m r) {env : Env} {Γ : Vars} {ρ : Option Ty} {t : Ty} {f : BuiltIn}
    {args : List Expr} {as : List Ty} {c : Ty} (he : EnvOk m env Γ)
    (hc : Canon m.ctx.types t (.function as c)) (hf : BuiltInTy f as c)
    (ha : List.Forall₂ (Typed m.ctx Γ (if f.deferred then none else ρ)) args as) :
    OutOk m ρ (HasType m · c) (stepBuiltIn W m r env (some t) f args) := by
  have hcs := hc.function_arg
  cases hf with
  | debug =>
    cases ha with | cons h1 hn => cases hn with | nil =>
    exact OutOk.bind (S.eval he h1) fun v _ => OutOk.val (P := (HasType m · _)) .none
  | @delete k v k' hs =>
    cases ha with | cons h1 hn => cases hn with | cons h2 hn => cases hn with | nil =>
    refine OutOk.bind (S.eval he h1) fun a hv => ?_
    refine OutOk.bind (asMap_ok hv) fun es hes => ?_
    refine OutOk.bind (S.eval he h2) fun b hb => ?_
    refine OutOk.bind (OutOk.functionType _ hc) fun ft hft => ?_
    subst hft
    simp only
    refine OutOk.bind (OutOk.coerceAny _ hb (hcs.1 k' (by simp))) fun i _ => ?_
    have hm := (hcs.1 (.map k v) (by simp)).map_arg
    refine OutOk.val (P := (HasType m · _)) (.map hm.1 hm.2 ?_ ?_)
    · exact fun p hp => hes.1 p (List.mem_of_mem_filter hp)
    · exact fun p hp => hes.2 p (List.mem_of_mem_filter hp)
  | error =>
    cases ha with | cons h1 hn => cases hn with | nil =>
    refine OutOk.bind (S.eval he h1) fun v hv => ?_
    cases hv.variant_inv (Or.inl rfl) with
    | @mk tag w _ g1 g2 g3 g4 g5 =>
      by_cases ht : tag = .error
      · subst ht
        simp only [if_true]
        exact OutOk.val (P := (HasType m · _)) g5
      · simp only [ht, if_false]
        exact OutOk.val (P := (HasType m · _)) (.error hv)
  | keys k v =>
    cases ha with | cons h1 hn => cases hn with | nil =>
    refine OutOk.bind (OutOk.functionType _ hc) fun ft hft => ?_
    subst hft
    simp only
    have hm := hcs.1 (.map k v) (by simp)
    refine OutOk.bind (OutOk.expectMap _ hm) fun kv hkv => ?_
    subst hkv
    refine OutOk.val (P := (HasType m · _)) (.list hm.map_arg.1 ?_)
    intro i hi
    simp only [List.mem_singleton] at hi
    subst hi
    exact .keys he hm.map_arg.1 h1 (.refl _)
  | values k v =>
    cases ha with | cons h1 hn => cases hn with | nil =>
    refine OutOk.bind (OutOk.functionType _ hc) fun ft hft => ?_
    subst hft
    simp only
    have hm := hcs.1 (.map k v) (by simp)
    refine OutOk.bind (OutOk.expectMap _ hm) fun kv hkv => ?_
    subst hkv
    refine OutOk.val (P := (HasType m · _)) (.list hm.map_arg.2 ?_)
    intro i hi
    simp only [List.mem_singleton] at hi
    subst hi
    exact .values he hm.map_arg.2 h1 (.refl _)
  | race e =>
    cases ha with | cons h1 hn => cases hn with | nil =>
    refine OutOk.bind (OutOk.functionType _ hc) fun ft hft => ?_
    subst hft
    refine OutOk.val (P := (HasType m · _)) (.list hcs.2.list_arg ?_)
    intro i hi
    simp only [List.mem_singleton] at hi
    subst hi
    exact .race he hcs.2 h1 (.refl _)
  | reflectDebug =>
    cases ha with | cons h1 hn => cases hn with | nil =>
    exact OutOk.bind (S.eval he h1) fun v hv => OutOk.val (P := (HasType m · _)) (.string _)
  | reflectEqual =>
    cases ha with | cons h1 hn => cases hn with | cons h2 hn => cases hn with | nil =>
    refine OutOk.bind (S.eval he h1) fun v hv => ?_
    refine OutOk.bind (S.eval he h2) fun w hw => ?_
    cases W.reflectEqual v w with
    | none =>
      refine OutOk.val (P := (HasType m · _)) (.variant (Or.inr ⟨_, _, rfl⟩) (.mk ?_ canon_none ?_ ?_ .none))
      · simp [unionMembers]
      · simp [NotUnion]
      · simp
    | some b =>
      refine OutOk.val (P := (HasType m · _)) (.variant (Or.inr ⟨_, _, rfl⟩)
        (.mk ?_ canon_boolean ?_ ?_ (.boolean b)))
      · simp [unionMembers]
      · simp [NotUnion]
      · simp
  | sizeList e =>
    cases ha with | cons h1 hn => cases hn with | nil =>
    refine OutOk.bind (S.eval he h1) fun v hv => ?_
    obtain ⟨is, h2, h3, h4⟩ := hv.list_inv
    subst h2
    exact OutOk.bind (countAll_ok S h3 _ h4).weaken fun k _ => OutOk.val (P := (HasType m · _)) (.number _)
  | sizeMap k v =>
    cases ha with | cons h1 hn => cases hn with | nil =>
    refine OutOk.bind (S.eval he h1) fun v hv => ?_
    obtain ⟨es, h2, _⟩ := hv.map_inv
    subst h2
    exact OutOk.val (P := (HasType m · _)) (.number _)
  | source =>
    cases ha with | cons h1 hn => cases hn with | nil =>
    refine OutOk.bind (S.eval he h1) fun v hv => ?_
    obtain ⟨s, h2, h3⟩ := hv.error_inv
    subst h2
    exact OutOk.val (P := (HasType m · _)) h3
  | spawn c =>
    cases ha with | cons h1 hn => cases hn with | nil =>
    refine OutOk.bind (OutOk.functionType _ hc) fun ft hft => ?_
    subst hft
    simp only
    refine OutOk.bind (OutOk.expectFunction _ hcs.2) fun gt hgt => ?_
    subst hgt
    exact OutOk.val (P := (HasType m · _)) (.spawned he h1 hcs.2.function_arg.2)

/-! ## Type branches and maps -/

theorem stepAlternatives_ok (S : Sound m r) {env : Env} {Γ : Vars} {ρ : Option Ty} {x : String} {tag d : Ty}
    {p : Val} (he : EnvOk m env Γ) (h2 : Canon m.ctx.types tag tag) (h3 : NotUnion tag) (h4 : tag ≠ .any)
    (h5 : HasType m p tag) {else_ : Option (Option Ty × Expr)} : ∀ {bs : List (Ty × Expr)},
    (∀ q ∈ bs, ∃ cq, Canon m.ctx.types q.1 cq ∧ cq ≠ .any) →
    (∀ q ∈ bs, Typed m.ctx (Γ.insert x q.1) ρ q.2 d) →
    ((∃ q ∈ bs, ∃ cq, Canon m.ctx.types q.1 cq ∧ tag ∈ unionMembers cq) ∨
      ∃ t e c, else_ = some (some t, e) ∧ Canon m.ctx.types t c ∧ (c = .any ∨ tag ∈ unionMembers c)) →
    (∀ t e, else_ = some (some t, e) → Typed m.ctx (Γ.insert x t) ρ e d) →
    OutOk m ρ (HasType m · d) (stepAlternatives m r env x tag p bs else_)
  | (t, e) :: bs, hb, ht, hcov, hel => by
    unfold stepAlternatives
    obtain ⟨c, hc, _⟩ := hb (t, e) (by simp)
    refine OutOk.bind (OutOk.canonicalize _ hc) fun c' hc' => ?_
    subst hc'
    by_cases hm : alternativeMatches c' tag = true
    · simp only [hm, if_true]
      exact S.eval (he.insert hc (alternativeValue_ok hc hm h2 h3 h4 h5)) (ht (t, e) (by simp))
    · simp only [hm, if_false]
      refine stepAlternatives_ok S he h2 h3 h4 h5 (fun q hq => hb q (by simp [hq]))
        (fun q hq => ht q (by simp [hq])) ?_ hel
      rcases hcov with ⟨q, hq, cq, hq1, hq2⟩ | h
      · rcases List.mem_cons.mp hq with rfl | hq
        · cases hq1.det hc
          refine absurd ?_ hm
          unfold alternativeMatches
          rw [List.contains_iff_mem]
          exact hq2
        · exact Or.inl ⟨q, hq, cq, hq1, hq2⟩
      · exact Or.inr h
  | [], hb, ht, hcov, hel => by
    rcases hcov with ⟨q, hq, _⟩ | ⟨t, e, c, rfl, hc, h⟩
    · cases hq
    · unfold stepAlternatives
      refine OutOk.bind (OutOk.canonicalize _ hc) fun c' hc' => ?_
      subst hc'
      by_cases ha : c' = .any
      · subst ha
        simp only [if_true]
        exact S.eval (he.insert hc (.variant (Or.inl rfl) (.mk (Or.inl rfl) h2 h3 h4 h5))) (hel t e rfl)
      · have hm : alternativeMatches c' tag = true := by
          unfold alternativeMatches
          rw [List.contains_iff_mem]
          exact h.resolve_left ha
        simp only [ha, hm, if_true, if_false]
        exact S.eval (he.insert hc (alternativeValue_ok hc hm h2 h3 h4 h5)) (hel t e rfl)

/-- Entries of maps with keys of the type `k` and values of the type `v`. -/
def EntriesOk (m : Module) (k v : Ty) (es : List (Val × Val)) : Prop :=
  (∀ p ∈ es, IsVariantOf m p.1 k) ∧ ∀ p ∈ es, IsVariantOf m p.2 v

theorem mapSet_ok {k v : Ty} {es : List (Val × Val)} {a b : Val} (h : EntriesOk m k v es)
    (ha : IsVariantOf m a k) (hb : IsVariantOf m b v) : EntriesOk m k v (mapSet W es a b) := by
  unfold mapSet
  constructor
  · intro p hp
    rcases List.mem_append.mp hp with hp | hp
    · exact h.1 p (List.mem_of_mem_filter hp)
    · simp only [List.mem_singleton] at hp; subst hp; exact ha
  · intro p hp
    rcases List.mem_append.mp hp with hp | hp
    · exact h.2 p (List.mem_of_mem_filter hp)
    · simp only [List.mem_singleton] at hp; subst hp; exact hb

theorem mapMerge_ok {k v : Ty} : ∀ {fs es : List (Val × Val)}, EntriesOk m k v es → EntriesOk m k v fs →
    EntriesOk m k v (fs.foldl (fun es e => mapSet W es e.1 e.2) es)
  | [], _, h, _ => h
  | f :: fs, es, h, h' => by
    refine mapMerge_ok (fs := fs) (mapSet_ok h (h'.1 f (by simp)) (h'.2 f (by simp))) ?_
    exact ⟨fun p hp => h'.1 p (by simp [hp]), fun p hp => h'.2 p (by simp [hp])⟩

theorem stepMap_ok (S : Sound m r) {env : Env} {Γ : Vars} {ρ : Option Ty} {k v ck cv : Ty} (he : EnvOk m env Γ)
    (hk : Canon m.ctx.types k ck) (hv : Canon m.ctx.types v cv) : ∀ {elems : List (MapElem Expr)},
    (∀ a b, .single a b ∈ elems → Typed m.ctx Γ ρ a ck) → (∀ a b, .single a b ∈ elems → Typed m.ctx Γ ρ b cv) →
    (∀ e, .multiple e ∈ elems → Typed m.ctx Γ ρ e (.map ck cv)) →
    OutOk m ρ (EntriesOk m ck cv) (stepMap W m r env k v elems)
  | [], _, _, _ => by
    unfold stepMap
    exact OutOk.val (P := EntriesOk m ck cv) ⟨by simp, by simp⟩
  | .single a b :: rest, h1, h2, h3 => by
    unfold stepMap
    refine OutOk.bind (stepMap_ok S he hk hv (fun a b hm => h1 a b (by simp [hm]))
      (fun a b hm => h2 a b (by simp [hm])) fun e hm => h3 e (by simp [hm])) fun es h => ?_
    refine OutOk.bind (S.eval he (h1 a b (by simp))) fun x hx => ?_
    refine OutOk.bind (OutOk.coerceAny _ hx hk) fun x' hx' => ?_
    refine OutOk.bind (S.eval he (h2 a b (by simp))) fun y hy => ?_
    refine OutOk.bind (OutOk.coerceAny _ hy hv) fun y' hy' => ?_
    exact OutOk.val (P := EntriesOk m ck cv) (mapSet_ok h hx' hy')
  | .multiple e :: rest, h1, h2, h3 => by
    unfold stepMap
    refine OutOk.bind (S.eval he (h3 e (by simp))) fun x hx => ?_
    refine OutOk.bind (asMap_ok hx) fun fs hfs => ?_
    refine OutOk.bind (stepMap_ok S he hk hv (fun a b hm => h1 a b (by simp [hm]))
      (fun a b hm => h2 a b (by simp [hm])) fun e hm => h3 e (by simp [hm])) fun es h => ?_
    exact OutOk.val (P := EntriesOk m ck cv) (mapMerge_ok hfs h)

/-! ## Records -/

/-- Evaluated fields. -/
theorem fields_ok (S : Sound m r) {env : Env} {Γ : Vars} {ρ : Option Ty} {F : String → Ty}
    {fields : List (String × Expr)} (he : EnvOk m env Γ) (h : ∀ f ∈ fields, Typed m.ctx Γ ρ f.2 (F f.1)) :
    OutOk m ρ (fun vs : List (String × Val) => (∀ x, x ∈ vs.map (·.1) ↔ x ∈ fields.map (·.1)) ∧
        ∀ p ∈ vs, HasType m p.2 (F p.1))
      (Out.mapList (fun f : String × Expr => do
        let v ← r.eval env f.2
        .val (f.1, v)) fields) := by
  have : ∀ f ∈ fields, OutOk m ρ (fun p : String × Val => p.1 = f.1 ∧ HasType m p.2 (F f.1)) (do
      let v ← r.eval env f.2
      .val (f.1, v)) := fun f hf =>
    OutOk.bind (S.eval he (h f hf)) fun v hv =>
      OutOk.val (P := fun p : String × Val => p.1 = f.1 ∧ HasType m p.2 (F f.1)) ⟨rfl, hv⟩
  refine (OutOk.mapList this).imp fun vs hvs => ?_
  clear this h
  induction hvs with
  | nil => simp
  | cons h1 _ ih =>
    refine ⟨fun x => by simp only [List.map_cons, List.mem_cons, h1.1, ih.1], ?_⟩
    intro p hp
    rcases List.mem_cons.mp hp with rfl | hp
    · rw [h1.1]; exact h1.2
    · exact ih.2 p hp

theorem lookupField_isSome {vs : List (String × Val)} {x : String} (h : x ∈ vs.map (·.1)) :
    (lookupField vs x).isSome := by
  unfold lookupField
  obtain ⟨p, hp, rfl⟩ := List.mem_map.mp h
  rw [Option.isSome_map, List.find?_isSome]
  exact ⟨p, hp, by simp⟩

theorem lookupField_mem {vs : List (String × Val)} {x : String} {v : Val} (h : lookupField vs x = some v) :
    (x, v) ∈ vs := by
  unfold lookupField at h
  obtain ⟨p, h1, rfl⟩ := Option.map_eq_some_iff.mp h
  have h2 := List.find?_some h1
  simp only [beq_iff_eq] at h2
  subst h2
  exact List.mem_of_find?_eq_some h1

theorem FieldTy.det {C : Ctx} {n x : String} {c d : Ty} (h : FieldTy C n x c) (h' : FieldTy C n x d) : c = d := by
  obtain ⟨fs, t, h1, h2, h3⟩ := h
  obtain ⟨gs, u, h4, h5, h6⟩ := h'
  rw [h1] at h4; cases h4
  rw [h2] at h5; cases h5
  exact h3.det h6

theorem fieldType_mem {fs : List RecordField} {x : String} {t : Ty} (h : fieldType fs x = .ok t) :
    ∃ f ∈ fs, f.name = x ∧ f.type = t := by
  unfold fieldType at h
  split at h
  · rename_i f hf
    cases h
    have := List.find?_some hf
    simp only [beq_iff_eq] at this
    exact ⟨f, List.mem_of_find?_eq_some hf, this, rfl⟩
  · cases h

/-! ## Expressions -/

theorem letBinding_ok {env : Env} {Γ : Vars} {x : Option String} {t c : Ty} {v : Val} (he : EnvOk m env Γ)
    (hc : Canon m.ctx.types t c) (hv : HasType m v c) :
    EnvOk m (Env.insertAll env (match x with | none => [] | some x => [(x, v)])) (Γ.insertAll (letBinding x t)) := by
  cases x with
  | none => exact he
  | some x => exact he.insert hc hv

theorem evalArgs_ok (S : Sound m r) {env : Env} {Γ : Vars} {ρ : Option Ty} (he : EnvOk m env Γ) :
    ∀ {args : List Expr} {as : List Ty}, List.Forall₂ (Typed m.ctx Γ ρ) args as →
    OutOk m ρ (fun vs => List.Forall₂ (HasType m) vs as) (Out.mapList (r.eval env) args)
  | _, _, .nil => OutOk.val (P := fun vs => List.Forall₂ (HasType m) vs []) .nil
  | _, _, .cons h hs => by
    unfold Out.mapList
    refine OutOk.bind (S.eval he h) fun v hv => ?_
    refine OutOk.bind (evalArgs_ok S he hs) fun vs hvs => ?_
    exact OutOk.val (P := fun vs => List.Forall₂ (HasType m) vs _) (.cons hv hvs)

theorem asRecord_ok {ρ : Option Ty} {a : Nat} {t : Ty} {n : String} (h : Canon m.ctx.types t (.record n))
    (fs : List (String × Val)) :
    OutOk m ρ (fun q => q = (n, fs)) (Val.asRecord a m.ctx.types t (.record n fs)) := by
  unfold Val.asRecord
  refine OutOk.bind (OutOk.canonicalize _ h) fun c' hc' => ?_
  subst hc'
  simp only [if_true]
  exact OutOk.val (P := fun q => q = (n, fs)) rfl

theorem stepEval_ok (S : Sound m r) (hm : ModuleOk m) {env : Env} {Γ : Vars} {ρ : Option Ty} {e : Expr} {c : Ty}
    (he : EnvOk m env Γ) (ht : Typed m.ctx Γ ρ e c) : OutOk m ρ (HasType m · c) (stepEval W m r env e) := by
  cases ht with
  | boolean b => exact OutOk.val (P := (HasType m · _)) (.boolean b)
  | none => exact OutOk.val (P := (HasType m · _)) .none
  | number i => exact OutOk.val (P := (HasType m · _)) (.number i)
  | string s => exact OutOk.val (P := (HasType m · _)) (.string s)
  | var h1 h2 => exact lookup_ok hm he h1 h2
  | call h1 h2 h3 h4 =>
    refine OutOk.bind (S.eval he h2) fun f hf => ?_
    have h5 := forall₂_args h3 h4
    have this := evalArgs_ok S he h5
    exact OutOk.bind this fun vs hvs => (S.apply hf hvs).noReturn.weaken
  | builtInCall h1 h2 h3 h4 => exact stepBuiltIn_ok S he h1 h2 (forall₂_args h3 h4)
  | if_ h1 h2 h3 =>
    refine OutOk.bind (S.eval he h1) fun v hv => ?_
    refine OutOk.bind (asBoolean_ok hv) fun q _ => ?_
    cases q
    · exact S.eval he h3
    · exact S.eval he h2
  | ifList h0 h1 h2 h3 =>
    refine OutOk.bind (S.eval he h1) fun v hv => ?_
    refine OutOk.bind (asList_ok hv) fun is his => ?_
    refine OutOk.bind (S.uncons h0 his).noReturn.weaken fun o ho => ?_
    cases o with
    | none => exact S.eval he h3
    | some p =>
      obtain ⟨i, is'⟩ := p
      obtain ⟨g1, g2, g3⟩ := ho i is' rfl
      refine S.eval ?_ h2
      exact (he.insert (Canon.function .nil h0) (.element g1 g2 h0)).insert h0.list (.list h0 g3)
  | ifMap h1 h2 h3 h4 h5 h6 =>
    refine OutOk.bind (S.eval he h3) fun v hv => ?_
    refine OutOk.bind (asMap_ok hv) fun es hes => ?_
    refine OutOk.bind (S.eval he h4) fun k hk => ?_
    refine OutOk.bind (OutOk.coerceAny _ hk h1) fun k' _ => ?_
    cases hf : es.find? (fun e => W.equal e.1 k') with
    | none => exact S.eval he h6
    | some p =>
      refine OutOk.bind (OutOk.downcast _ h2 (hes.2 p (List.mem_of_find?_eq_some hf))) fun w hw => ?_
      exact S.eval (he.insert h2 hw) h5
  | @ifTypeElse _ _ _ _ _ _ _ _ ct _ h1 h2 h3 h4 h5 h6 h7 =>
    refine OutOk.bind (S.eval he h1) fun v hv => ?_
    cases hv.variant_inv h2 with
    | @mk tag p _ g1 g2 g3 g4 g5 =>
      refine stepAlternatives_ok S he g2 g3 g4 g5 h3 h4 ?_ ?_
      · by_cases ha : ct = Ty.any
        · exact Or.inr ⟨_, _, _, rfl, h5, Or.inl ha⟩
        · obtain ⟨h8, h9⟩ := h6 ha
          rcases h9 tag (g1.resolve_left h8) with h | h
          · exact Or.inr ⟨_, _, _, rfl, h5, Or.inr h⟩
          · exact Or.inl h
      · intro t e h
        cases h
        exact h7
  | ifType h1 h2 h3 h4 h5 h6 =>
    refine OutOk.bind (S.eval he h1) fun v hv => ?_
    cases hv.variant_inv h2 with
    | @mk tag p _ g1 g2 g3 g4 g5 =>
      refine stepAlternatives_ok S he g2 g3 g4 g5 h4 h5 (Or.inl (h6 tag (g1.resolve_left h3))) ?_
      intro t e h
      cases h
  | lambda h1 h2 => exact OutOk.val (P := (HasType m · _)) (closure_ok he h1 h2)
  | let_ h1 h2 h3 =>
    refine OutOk.bind (S.eval he h2) fun v hv => ?_
    exact S.eval (letBinding_ok he h1 hv) h3
  | list h1 h2 h3 =>
    refine OutOk.val (P := (HasType m · _)) (.list h1.self ?_)
    intro i hi
    obtain ⟨e, hmem, rfl⟩ := List.mem_map.mp hi
    cases e with
    | single e => exact .one he h1 (h2 e hmem) (.refl _)
    | multiple e => exact .many he (h3 e hmem) (.refl _)
  | comprehension h1 h2 =>
    refine OutOk.val (P := (HasType m · _)) (.list h1.self ?_)
    intro i hi
    simp only [List.mem_singleton] at hi
    subst hi
    exact .comprehension he h1 h2 (.refl _)
  | map h1 h2 h3 h4 h5 =>
    refine OutOk.bind (stepMap_ok S he h1 h2 (fun a b hm => h3 a b (List.mem_reverse.mp hm))
      (fun a b hm => h4 a b (List.mem_reverse.mp hm)) fun e hm => h5 e (List.mem_reverse.mp hm)) fun es hes => ?_
    exact OutOk.val (P := (HasType m · _)) (.map h1.self h2.self hes.1 hes.2)
  | addNumber h1 h2 =>
    refine OutOk.bind (S.eval he h1) fun v hv => ?_
    refine OutOk.bind (asNumber_ok hv) fun i _ => ?_
    refine OutOk.bind (S.eval he h2) fun w hw => ?_
    refine OutOk.bind (asNumber_ok hw) fun j _ => ?_
    exact OutOk.val (P := (HasType m · _)) (.number _)
  | addString h1 h2 =>
    refine OutOk.bind (S.eval he h1) fun v hv => ?_
    refine OutOk.bind (S.eval he h2) fun w hw => ?_
    refine OutOk.bind (asString_ok hv) fun i _ => ?_
    refine OutOk.bind (asString_ok hw) fun j _ => ?_
    exact OutOk.val (P := (HasType m · _)) (.string _)
  | arithmetic h1 h2 =>
    refine OutOk.bind (S.eval he h1) fun v hv => ?_
    refine OutOk.bind (asNumber_ok hv) fun i _ => ?_
    refine OutOk.bind (S.eval he h2) fun w hw => ?_
    refine OutOk.bind (asNumber_ok hw) fun j _ => ?_
    exact OutOk.val (P := (HasType m · _)) (.number _)
  | @booleanOp _ _ op _ _ h1 h2 =>
    refine OutOk.bind (S.eval he h1) fun v hv => ?_
    refine OutOk.bind (asBoolean_ok hv) fun q _ => ?_
    cases op <;> cases q
    · exact OutOk.val (P := (HasType m · _)) (.boolean _)
    · exact S.eval he h2
    · exact S.eval he h2
    · exact OutOk.val (P := (HasType m · _)) (.boolean _)
  | @equality _ _ t op a b d h0 h1 h2 =>
    have : OutOk m ρ (fun _ => True) (stepEqual W m r env t a b) := by
      unfold stepEqual
      refine OutOk.bind (OutOk.canonicalize _ h0) fun c hc => ?_
      subst hc
      cases c with
      | number =>
        refine OutOk.bind (S.eval he h1) fun v hv => ?_
        refine OutOk.bind (asNumber_ok hv) fun i _ => ?_
        refine OutOk.bind (S.eval he h2) fun w hw => ?_
        refine OutOk.bind (asNumber_ok hw) fun j _ => ?_
        exact OutOk.val (P := fun _ => True) trivial
      | string =>
        refine OutOk.bind (S.eval he h1) fun v hv => ?_
        refine OutOk.bind (S.eval he h2) fun w hw => ?_
        refine OutOk.bind (asString_ok hv) fun i _ => ?_
        refine OutOk.bind (asString_ok hw) fun j _ => ?_
        exact OutOk.val (P := fun _ => True) trivial
      | _ =>
        refine OutOk.bind (S.eval he h1) fun v hv => ?_
        refine OutOk.bind (S.eval he h2) fun w hw => ?_
        exact OutOk.val (P := fun _ => True) trivial
    exact OutOk.bind this fun q _ => OutOk.val (P := (HasType m · _)) (.boolean _)
  | not h1 =>
    refine OutOk.bind (S.eval he h1) fun v hv => ?_
    refine OutOk.bind (asBoolean_ok hv) fun q _ => ?_
    exact OutOk.val (P := (HasType m · _)) (.boolean _)
  | order h1 h2 =>
    refine OutOk.bind (S.eval he h1) fun v hv => ?_
    refine OutOk.bind (asNumber_ok hv) fun i _ => ?_
    refine OutOk.bind (S.eval he h2) fun w hw => ?_
    refine OutOk.bind (asNumber_ok hw) fun j _ => ?_
    exact OutOk.val (P := (HasType m · _)) (.boolean _)
  | @try_ _ t a c0 _ rt h1 h2 h3 h4 _ h5 h6 h7 =>
    refine OutOk.bind (S.eval he h1) fun v hv => ?_
    cases hv.variant_inv h2 with
    | @mk tag p _ g1 g2 g3 g4 g5 =>
      by_cases hte : tag = .error
      · simp only [hte, if_true]
        refine fun _ => ⟨rt, rfl, .variant h6 (.mk ?_ canon_error (by simp [NotUnion]) (by simp) (hte ▸ g5))⟩
        rcases h7 with h | h
        · exact Or.inl h
        · exact Or.inr (h _ (by simp [unionMembers]))
      · simp only [hte, if_false]
        refine OutOk.bind (OutOk.canonicalize _ h4) fun c' hc' => ?_
        subst hc'
        have hmt : alternativeMatches c' tag = true := by
          unfold alternativeMatches
          rw [List.contains_iff_mem]
          exact (h5 tag (g1.resolve_left h3)).resolve_left hte
        simp only [hmt, if_true]
        exact OutOk.val (P := (HasType m · _)) (alternativeValue_ok h4 hmt g2 g3 g4 g5)
  | record h1 h2 h3 h4 h5 =>
    refine OutOk.bind (fields_ok S he h5) fun vs hvs => ?_
    refine OutOk.bind (OutOk.canonicalize _ h1) fun c' hc' => ?_
    subst hc'
    refine OutOk.val (P := (HasType m · _)) (.record ?_ ?_)
    · intro x c hx
      obtain ⟨fs, t, g1, g2, _⟩ := hx
      rw [h2] at g1
      cases g1
      obtain ⟨f, g3, g4, _⟩ := fieldType_mem g2
      apply lookupField_isSome
      rw [List.map_reverse, List.mem_reverse, hvs.1, ← g4]
      exact h3 f g3
    · intro x c v hx hv
      have h6 := List.mem_reverse.mp (lookupField_mem hv)
      have h7 : x ∈ vs.map (·.1) := List.mem_map.mpr ⟨_, h6, rfl⟩
      rw [hvs.1] at h7
      obtain ⟨f, h8, h9⟩ := List.mem_map.mp h7
      have h10 := h4 f h8
      rw [h9] at h10
      rw [hx.det h10]
      exact hvs.2 _ h6
  | deconstruct h1 h2 h3 =>
    refine OutOk.bind (S.eval he h2) fun v hv => ?_
    obtain ⟨vs, g1, g2, g3⟩ := hv.record_inv
    subst g1
    refine OutOk.bind (asRecord_ok h1 vs) fun q hq => ?_
    subst hq
    simp only
    have h4 := g2 _ _ h3
    cases hl : lookupField vs _ with
    | none => rw [hl] at h4; cases h4
    | some w => exact OutOk.val (P := (HasType m · _)) (g3 _ _ _ h3 hl)
  | @update _ _ _ n _ fields F h1 h2 h3 h4 =>
    refine OutOk.bind (S.eval he h2) fun v hv => ?_
    obtain ⟨vs, g1, g2, g3⟩ := hv.record_inv
    subst g1
    refine OutOk.bind (asRecord_ok h1 vs) fun q hq => ?_
    subst hq
    refine OutOk.bind (fields_ok S he h4) fun ws hws => ?_
    have happ : ∀ x, lookupField (ws.reverse ++ vs) x = (lookupField ws.reverse x).or (lookupField vs x) := by
      intro x
      unfold lookupField
      rw [List.find?_append]
      cases ws.reverse.find? (fun f => f.1 == x) <;> simp
    refine OutOk.val (P := (HasType m · _)) (.record ?_ ?_)
    · intro x c hx
      rw [happ, Option.isSome_or]
      simp [g2 x c hx]
    · intro x c v hx hv
      rw [happ] at hv
      cases hw : lookupField ws.reverse x with
      | none =>
        rw [hw, Option.none_or] at hv
        exact g3 x c v hx hv
      | some w =>
        rw [hw, Option.some_or] at hv
        cases hv
        have h6 := List.mem_reverse.mp (lookupField_mem hw)
        have h7 : x ∈ ws.map (·.1) := List.mem_map.mpr ⟨_, h6, rfl⟩
        rw [hws.1] at h7
        obtain ⟨f, h8, h9⟩ := List.mem_map.mp h7
        have h10 := h3 f h8
        rw [h9] at h10
        rw [hx.det h10]
        exact hws.2 _ h6
  | coercion h1 h2 h3 h4 =>
    refine OutOk.bind (S.eval he h3) fun v hv => ?_
    exact OutOk.coerce _ hv h1 h2 h4

theorem evalWith_sound (S : Sound m { r with eval := fun _ _ => .more }) (hm : ModuleOk m) :
    ∀ d, Sound m { r with eval := evalWith W m r d }
  | 0 => ⟨fun _ _ => OutOk.more, S.apply, S.uncons, S.force⟩
  | d + 1 => ⟨fun he ht => stepEval_ok (evalWith_sound S hm d) hm he ht, S.apply, S.uncons, S.force⟩

theorem complete_sound (S : Sound m { r with eval := fun _ _ => .more }) (hm : ModuleOk m) :
    Sound m (r.complete W m) :=
  ⟨fun he ht => (evalWith_sound S hm _).eval he ht, S.apply, S.uncons, S.force⟩

/-- Evaluation never gets stuck. -/
theorem evaluator_sound (hm : ModuleOk m) (hw : WorldOk m W) (a : Nat) : ∀ n, Sound m (evaluator W m a n)
  | 0 => complete_sound ⟨fun _ _ => OutOk.more, fun _ _ => OutOk.more, fun _ _ => OutOk.more,
      fun _ _ _ => OutOk.more⟩ hm
  | n + 1 =>
    have S := evaluator_sound hm hw a n
    complete_sound ⟨fun _ _ => OutOk.more, fun hf ha => stepApply_ok S hw hf ha,
      fun hc h => stepUncons_ok S hc h, fun hc hf hi => stepForce_ok S hc hf hi⟩ hm

end Verif.Hir
