import Verif.Mir.Environment
import Verif.Mir.Pointwise
import Verif.Mir.FreeVariablesLemmas
import Verif.Mir.ConversionLemmas

namespace Verif.Mir

/-- All variables are known. -/
def Known (ρ : Env) (known : List Name) : Prop := ∀ x, ρ x ≠ none → x ∈ known

theorem Known.set {ρ : Env} {known : List Name} (h : Known ρ known) (x : Name) (v : Value) : Known (ρ.set x v) (x :: known) := by
  intro y hy
  simp only [Env.set] at hy
  split at hy
  · subst_vars; simp
  · simp [h y hy]

theorem Known.setMany : ∀ {xs : List Name} {vs : List Value} {ρ ρ1 : Env} {known : List Name}, Known ρ known →
    ρ.setMany xs vs = some ρ1 → Known ρ1 (xs ++ known)
  | [], [], ρ, ρ1, known, h, he => by simp only [Env.setMany, Option.some.injEq] at he; subst he; exact h
  | x :: xs, v :: vs, ρ, ρ1, known, h, he => by
    simp only [Env.setMany] at he
    have := Known.setMany (h.set x v) he
    intro y hy
    have := this y hy
    simp only [List.mem_append, List.mem_cons, List.cons_append] at this ⊢
    grind
  | [], _ :: _, ρ, ρ1, known, h, he => by simp [Env.setMany] at he
  | _ :: _, [], ρ, ρ1, known, h, he => by simp [Env.setMany] at he

theorem Known.mono {ρ : Env} {known known' : List Name} (h : Known ρ known) (hk : ∀ x ∈ known, x ∈ known') :
    Known ρ known' := fun x hx => hk x (h x hx)

def inferDef (known : List Name) (d : Def) : Def :=
  ⟨d.f, inferredEnvironment known d.f d.args d.body, d.args, d.thunk, infer (d.f :: d.args ++ known) d.body⟩

def inferK (p : Program) : ClosureRel where
  source := p
  target := inferProgram p
  closure d d' ren live ρ _ := ren = id ∧ (∀ x ∈ free d.body, x ≠ d.f → x ∉ d.args → live x) ∧
    ∃ known, Known ρ known ∧ d' = inferDef known d
  lifted _ _ _ := False

theorem inferProgram_isGlobal (p : Program) (x : Name) : (inferProgram p).isGlobal x = p.isGlobal x :=
  isGlobal_map p (fun d => { d with body := infer d.args d.body }) (fun _ => rfl) x

theorem mem_inferredEnvironment {known args : List Name} {f x : Name} {body : Expr} :
    x ∈ inferredEnvironment known f args body ↔ x ∈ free body ∧ x ≠ f ∧ x ∉ args ∧ x ∈ known := by
  simp [inferredEnvironment, List.mem_eraseDups, not_or, and_assoc]

variable {S : Sim}

theorem EnvRel.set_id {K : ClosureRel} {live live' : Name → Prop} {ρ ρ' : Env} {x : Name} {v v' : Value}
    (h : EnvRel K id live ρ ρ') (hv : VRel K v v') (hl : ∀ y, live' y → y ≠ x → live y) :
    EnvRel K id live' (ρ.set x v) (ρ'.set x v') := by
  have := h.set (x := x) (x' := x) (live' := live') hv fun y h1 h2 => ⟨hl y h1 h2, h2⟩
  rwa [extend_self] at this

/-- The captured variables are all that the body needs. -/
theorem capture_rel {p : Program} {known : List Name} {d : Def} {ρ ρ' : Env} {live : Name → Prop} (hk : Known ρ known)
    (hl : ∀ x ∈ free d.body, x ≠ d.f → x ∉ d.args → live x) (hr : EnvRel (inferK p) id live ρ ρ') :
    EnvRel (inferK p) id (fun x => x ∈ free d.body ∧ x ≠ d.f ∧ x ∉ d.args) ρ
      (captureEnvironment (inferredEnvironment known d.f d.args d.body) ρ') := by
  rintro x ⟨h1, h2, h3⟩ v hv
  rw [lookup_captureEnvironment]
  simp only [id]
  by_cases hx : x ∈ known
  · rw [if_pos (mem_inferredEnvironment.mpr ⟨h1, h2, h3, hx⟩)]
    exact hr x (hl x h1 h2 h3) v hv
  · rw [if_neg (fun h => hx (mem_inferredEnvironment.mp h).2.2.2)]
    have hn : ρ x = none := by
      cases hρ : ρ x with
      | none => rfl
      | some u => exact absurd (hk x (by simp [hρ])) hx
    have hv' : lookup p (fun _ => none) x = some v := by
      have hv : lookup p ρ x = some v := hv
      unfold lookup at hv ⊢
      rw [hn] at hv
      exact hv
    obtain ⟨rfl, h4⟩ := lookup_empty (p' := inferProgram p) hv' (by rw [inferProgram_isGlobal]; exact id)
    exact ⟨_, h4, .global x⟩

mutual
theorem infer_sim (p : Program) (hK : S.K = inferK p) (hc : S.capture = captureAll) (hc' : S.capture' = captureEnvironment) :
    ∀ (e : Expr) (known : List Name) (ρ ρ' : Env), Known ρ known → EnvRel S.K id (· ∈ free e) ρ ρ' →
      SimAt S ρ ρ' e (infer known e)
  | .literal l, _, _, _, _, _ => .literal l
  | .variable x, _, _, _, _, hr => .variable (hr x (by simp [free]))
  | .op o es, known, ρ, ρ', hk, hr => .op o (inferExprs_sim p hK hc hc' es known ρ ρ' hk hr)
  | .case e as, known, ρ, ρ', hk, hr =>
    .case (infer_sim p hK hc hc' e known ρ ρ' hk (hr.mono fun x hx => ⟨by simp [free, hx], rfl⟩))
      (inferAlts_sim p hK hc hc' as known ρ ρ' hk (hr.mono fun x hx => ⟨by simp [free, hx], rfl⟩))
  | .if_ c t e, known, ρ, ρ', hk, hr =>
    .if_ (infer_sim p hK hc hc' c known ρ ρ' hk (hr.mono fun x hx => ⟨by simp [free, hx], rfl⟩))
      (infer_sim p hK hc hc' t known ρ ρ' hk (hr.mono fun x hx => ⟨by simp [free, hx], rfl⟩))
      (infer_sim p hK hc hc' e known ρ ρ' hk (hr.mono fun x hx => ⟨by simp [free, hx], rfl⟩))
  | .let_ x e b, known, ρ, ρ', hk, hr =>
    .let_ (infer_sim p hK hc hc' e known ρ ρ' hk (hr.mono fun x hx => ⟨by simp [free, hx], rfl⟩))
      fun v v' hv => infer_sim p hK hc hc' b _ _ _ (hk.set x v) (hr.set_id hv fun y hy hyx => by
        simp only [free, List.mem_append]; exact Or.inr (mem_filter_ne hy hyx))
  | .letRec f env args th body b, known, ρ, ρ', hk, hr => by
    simp only [infer]
    refine .letRec (infer_sim p hK hc hc' b _ _ _ (hk.set f _) (hr.set_id ?_ fun y hy hyx => ?_))
    · rw [hc, hc']
      have hr' := capture_rel (d := ⟨f, env, args, th, body⟩) hk (live := (· ∈ free (.letRec f env args th body b)))
        (by
          intro y hy hyf hya
          simp only [free, List.mem_filter, List.mem_append, bne_iff_ne, ne_eq, Bool.and_eq_true, List.all_eq_true]
          exact ⟨Or.inl ⟨hy, hyf, fun z hz h => hya (h ▸ hz)⟩, hyf⟩) (hK ▸ hr)
      rw [hK]
      exact VRel.close (K := inferK p) (d := ⟨f, env, args, th, body⟩) (d' := inferDef known ⟨f, env, args, th, body⟩)
        ⟨rfl, fun x h1 h2 h3 => ⟨h1, h2, h3⟩, known, hk, rfl⟩ hr'
    · simp only [free, List.mem_filter, List.mem_append, bne_iff_ne, ne_eq]
      exact ⟨Or.inr hy, hyx⟩
  | .try_ e x t b, known, ρ, ρ', hk, hr =>
    .try_ (infer_sim p hK hc hc' e known ρ ρ' hk (hr.mono fun x hx => ⟨by simp [free, hx], rfl⟩))
      fun v v' hv => infer_sim p hK hc hc' b _ _ _ (hk.set x v) (hr.set_id hv fun y hy hyx => by
        simp only [free, List.mem_append]; exact Or.inr (mem_filter_ne hy hyx))
  | .clone xs e, known, ρ, ρ', hk, hr => .clone xs xs (infer_sim p hK hc hc' e known ρ ρ' hk hr)
  | .drop xs e, known, ρ, ρ', hk, hr => .drop xs xs (infer_sim p hK hc hc' e known ρ ρ' hk hr)
theorem inferExprs_sim (p : Program) (hK : S.K = inferK p) (hc : S.capture = captureAll)
    (hc' : S.capture' = captureEnvironment) :
    ∀ (es : Exprs) (known : List Name) (ρ ρ' : Env), Known ρ known → EnvRel S.K id (· ∈ freeExprs es) ρ ρ' →
      SimsAt S ρ ρ' es (inferExprs known es)
  | .nil, _, _, _, _, _ => .nil
  | .cons e es, known, ρ, ρ', hk, hr =>
    .cons (infer_sim p hK hc hc' e known ρ ρ' hk (hr.mono fun x hx => ⟨by simp [freeExprs, hx], rfl⟩))
      (inferExprs_sim p hK hc hc' es known ρ ρ' hk (hr.mono fun x hx => ⟨by simp [freeExprs, hx], rfl⟩))
theorem inferAlts_sim (p : Program) (hK : S.K = inferK p) (hc : S.capture = captureAll)
    (hc' : S.capture' = captureEnvironment) :
    ∀ (as : Alts) (known : List Name) (ρ ρ' : Env), Known ρ known → EnvRel S.K id (· ∈ freeAlts as) ρ ρ' →
      SimAltsAt S ρ ρ' as (inferAlts known as)
  | .nil, _, _, _, _, _ => .nil
  | .cons ts x e as, known, ρ, ρ', hk, hr =>
    .cons ts (fun v v' hv => infer_sim p hK hc hc' e _ _ _ (hk.set x v) (hr.set_id hv fun y hy hyx => by
        simp only [freeAlts, List.mem_append]; exact Or.inl (mem_filter_ne hy hyx)))
      (inferAlts_sim p hK hc hc' as known ρ ρ' hk (hr.mono fun x hx => ⟨by simp [freeAlts, hx], rfl⟩))
end

theorem infer_calls (w : World) (p : Program) (n : Nat) :
    CallRel (inferK p) (apply w p captureAll n) (apply w (inferProgram p) captureEnvironment n) := by
  refine apply_rel (inferK p) w captureAll captureEnvironment ?_ ?_ ?_ ?_ n
  · intro d d' ren live ρ ρ' hk call call' hcall vs vs' log hr hvs
    have hv := VRel.close (K := inferK p) hk hr
    obtain ⟨rfl, hl, known, hkn, rfl⟩ := hk
    unfold Def.enter
    cases h : (ρ.set d.f (d.close ρ)).setMany d.args vs with
    | none => exact .stuck _
    | some ρ1 =>
      have h2 : EnvRel (inferK p) id (fun y => y ∈ free d.body ∧ y ∉ d.args) (ρ.set d.f (d.close ρ))
          (ρ'.set d.f ((inferDef known d).close ρ')) := hr.set_id hv fun y hy hyf => hl y hy.1 hyf hy.2
      obtain ⟨ρ1', h5, h6⟩ := h2.setMany (ren' := id) (live' := (· ∈ free d.body)) (xs := d.args) hvs
        (fun y hy hya => ⟨⟨hy, hya⟩, rfl⟩) (fun y _ x _ hne => hne) h
      simp only [List.map_id] at h5
      simp only [inferDef] at h5 ⊢
      rw [h5]
      refine RRel.catch ?_
      refine infer_sim (S := ⟨inferK p, w, captureAll, captureEnvironment, call, call', rfl, hcall⟩) p rfl rfl rfl d.body
        _ _ _ ?_ h6 log
      refine ((hkn.set d.f _).setMany h).mono fun x hx => ?_
      simp only [List.mem_append, List.mem_cons, List.cons_append] at hx ⊢
      grind
  · intro d ρ g h; exact h.elim
  · intro g d hd
    refine ⟨{ d with body := infer d.args d.body }, ?_, ?_⟩
    · simp only [inferK, inferProgram] at hd ⊢
      rw [find_map p (fun d => { d with body := infer d.args d.body }) (fun _ => rfl), hd]
      rfl
    · intro call call' hcall vs vs' log hvs
      unfold Global.enter
      cases h : Env.setMany (fun _ => none) d.args vs with
      | none => exact .stuck _
      | some ρ1 =>
        have h2 : EnvRel (inferK p) id (fun _ => True) (fun _ => none) (fun _ => none) := by
          intro x _ v hv
          obtain ⟨rfl, h2⟩ := lookup_empty (p' := inferProgram p) hv (by rw [inferProgram_isGlobal]; exact id)
          exact ⟨_, h2, .global x⟩
        obtain ⟨ρ1', h5, h6⟩ := h2.setMany (ren' := id) (live' := (· ∈ free d.body)) (xs := d.args) hvs
          (fun y hy hya => ⟨trivial, rfl⟩) (fun y _ x _ hne => hne) h
        simp only [List.map_id] at h5
        simp only [h5]
        refine RRel.catch ?_
        refine infer_sim (S := ⟨inferK p, w, captureAll, captureEnvironment, call, call', rfl, hcall⟩) p rfl rfl rfl d.body
          _ _ _ ?_ h6 log
        have := Known.setMany (known := []) (fun x hx => absurd rfl hx) h
        simpa using this
  · intro g h1 h2
    refine ⟨?_, h2⟩
    simp only [inferK, inferProgram] at h1 ⊢
    rw [find_map p (fun d => { d with body := infer d.args d.body }) (fun _ => rfl), h1]
    rfl

end Verif.Mir
