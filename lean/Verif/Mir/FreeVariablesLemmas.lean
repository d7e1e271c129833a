import Verif.Mir.FreeVariables
import Verif.Mir.Congruence

namespace Verif.Mir

/-- Functions stay the same, and their free variables are related. -/
def idK (p : Program) : ClosureRel where
  source := p
  target := p
  closure d d' ren live _ _ := d = d' ∧ ren = id ∧ ∀ x ∈ free d.body, x ≠ d.f → x ∉ d.args → live x
  lifted _ _ _ := False

theorem VRel.refl (p : Program) (v : Value) : VRel (idK p) v v := by
  refine Value.rec (motive_1 := fun v => VRel (idK p) v v) (motive_2 := fun vs => VsRel (idK p) vs vs)
    (motive_3 := fun o => ∀ v, o = some v → VRel (idK p) v v) .none .boolean .number .string
    (fun t _ h => .record t h) (fun t _ h => .variant t h) ?_ .global .nil (fun _ _ h hs => .cons h hs) ?_ ?_ v
  · intro f env args th body ρ ih
    refine VRel.close (d := ⟨f, env, args, th, body⟩) (d' := ⟨f, env, args, th, body⟩) (live := fun _ => True)
      ⟨rfl, rfl, fun _ _ _ _ => trivial⟩ ?_
    intro x _ v hv
    refine ⟨v, hv, ?_⟩
    unfold lookup at hv
    split at hv
    · rename_i u hu
      cases hv
      exact ih x v hu
    · split at hv
      · cases hv; exact .global x
      · cases hv
  · intro v h; cases h
  · intro v ih u hu; cases hu; exact ih

theorem mem_filter_ne {l : List Name} {x y : Name} (h : y ∈ l) (hne : y ≠ x) : y ∈ l.filter (· != x) := by
  simp [h, hne]

/-- What a closure captures is related if the environments are. -/
def Capturing (K : ClosureRel) (capture : List Name → Env → Env) : Prop :=
  ∀ (live : Name → Prop) (ρ ρ' : Env) (env : List Name), EnvRel K id live ρ ρ' →
    EnvRel K id live (capture env ρ) (capture env ρ')

variable {S : Sim}

mutual
theorem free_sim (p : Program) (hK : S.K = idK p) (hc : S.capture = S.capture') (hcap : Capturing (idK p) S.capture) :
    ∀ (e : Expr) (live : Name → Prop), (∀ x ∈ free e, live x) → SimE S id live e e
  | .literal l, _, _ => .literal l
  | .variable x, live, h => .variable (h x (by simp [free])) rfl
  | .op o es, live, h => .op o (freeExprs_sim p hK hc hcap es live h)
  | .case e as, live, h =>
    .case (free_sim p hK hc hcap e live fun x hx => h x (by simp [free, hx]))
      (freeAlts_sim p hK hc hcap as live fun x hx => h x (by simp [free, hx]))
  | .if_ c t e, live, h =>
    .if_ (free_sim p hK hc hcap c live fun x hx => h x (by simp [free, hx]))
      (free_sim p hK hc hcap t live fun x hx => h x (by simp [free, hx]))
      (free_sim p hK hc hcap e live fun x hx => h x (by simp [free, hx]))
  | .let_ x e b, live, h => by
    refine .let_ (live' := fun y => y ∈ free b) (free_sim p hK hc hcap e live fun x hx => h x (by simp [free, hx])) ?_ ?_
    · rw [extend_self]
      exact free_sim p hK hc hcap b _ fun x hx => hx
    · intro y hy hyx
      exact ⟨h y (by simp only [free, List.mem_append]; exact Or.inr (mem_filter_ne hy hyx)), hyx⟩
  | .letRec f env args th body b, live, h => by
    refine SimE.letRec (d := ⟨f, env, args, th, body⟩) (d' := ⟨f, env, args, th, body⟩) (renC := id)
      (liveC := fun x => x ∈ free body ∧ x ≠ f ∧ x ∉ args) (live' := fun y => y ∈ free b) ?_ ?_ ?_ ?_
    · rw [hK]
      exact fun _ _ => ⟨rfl, rfl, fun x h1 h2 h3 => ⟨h1, h2, h3⟩⟩
    · intro ρ ρ' hr
      rw [hK] at hr ⊢
      rw [← hc]
      refine (hcap live ρ ρ' env hr).mono ?_
      intro x hx
      refine ⟨h x ?_, rfl⟩
      simp only [free, List.mem_filter, List.mem_append]
      refine ⟨Or.inl ⟨hx.1, ?_⟩, by simp [hx.2.1]⟩
      simp only [Bool.and_eq_true, bne_iff_ne, ne_eq, List.all_eq_true]
      exact ⟨hx.2.1, fun y hy hxy => hx.2.2 (hxy ▸ hy)⟩
    · simp only
      rw [extend_self]
      exact free_sim p hK hc hcap b _ fun x hx => hx
    · intro y hy hyx
      refine ⟨h y ?_, hyx⟩
      simp only [free, List.mem_filter, List.mem_append]
      exact ⟨Or.inr hy, by simpa using hyx⟩
  | .try_ e x t b, live, h => by
    refine .try_ (live' := fun y => y ∈ free b) (free_sim p hK hc hcap e live fun x hx => h x (by simp [free, hx])) ?_ ?_
    · rw [extend_self]
      exact free_sim p hK hc hcap b _ fun x hx => hx
    · intro y hy hyx
      exact ⟨h y (by simp only [free, List.mem_append]; exact Or.inr (mem_filter_ne hy hyx)), hyx⟩
  | .clone xs e, live, h => .clone xs xs (free_sim p hK hc hcap e live h)
  | .drop xs e, live, h => .drop xs xs (free_sim p hK hc hcap e live h)
theorem freeExprs_sim (p : Program) (hK : S.K = idK p) (hc : S.capture = S.capture')
    (hcap : Capturing (idK p) S.capture) :
    ∀ (es : Exprs) (live : Name → Prop), (∀ x ∈ freeExprs es, live x) → SimEs S id live es es
  | .nil, _, _ => .nil
  | .cons e es, live, h =>
    .cons (free_sim p hK hc hcap e live fun x hx => h x (by simp [freeExprs, hx]))
      (freeExprs_sim p hK hc hcap es live fun x hx => h x (by simp [freeExprs, hx]))
theorem freeAlts_sim (p : Program) (hK : S.K = idK p) (hc : S.capture = S.capture')
    (hcap : Capturing (idK p) S.capture) :
    ∀ (as : Alts) (live : Name → Prop), (∀ x ∈ freeAlts as, live x) → SimAs S id live as as
  | .nil, _, _ => .nil
  | .cons ts x e as, live, h => by
    refine .cons ts (live' := fun y => y ∈ free e) ?_ ?_
      (freeAlts_sim p hK hc hcap as live fun x hx => h x (by simp [freeAlts, hx]))
    · rw [extend_self]
      exact free_sim p hK hc hcap e _ fun x hx => hx
    · intro y hy hyx
      exact ⟨h y (by simp only [freeAlts, List.mem_append]; exact Or.inl (mem_filter_ne hy hyx)), hyx⟩
end

theorem captureAll_capturing (K : ClosureRel) : Capturing K captureAll := fun _ _ _ _ h => h

theorem lookup_captureEnvironment (p : Program) (env : List Name) (ρ : Env) (x : Name) :
    lookup p (captureEnvironment env ρ) x = if x ∈ env then lookup p ρ x else lookup p (fun _ => none) x := by
  unfold lookup captureEnvironment
  split <;> rename_i h <;> split at h <;> simp_all

theorem captureEnvironment_capturing (p : Program) : Capturing (idK p) captureEnvironment := by
  intro live ρ ρ' env h x hx v hv
  rw [lookup_captureEnvironment] at hv ⊢
  simp only [id] at hv ⊢
  split
  · rename_i hm
    rw [if_pos hm] at hv
    exact h x hx v hv
  · rename_i hm
    rw [if_neg hm] at hv
    exact ⟨v, hv, VRel.refl p v⟩

theorem idK_calls (w : World) (p : Program) (capture : List Name → Env → Env) (hcap : Capturing (idK p) capture) (n : Nat) :
    CallRel (idK p) (apply w p capture n) (apply w p capture n) := by
  refine apply_rel (idK p) w capture capture ?_ ?_ ?_ ?_ n
  · intro d d' ren live ρ ρ' hk call call' hcall vs vs' log hr hvs
    have hk' := hk
    obtain ⟨rfl, rfl, hl⟩ := hk
    refine SimE.enter (S := ⟨idK p, w, capture, capture, call, call', rfl, hcall⟩) (ren' := id)
      (live' := fun x => x ∈ free d.body) (free_sim p rfl rfl hcap d.body _ fun x hx => hx) (by simp) ?_ ?_ ?_ hk' log hr hvs
    · intro y hy hyf hya
      exact ⟨hl y hy hyf hya, hyf, rfl⟩
    · intro y _ x _ h; exact h
    · intro _ _; rfl
  · intro d ρ g h; exact h.elim
  · intro g d hd
    refine ⟨d, hd, ?_⟩
    intro call call' hcall vs vs' log hvs
    exact SimE.enterGlobal (S := ⟨idK p, w, capture, capture, call, call', rfl, hcall⟩) (ren' := id)
      (live' := fun x => x ∈ free d.body) (free_sim p rfl rfl hcap d.body _ fun x hx => hx) (by simp)
      (fun _ _ _ => rfl) (fun y _ x _ h => h) (fun _ h => h) log hvs
  · intro g h1 h2; exact ⟨h1, h2⟩

end Verif.Mir
