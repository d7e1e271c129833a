import Verif.Mir.LiftingSemantics

/- Lifted functions do what their sources do. -/
namespace Verif.Mir

variable {p : Program} {sc : List Name} {m : Lam} {ρ ρ' : Env}

theorem EnvL.mono_scope {sc' : List Name} (h : EnvL p sc m ρ ρ') (hs : ∀ x ∈ sc', x ∈ sc) : EnvL p sc' m ρ ρ' :=
  ⟨h.rel, h.lifted, h.clean, fun x hx => h.scope x (hs x hx)⟩

theorem EnvL.empty (hp : LiftableProgram p) : EnvL p [] .empty (fun _ => none) (fun _ => none) :=
  ⟨fun _ _ _ _ hv => lookup_plain_global hp rfl hv rfl, fun f xs h => by simp [Lam.empty] at h,
    fun _ _ => rfl, fun x hx => by simp at hx⟩

theorem EnvL.setMany : ∀ {xs : List Name} {vs vs' : List Value} {sc : List Name} {ρ ρ' ρ1 : Env}, EnvL p sc .empty ρ ρ' →
    (∀ x ∈ xs, Plain x) → VsRel (liftK p) vs vs' → ρ.setMany xs vs = some ρ1 →
    ∃ ρ1', ρ'.setMany xs vs' = some ρ1' ∧ EnvL p (xs ++ sc) .empty ρ1 ρ1'
  | [], _, _, sc, ρ, ρ', ρ1, h, _, .nil, h1 => by
    simp only [Env.setMany, Option.some.injEq] at h1
    subst h1
    exact ⟨ρ', rfl, h⟩
  | x :: xs, _, _, sc, ρ, ρ', ρ1, h, hx, .cons hv hvs, h1 => by
    simp only [Env.setMany] at h1 ⊢
    have h2 := h.set (hx x (by simp)) hv
    rw [Lam.empty_erase] at h2
    obtain ⟨ρ1', h3, h4⟩ := h2.setMany (fun y hy => hx y (by simp [hy])) hvs h1
    exact ⟨ρ1', h3, h4.mono_scope fun y hy => by
      simp only [List.cons_append, List.mem_cons, List.mem_append] at hy ⊢; grind⟩
  | [], _, _, _, _, _, _, _, _, .cons _ _, h1 => by simp [Env.setMany] at h1
  | _ :: _, _, _, _, _, _, _, _, _, .nil, h1 => by simp [Env.setMany] at h1

theorem set_comm {x y : Name} (h : x ≠ y) (u v : Value) (ρ : Env) : (ρ.set x u).set y v = (ρ.set y v).set x u := by
  funext z
  simp only [Env.set]
  split <;> split <;> simp_all

theorem set_setMany : ∀ {xs : List Name} {vs : List Value} {ρ ρ1 : Env} {f : Name} (u : Value), f ∉ xs →
    ρ.setMany xs vs = some ρ1 → (ρ.set f u).setMany xs vs = some (ρ1.set f u)
  | [], [], ρ, ρ1, f, u, _, h => by simp only [Env.setMany, Option.some.injEq] at h ⊢; rw [h]
  | x :: xs, v :: vs, ρ, ρ1, f, u, hf, h => by
    simp only [List.mem_cons, not_or] at hf
    simp only [Env.setMany] at h ⊢
    rw [set_comm hf.1]
    exact set_setMany u hf.2 h
  | [], _ :: _, _, _, _, _, _, h => by simp [Env.setMany] at h
  | _ :: _, [], _, _, _, _, _, h => by simp [Env.setMany] at h

theorem setMany_comm : ∀ {xs : List Name} {vs : List Value} {ys : List Name} {us : List Value} {ρ ρ1 ρ2 : Env},
    (∀ x ∈ xs, x ∉ ys) → ρ.setMany xs vs = some ρ1 → ρ1.setMany ys us = some ρ2 →
    ∃ ρ3, ρ.setMany ys us = some ρ3 ∧ ρ3.setMany xs vs = some ρ2
  | [], [], ys, us, ρ, ρ1, ρ2, _, h1, h2 => by
    simp only [Env.setMany, Option.some.injEq] at h1
    subst h1
    exact ⟨ρ2, h2, rfl⟩
  | x :: xs, v :: vs, ys, us, ρ, ρ1, ρ2, hd, h1, h2 => by
    simp only [Env.setMany] at h1
    obtain ⟨ρ3, h3, h4⟩ := setMany_comm (fun y hy => hd y (by simp [hy])) h1 h2
    have hlen : ∀ {ys : List Name} {us : List Value} {a b : Env}, a.setMany ys us = some b → ys.length = us.length := by
      intro ys
      induction ys with
      | nil => intro us a b h; cases us with
        | nil => rfl
        | cons => simp [Env.setMany] at h
      | cons y ys ih => intro us a b h; cases us with
        | nil => simp [Env.setMany] at h
        | cons u us => simp only [Env.setMany] at h; simp [ih h]
    obtain ⟨ρ4, h5⟩ := setMany_exists ys us ρ (hlen h3)
    have h6 := set_setMany v (hd x (by simp)) h5
    rw [h3] at h6
    cases h6
    exact ⟨ρ4, h5, by simpa only [Env.setMany] using h4⟩
  | [], _ :: _, _, _, _, _, _, _, h, _ => by simp [Env.setMany] at h
  | _ :: _, [], _, _, _, _, _, _, h, _ => by simp [Env.setMany] at h

theorem setMany_set {xs : List Name} {vs : List Value} {ρ ρ1 : Env} {f : Name} (u : Value) (hf : f ∉ xs)
    (h : (ρ.set f u).setMany xs vs = some ρ1) : ∃ ρ2, ρ.setMany xs vs = some ρ2 ∧ ρ1 = ρ2.set f u := by
  obtain ⟨ρ3, h1, h2⟩ := setMany_comm (xs := [f]) (vs := [u]) (ys := xs) (us := vs) (ρ := ρ) (by simpa using hf)
    (by simp [Env.setMany]) h
  simp only [Env.setMany, Option.some.injEq] at h2
  exact ⟨ρ3, h1, h2.symm⟩

theorem kept_setMany {env : List Name} {us : List Value} {ρc : Env} (hn : env.Nodup) (hk : Kept env ρc)
    (hu : env.map ρc = us.map some) : Env.setMany (fun _ => none) env us = some ρc := by
  have hlen : env.length = us.length := by simpa using congrArg List.length hu
  obtain ⟨ρ1, h1⟩ := setMany_exists env us (fun _ => none) hlen
  rw [h1]
  congr 1
  have h2 := setMany_map hn h1
  rw [← hu] at h2
  funext x
  by_cases hx : x ∈ env
  · exact List.map_inj_left.mp h2 x hx
  · rw [setMany_other h1 x hx, hk.1 x hx]

/-- Calls of closures that became global functions with more arguments. -/
theorem lifted_step (hp : LiftableProgram p) (w : World) {call call' : Caller} (hcall : CallRel (liftK p) call call')
    (hq : LiftedCalls p call call') {d : Def} {ρc : Env} {g : Name} {ws : List Value} (h : Lifted p d ρc g ws) :
    ∃ d', (liftProgram p).find g = some d' ∧ ∀ vs vs' log, VsRel (liftK p) vs vs' →
      RRel (liftK p) (VRel (liftK p)) (d.enter w p captureEnvironment call ρc vs log)
        (d'.enter w (liftProgram p) captureEnvironment call' (vs' ++ ws) log) := by
  obtain ⟨h1, h2, h3, h4, h5, ⟨us, h6, h7⟩, i, xs, body', N, rfl, h8, h9, h10, h11, h12⟩ := h
  refine ⟨_, h11, ?_⟩
  intro vs vs' log hvs
  unfold Def.enter Global.enter
  cases he : (ρc.set d.f (d.close ρc)).setMany d.args vs with
  | none => exact .stuck _
  | some ρ1 =>
    obtain ⟨ρ2, h13, rfl⟩ := setMany_set _ h2 he
    obtain ⟨a', h14, h15⟩ := (EnvL.empty hp).setMany (xs := d.env) (fun x hx => h1 x (by simp [hx])) h7
      (kept_setMany h4 h5 h6)
    obtain ⟨b', h16, h17⟩ := h15.setMany (xs := d.args) (fun x hx => h1 x (by simp [hx])) hvs h13
    obtain ⟨c', h18, h19⟩ := setMany_comm (fun x hx => (h3 x hx).2) h14 h16
    rw [setMany_append _ _ h18, h19]
    have hcap : captureEnvironment d.env ρ2 = ρc := by
      funext x
      simp only [captureEnvironment]
      split
      · rename_i hx
        rw [setMany_other h13 x (h3 x hx).2]
      · rename_i hx
        rw [h5.1 x hx]
    obtain ⟨ws', ρ1', h20, h21, h22⟩ := h17.lift (N := N) (i := i) h1 h2 h3 h4 (fun x hx => ⟨by simp [hx], rfl⟩) h8 h9 h10
      (fun _ _ h => by simp [Lam.empty] at h) h11 h12
    rw [hcap] at h22
    have hl : lookup (liftProgram p) b' (liftName i d.f) = some (.global (liftName i d.f)) :=
      lookup_lifted (h17.clean i d.f) h11
    refine RRel.catch ?_
    simp only [eval, hl, R.ofOption, R.bind]
    rw [eval_save (ρ1 := ρ1') (ws := ws') _ _ _ _ _ _ (fun x hx hx' => (h1 x (by simp [hx])).ne_fv (h10 x hx') rfl) h20 h21]
    exact h12.sim (S := ⟨liftK p, w, captureEnvironment, captureEnvironment, call, call', rfl, hcall⟩) hp rfl rfl rfl hq
      (h22.mono_scope fun x hx => by
        simp only [List.cons_append, List.mem_cons, List.mem_append, List.append_nil] at hx ⊢; exact hx) log

theorem lift_calls (hp : LiftableProgram p) (w : World) (n : Nat) :
    CallRel (liftK p) (apply w p captureEnvironment n) (apply w (liftProgram p) captureEnvironment n) := by
  refine (apply_rel_with (liftK p) w captureEnvironment captureEnvironment (LiftedCalls p) ?_ ?_ ?_ ?_ ?_ ?_ n).1
  · intro d d' ren live ρ ρ' hk call call' hcall hq vs vs' log hr hvs
    have hv := VRel.close (K := liftK p) hk hr
    obtain ⟨rfl, rfl, h1, h2, h3, h4, h5, N, h6⟩ := hk
    have h7 : EnvL p d.env .empty ρ ρ' :=
      ⟨fun x hx _ => hr x hx, fun f xs h => by simp [Lam.empty] at h, h5, h4.2⟩
    unfold Def.enter
    rw [h1, h2]
    cases he : (ρ.set d.f (d.close ρ)).setMany d.args vs with
    | none => exact .stuck _
    | some ρ1 =>
      have h8 := h7.set (h3 d.f (by simp)) hv
      rw [Lam.empty_erase] at h8
      obtain ⟨ρ1', h9, h10⟩ := h8.setMany (fun x hx => h3 x (by simp [hx])) hvs he
      simp only [h9]
      refine RRel.catch ?_
      exact h6.sim (S := ⟨liftK p, w, captureEnvironment, captureEnvironment, call, call', rfl, hcall⟩) hp rfl rfl rfl hq
        (h10.mono_scope fun x hx => by
          simp only [List.cons_append, List.mem_cons, List.mem_append] at hx ⊢; grind) log
  · rintro d ρ g ⟨rfl, h1, h2, i, body', N, rfl, h3, h4⟩
    refine ⟨_, h3, ?_⟩
    intro call call' hcall hq vs vs' log hvs
    unfold Def.enter Global.enter
    cases he : (Env.set (fun _ => none) d.f (d.close fun _ => none)).setMany d.args vs with
    | none => exact .stuck _
    | some ρ1 =>
      obtain ⟨ρ2, h5, rfl⟩ := setMany_set _ h2 he
      obtain ⟨ρ1', h6, h7⟩ := (EnvL.empty hp).setMany (xs := d.args) (fun x hx => h1 x (by simp [hx])) hvs h5
      simp only [h6]
      have hl : lookup (liftProgram p) ρ1' (liftName i d.f) = some (.global (liftName i d.f)) :=
        lookup_lifted (h7.clean i d.f) h3
      refine RRel.catch ?_
      simp only [liftK, eval, hl, R.ofOption, R.bind]
      have h8 := h7.set (x := d.f) (v := d.close fun _ => none) (v' := .global (liftName i d.f)) (h1 _ (by simp))
        (.lifted (K := liftK p) ⟨rfl, h1, h2, i, body', N, rfl, h3, h4⟩)
      rw [Lam.empty_erase] at h8
      exact h4.sim (S := ⟨liftK p, w, captureEnvironment, captureEnvironment, call, call', rfl, hcall⟩) hp rfl rfl rfl hq
        (h8.mono_scope fun x hx => by simpa using hx) log
  · intro g d hd
    obtain ⟨d', h1, -, h2, -, N, h3⟩ := liftProgram_find p hp hd
    refine ⟨d', h1, ?_⟩
    intro call call' hcall hq vs vs' log hvs
    unfold Global.enter
    rw [h2]
    cases he : Env.setMany (fun _ => none) d.args vs with
    | none => exact .stuck _
    | some ρ1 =>
      have hd' : d ∈ p.globals := List.mem_of_find?_eq_some hd
      obtain ⟨ρ1', h6, h7⟩ := (EnvL.empty hp).setMany (xs := d.args) (hp.args d hd') hvs he
      simp only [h6]
      exact (h3.sim (S := ⟨liftK p, w, captureEnvironment, captureEnvironment, call, call', rfl, hcall⟩) hp rfl rfl rfl hq
        (h7.mono_scope fun x hx => by simpa using hx) log).catch
  · intro g h1 h2
    refine ⟨liftProgram_find_none p (hp.names g ?_) h1, h2⟩
    simp only [Program.isGlobal, Bool.or_eq_true]
    exact Or.inl h2
  · intro d ρ g ws _ vs vs' log _
    simp only [apply]
    exact .timeout
  · intro k hcall hq d ρ g ws h vs vs' log hvs
    obtain ⟨d', h1, h2⟩ := lifted_step hp w hcall hq h
    show RRel _ _ (apply w p captureEnvironment (k + 1) (d.close ρ) vs log)
      (apply w (liftProgram p) captureEnvironment (k + 1) (.global g) (vs' ++ ws) log)
    rw [apply_closure, apply_global _ _ _ _ h1]
    exact h2 vs vs' log hvs

end Verif.Mir
