import Verif.Mir.HeapOps
import Verif.Mir.RcLinear

/- Programs that handle references correctly do on heaps what they do on values. -/
namespace Verif.Mir

/-! ### Tokens that are left were there before -/

mutual
theorem lin_subset : ∀ (e : Expr) (D : List Name) (O O' : Tokens), lin D e O O' → O' ⊆ O
  | .literal _, D, O, O', h => by have : O' = O := h; subst this; exact Multiset.Subset.refl _
  | .variable x, D, O, O', h => by
    rcases h with ⟨_, rfl⟩ | ⟨_, _, rfl⟩
    · exact Multiset.Subset.refl _
    · exact fun y hy => Multiset.mem_of_mem_erase hy
  | .op o es, D, O, O', h => linExprs_subset es D _ _ _ O O' h.2
  | .case e as, D, O, O', h => by
    obtain ⟨hne, O1, h1, h2⟩ := h
    exact fun x hx => lin_subset e D O O1 h1 (linAlts_subset as D O1 O' h2 hne hx)
  | .if_ c t e, D, O, O', h => by
    obtain ⟨O1, h1, h2, _⟩ := h
    exact fun x hx => lin_subset c D O O1 h1 (lin_subset t D O1 O' h2 hx)
  | .let_ x e b, D, O, O', h => by
    obtain ⟨_, hx, O1, h1, h2⟩ := h
    intro y hy
    have := lin_subset b _ _ O' h2 hy
    rw [Multiset.mem_cons] at this
    rcases this with rfl | h3
    · exact absurd hy hx
    · exact lin_subset e D O O1 h1 h3
  | .letRec f env args th body b, D, O, O', h => by
    obtain ⟨_, hf, _, _, _, O1, hO, hb⟩ := h
    intro y hy
    have := lin_subset b _ _ O' hb hy
    rw [Multiset.mem_cons] at this
    rcases this with rfl | h3
    · exact absurd hy hf
    · rw [hO]; exact Multiset.mem_add.mpr (Or.inr h3)
  | .try_ e x t b, D, O, O', h => lin_subset e D O O' h.2.1
  | .clone xs e, D, O, O', h => by
    intro y hy
    have := lin_subset e D _ O' h.2 hy
    rw [Multiset.mem_add] at this
    rcases this with h3 | h3
    · exact h.1 y (by simpa using h3)
    · exact h3
  | .drop xs e, D, O, O', h => by
    obtain ⟨O1, hO, h1⟩ := h
    intro y hy
    rw [hO]
    exact Multiset.mem_add.mpr (Or.inr (lin_subset e D O1 O' h1 hy))
theorem linExprs_subset : ∀ (es : Exprs) (D : List Name) (scalar first : Bool) (held : List Name) (O O' : Tokens),
    linExprs D scalar first held es O O' → O' ⊆ O
  | .nil, D, _, _, _, O, O', h => by have : O' = O := h; subst this; exact Multiset.Subset.refl _
  | .cons e es, D, scalar, first, held, O, O', h => by
    rcases h with ⟨x, _, _, _, h⟩ | ⟨_, O1, h1, h2⟩
    · exact linExprs_subset es D scalar false held O O' h
    · exact fun x hx => lin_subset e D O O1 h1 (linExprs_subset es D scalar false _ O1 O' h2 hx)
theorem linAlts_subset : ∀ (as : Alts) (D : List Name) (O O' : Tokens), linAlts D as O O' → as ≠ .nil → O' ⊆ O
  | .nil, _, _, _, _, h => absurd rfl h
  | .cons ts x e as, D, O, O', h, _ => by
    intro y hy
    have := lin_subset e _ _ O' h.1.2.2 hy
    rw [Multiset.mem_cons] at this
    rcases this with rfl | h3
    · exact absurd hy h.1.2.1
    · exact h3
end

/-! ### Environments -/

/-- The references of variables. -/
def roots (ρ : HEnv) (O : Tokens) : Addrs := O.bind fun x => (((ρ x).elim [] HVal.addrs : List Addr) : Addrs)

theorem roots_zero (ρ : HEnv) : roots ρ 0 = 0 := rfl

theorem roots_cons (ρ : HEnv) (x : Name) (O : Tokens) :
    roots ρ (x ::ₘ O) = (((ρ x).elim [] HVal.addrs : List Addr) : Addrs) + roots ρ O := Multiset.cons_bind _ _ _

theorem roots_add (ρ : HEnv) (O O' : Tokens) : roots ρ (O + O') = roots ρ O + roots ρ O' := Multiset.add_bind _ _ _

theorem mem_roots {ρ : HEnv} {O : Tokens} {x : Name} {v : HVal} (hx : x ∈ O) (hv : ρ x = some v) {a : Addr}
    (ha : a ∈ v.addrs) : a ∈ roots ρ O :=
  Multiset.mem_bind.mpr ⟨x, hx, by rw [hv]; simpa using ha⟩

theorem roots_mono {ρ : HEnv} {O O' : Tokens} (h : O' ⊆ O) : roots ρ O' ⊆ roots ρ O := by
  intro a ha
  obtain ⟨x, hx, ha⟩ := Multiset.mem_bind.mp ha
  exact Multiset.mem_bind.mpr ⟨x, h hx, ha⟩

theorem roots_congr {ρ ρ' : HEnv} {O : Tokens} (h : ∀ x ∈ O, ρ' x = ρ x) : roots ρ' O = roots ρ O :=
  Multiset.bind_congr fun x hx => by rw [h x hx]

theorem roots_set {ρ : HEnv} {x : Name} {v : HVal} {O : Tokens} (h : x ∉ O) : roots (ρ.set x v) O = roots ρ O :=
  roots_congr fun y hy => if_neg fun e : y = x => h (e ▸ hy)

theorem HEnv.set_self (ρ : HEnv) (x : Name) (v : HVal) : ρ.set x v x = some v := if_pos rfl

/-- Environments on heaps and of values. -/
structure HEnvRel (D : List Name) (O : Tokens) (ρ : HEnv) (σ : Env) (G : Addr → Value) : Prop where
  outside : ∀ x, x ∉ D → ρ x = none ∧ σ x = none
  inside : ∀ x ∈ D, ∃ v, ρ x = some v
  sub : ∀ x ∈ O, x ∈ D
  owned : ∀ x ∈ O, ∀ v, ρ x = some v → σ x = some (v.value G)

theorem HEnvRel.next {D : List Name} {O O' : Tokens} {ρ : HEnv} {σ : Env} {G G' : Addr → Value} (h : HEnvRel D O ρ σ G)
    (hO : O' ⊆ O) (hG : ∀ a ∈ roots ρ O', G' a = G a) : HEnvRel D O' ρ σ G' :=
  ⟨h.outside, h.inside, fun x hx => h.sub x (hO hx), fun x hx v hv => by
    rw [h.owned x (hO hx) v hv, HVal.value_congr fun a ha => hG a (mem_roots hx hv ha)]⟩

theorem HEnvRel.bind {D : List Name} {O : Tokens} {ρ : HEnv} {σ : Env} {G : Addr → Value} (h : HEnvRel D O ρ σ G)
    {x : Name} (hx : x ∉ D) (v : HVal) : HEnvRel (x :: D) (x ::ₘ O) (ρ.set x v) (σ.set x (v.value G)) G := by
  refine ⟨fun y hy => ?_, fun y hy => ?_, fun y hy => ?_, fun y hy u hu => ?_⟩
  · rw [List.mem_cons, not_or] at hy
    have := h.outside y hy.2
    exact ⟨(if_neg hy.1).trans this.1, (if_neg hy.1).trans this.2⟩
  · by_cases hyx : y = x
    · exact ⟨v, if_pos hyx⟩
    · obtain ⟨u, hu⟩ := h.inside y (by simpa [hyx] using hy)
      exact ⟨u, (if_neg hyx).trans hu⟩
  · rw [Multiset.mem_cons] at hy
    rcases hy with rfl | hy
    · simp
    · simp [h.sub y hy]
  · by_cases hyx : y = x
    · subst hyx
      have : u = v := by have := (HEnv.set_self ρ y v).symm.trans hu; cases this; rfl
      subst this
      exact if_pos rfl
    · have e1 : (ρ.set x v) y = ρ y := if_neg hyx
      have e2 : (σ.set x (v.value G)) y = σ y := if_neg hyx
      rw [e2]
      rw [e1] at hu
      rw [Multiset.mem_cons] at hy
      exact h.owned y (hy.resolve_left hyx) u hu

theorem HEnvRel.notIn {D : List Name} {O : Tokens} {ρ : HEnv} {σ : Env} {G : Addr → Value} (h : HEnvRel D O ρ σ G)
    {x : Name} (hx : x ∉ D) : x ∉ O := fun h' => hx (h.sub x h')

/-- Values of variables. -/
theorem values_roots {D : List Name} {ρ : HEnv} (h : ∀ x ∈ D, ∃ v, ρ x = some v) : ∀ (xs : List Name), (∀ x ∈ xs, x ∈ D) →
    ∃ vs, ρ.values xs = some vs ∧ ((addrsOf vs : List Addr) : Addrs) = roots ρ (xs : Tokens) ∧ vs.length = xs.length ∧
      ∀ x, closureEnv xs vs x = if x ∈ xs then ρ x else none
  | [], _ => ⟨[], rfl, rfl, rfl, fun x => rfl⟩
  | x :: xs, hx => by
    obtain ⟨v, hv⟩ := h x (hx x (by simp))
    obtain ⟨vs, e1, e2, e3, e4⟩ := values_roots h xs fun y hy => hx y (by simp [hy])
    refine ⟨v :: vs, ?_, ?_, by simp [e3], fun y => ?_⟩
    · unfold HEnv.values at e1 ⊢
      rw [List.mapM_cons, hv, e1]; rfl
    · rw [coe_addrsOf_cons, e2, ← Multiset.cons_coe, roots_cons, hv]; rfl
    · simp only [closureEnv, e4]
      by_cases hy : y = x
      · subst hy; simp [hv]
      · simp [hy]

/-! ### Results -/

/-- What holds of results of expressions: `F` are references of callers, `X` those of variables that are left. -/
def Post (G : Addr → Value) (F X : Addrs) (r : HR HVal) (q : R Value) : Prop :=
  match r with
  | .ok v h l => ∃ G', q = .ok (v.value G') l ∧ Good h G' (F + X + (v.addrs : Addrs)) ∧ ∀ a ∈ F + X, G' a = G a
  | .ret v h l => ∃ G', q = .ret (v.value G') l ∧ Good h G' (F + (v.addrs : Addrs)) ∧ ∀ a ∈ F, G' a = G a
  | .timeout => q = .timeout
  | .stuck => q = .stuck
  | .fault => False

/-- What holds of results of operands: `H` are references of operands before these. -/
def PostAll (G : Addr → Value) (F H X : Addrs) (r : HR (List HVal)) (q : R (List Value)) : Prop :=
  match r with
  | .ok vs h l => ∃ G', q = .ok (vs.map (HVal.value G')) l ∧ Good h G' (F + H + X + (addrsOf vs : Addrs)) ∧
      ∀ a ∈ F + H + X, G' a = G a
  | .ret v h l => ∃ G', q = .ret (v.value G') l ∧ Good h G' (F + (v.addrs : Addrs)) ∧ ∀ a ∈ F, G' a = G a
  | .timeout => q = .timeout
  | .stuck => q = .stuck
  | .fault => False

theorem Post.mono {G G' : Addr → Value} {F X : Addrs} {r : HR HVal} {q : R Value} (h : Post G' F X r q)
    (hG : ∀ a ∈ F + X, G' a = G a) : Post G F X r q := by
  cases r with
  | ok v h' l =>
    obtain ⟨G1, h1, h2, h3⟩ := h
    exact ⟨G1, h1, h2, fun a ha => (h3 a ha).trans (hG a ha)⟩
  | ret v h' l =>
    obtain ⟨G1, h1, h2, h3⟩ := h
    exact ⟨G1, h1, h2, fun a ha => (h3 a ha).trans (hG a (by simp [ha]))⟩
  | _ => exact h

theorem Post.bind {G : Addr → Value} {F X Y : Addrs} {r : HR HVal} {q : R Value} {f : HVal → Heap → Log → HR HVal}
    {k : Value → Log → R Value} (h : Post G F X r q) (hsub : Y ⊆ X)
    (hf : ∀ v h' l G', Good h' G' (F + X + (v.addrs : Addrs)) → (∀ a ∈ F + X, G' a = G a) →
      Post G' F Y (f v h' l) (k (v.value G') l)) : Post G F Y (r.bind f) (q.bind k) := by
  cases r with
  | ok v h' l =>
    obtain ⟨G1, h1, h2, h3⟩ := h
    rw [h1]
    refine (hf v h' l G1 h2 h3).mono fun a ha => h3 a ?_
    rw [Multiset.mem_add] at ha ⊢
    exact ha.imp_right fun h => hsub h
  | ret v h' l => obtain ⟨G1, h1, h2, h3⟩ := h; rw [h1]; exact ⟨G1, rfl, h2, h3⟩
  | timeout => have : q = .timeout := h; rw [this]; rfl
  | stuck => have : q = .stuck := h; rw [this]; rfl
  | fault => exact h.elim

theorem CallPost.post {G : Addr → Value} {F X : Addrs} {r : HR HVal} {q : R Value} (h : CallPost G (F + X) r q) :
    Post G F X r q := by
  cases r with
  | ret => exact h.elim
  | _ => exact h

theorem Post.catch {G : Addr → Value} {F : Addrs} {r : HR HVal} {q : R Value} (h : Post G F 0 r q) :
    CallPost G F r.catch q.catch := by
  cases r with
  | ok v h' l =>
    obtain ⟨G1, h1, h2, h3⟩ := h
    rw [h1]
    exact ⟨G1, rfl, h2.of_eq (by simp), fun a ha => h3 a (by simpa using ha)⟩
  | ret v h' l =>
    obtain ⟨G1, h1, h2, h3⟩ := h
    rw [h1]
    exact ⟨G1, rfl, h2, h3⟩
  | timeout => have : q = .timeout := h; rw [this]; rfl
  | stuck => have : q = .stuck := h; rw [this]; rfl
  | fault => exact h.elim

/-- Calls on heaps and of values. -/
def HCallRel (hc : HCaller) (c : Caller) : Prop :=
  ∀ (f : HVal) (vs : List HVal) (h : Heap) (log : Log) (G : Addr → Value) (F : Addrs),
    Good h G (F + (f.addrs : Addrs) + (addrsOf vs : Addrs)) →
    CallPost G F (hc f vs h log) (c (f.value G) (vs.map (HVal.value G)) log)

theorem hmatch_value (G : Addr → Value) (ts : Option (List TypeId)) (t : TypeId) (v : HVal) :
    matchAlternative ts t (v.value G) = (hmatch ts t v).map (HVal.value G) := by
  unfold matchAlternative hmatch
  match ts with
  | none => rfl
  | some [t'] => by_cases h : t' = t <;> simp [h]
  | some [] => simp
  | some (t' :: t'' :: ts) => 
    simp only []
    by_cases h : t ∈ t' :: t'' :: ts
    · rw [if_pos h, if_pos h]; rfl
    · rw [if_neg h, if_neg h]; rfl

theorem hmatch_addrs {ts : Option (List TypeId)} {t : TypeId} {v u : HVal} (h : hmatch ts t v = some u) :
    u.addrs = v.addrs := by
  unfold hmatch at h
  split at h
  · cases h; rfl
  · split at h
    · cases h; rfl
    · cases h
  · split at h
    · cases h; rfl
    · cases h

theorem quiet_ret {w : World} {p : Program} {hc : HCaller} {ρ : HEnv} {e : Expr} (hq : quiet e = true) {h : Heap} {l : Log}
    {v : HVal} {h' : Heap} {l' : Log} : heval w p hc ρ e h l ≠ .ret v h' l' := by
  intro he
  unfold quiet at hq
  split at hq
  · simp [heval] at he
  · simp only [heval] at he
    unfold HR.ofOption at he
    split at he <;> cases he
  · simp only [heval] at he
    split at he
    · unfold HR.heap at he
      split at he
      · unfold HR.ofOption at he
        split at he <;> cases he
      · cases he
    · cases he
  · cases hq

/-- What is known of variables that were moved to operands. -/
def Held (D : List Name) (held : List Name) (H : Addrs) (ρ : HEnv) (σ : Env) (G : Addr → Value) : Prop :=
  ∀ x ∈ held, x ∈ D → ∀ v, ρ x = some v → σ x = some (v.value G) ∧ ∀ a ∈ v.addrs, a ∈ H

section
variable {w : World} {p : Program} {hc : HCaller} {c : Caller}

theorem hlookup_local {D : List Name} {O : Tokens} {ρ : HEnv} {σ : Env} {G : Addr → Value} (henv : HEnvRel D O ρ σ G)
    {x : Name} (hx : x ∉ D) : (lookup p σ x = none ∧ hlookup p ρ x = none) ∨
      (lookup p σ x = some (.global x) ∧ hlookup p ρ x = some (.global x)) := by
  have := henv.outside x hx
  unfold lookup hlookup
  rw [this.1, this.2]
  by_cases h : p.isGlobal x <;> simp [h]

mutual
theorem heval_post (hcall : HCallRel hc c) : ∀ (e : Expr) (D : List Name) (O O' : Tokens) (ρ : HEnv) (σ : Env) (G : Addr → Value)
    (F : Addrs) (h : Heap) (l : Log), lin D e O O' → HEnvRel D O ρ σ G → Good h G (F + roots ρ O) →
    Post G F (roots ρ O') (heval w p hc ρ e h l) (eval w p captureEnvironment c σ e l)
  | .literal lit, D, O, O', ρ, σ, G, F, h, l, hl, henv, g => by
    have : O' = O := hl
    subst this
    cases lit <;> exact ⟨G, rfl, g.of_eq (by simp [Literal.hvalue, HVal.addrs]), fun _ _ => rfl⟩
  | .variable x, D, O, O', ρ, σ, G, F, h, l, hl, henv, g => by
    simp only [heval, eval]
    rcases hl with ⟨hx, rfl⟩ | ⟨hx, hxO, rfl⟩
    · rcases hlookup_local (p := p) henv hx with ⟨e1, e2⟩ | ⟨e1, e2⟩
      · rw [e1, e2]; rfl
      · rw [e1, e2]
        exact ⟨G, rfl, g.of_eq (by simp [HVal.addrs]), fun _ _ => rfl⟩
    · obtain ⟨v, hv⟩ := henv.inside x hx
      have hs := henv.owned x hxO v hv
      have e1 : hlookup p ρ x = some v := by unfold hlookup; rw [hv]
      have e2 : lookup p σ x = some (v.value G) := by unfold lookup; rw [hs]
      rw [e1, e2]
      refine ⟨G, rfl, g.of_eq ?_, fun _ _ => rfl⟩
      conv_lhs => rw [← Multiset.cons_erase hxO, roots_cons, hv]
      change F + ((v.addrs : Addrs) + _) = _
      abel
  | .op o es, D, O, O', ρ, σ, G, F, h, l, hl, henv, g => by
    have ih := hevals_post hcall es D o.scalar true [] O O' ρ σ G F 0 h l hl.2 henv (by intro x hx; cases hx)
      (fun _ => rfl) (fun _ => rfl) (g.of_eq (by simp))
    simp only [heval, eval]
    cases hr : hevals w p hc o.scalar ρ es h l with
    | ok vs h' l' =>
      rw [hr] at ih
      obtain ⟨G1, h1, h2, h3⟩ := ih
      rw [h1]
      simp only [HR.bind, R.bind]
      have hs : ∀ a ∈ F + roots ρ O', G1 a = G a := fun a ha => h3 a (by simpa using ha)
      have hop := applyHeap_post w p (F := F + roots ρ O') l' o hl.1 vs (h2.of_eq (by simp))
      clear h1 hr
      cases o with
      | call =>
        cases vs with
        | nil => exact (hop.mono hs).post
        | cons f args =>
          exact ((hcall f args h' l' G1 (F + roots ρ O') (h2.of_eq (by rw [coe_addrsOf_cons]; abel))).mono hs).post
      | _ => exact (hop.mono hs).post
    | ret v h' l' =>
      rw [hr] at ih
      obtain ⟨G1, h1, h2, h3⟩ := ih
      rw [h1]
      exact ⟨G1, rfl, h2, h3⟩
    | timeout => rw [hr] at ih; have : _ = R.timeout := ih; rw [this]; rfl
    | stuck => rw [hr] at ih; have : _ = R.stuck := ih; rw [this]; rfl
    | fault => rw [hr] at ih; exact ih.elim
  | .case e as, D, O, O', ρ, σ, G, F, h, l, hl, henv, g => by
    obtain ⟨hne, O1, h1, h2⟩ := hl
    have ih := heval_post hcall e D O O1 ρ σ G F h l h1 henv g
    simp only [heval, eval]
    refine ih.bind (roots_mono (linAlts_subset as D O1 O' h2 hne)) fun v h' l' G' g' s' => ?_
    have henv' := henv.next (lin_subset e D O O1 h1) fun a ha => s' a (by simp [ha])
    cases v with
    | variant t v => exact hevalAlts_post hcall as D O1 O' ρ σ G' F h' l' t v h2 henv' g'
    | pointer a =>
      obtain ⟨cc, _, hG⟩ := g'.pointer (a := a) (by simp [HVal.addrs])
      simp only [HVal.value, hG]
      cases cc.block <;> rfl
    | _ => rfl
  | .if_ cnd t e, D, O, O', ρ, σ, G, F, h, l, hl, henv, g => by
    obtain ⟨O1, h1, h2, h3⟩ := hl
    have ih := heval_post hcall cnd D O O1 ρ σ G F h l h1 henv g
    simp only [heval, eval]
    refine ih.bind (roots_mono (lin_subset t D O1 O' h2)) fun v h' l' G' g' s' => ?_
    have henv' := henv.next (lin_subset cnd D O O1 h1) fun a ha => s' a (by simp [ha])
    cases v with
    | boolean b =>
      have g'' := g'.of_eq (R' := F + roots ρ O1) (by simp [HVal.addrs])
      cases b
      · exact heval_post hcall e D O1 O' ρ σ G' F h' l' h3 henv' g''
      · exact heval_post hcall t D O1 O' ρ σ G' F h' l' h2 henv' g''
    | pointer a =>
      obtain ⟨cc, _, hG⟩ := g'.pointer (a := a) (by simp [HVal.addrs])
      simp only [HVal.value, hG]
      cases cc.block <;> rfl
    | _ => rfl
  | .let_ x e b, D, O, O', ρ, σ, G, F, h, l, hl, henv, g => by
    obtain ⟨hx, hO', O1, h1, h2⟩ := hl
    have ih := heval_post hcall e D O O1 ρ σ G F h l h1 henv g
    simp only [heval, eval]
    have hsub : O' ⊆ O1 := fun y hy => by
      have := lin_subset b _ _ O' h2 hy
      rw [Multiset.mem_cons] at this
      exact this.resolve_left fun e => hO' (e ▸ hy)
    refine ih.bind (roots_mono hsub) fun v h' l' G' g' s' => ?_
    have henv' := henv.next (lin_subset e D O O1 h1) fun a ha => s' a (by simp [ha])
    have := heval_post hcall b (x :: D) (x ::ₘ O1) O' (ρ.set x v) (σ.set x (v.value G')) G' F h' l' h2 (henv'.bind hx v)
      (g'.of_eq (by
        rw [roots_cons, HEnv.set_self, roots_set (henv'.notIn hx)]
        change _ = F + ((v.addrs : Addrs) + _)
        abel))
    rw [roots_set hO'] at this
    exact this
  | .letRec f env args th body b, D, O, O', ρ, σ, G, F, h, l, hl, henv, g => by
    obtain ⟨hf, hO', hsubD, hnd, hbody, O1, hO, hb⟩ := hl
    obtain ⟨vs, e1, e2, e3, e4⟩ := values_roots henv.inside env hsubD
    have hsub : O' ⊆ O1 := fun y hy => by
      have := lin_subset b _ _ O' hb hy
      rw [Multiset.mem_cons] at this
      exact this.resolve_left fun e => hO' (e ▸ hy)
    have hO1 : O1 ⊆ O := fun y hy => by rw [hO]; exact Multiset.mem_add.mpr (Or.inr hy)
    simp only [heval, eval, e1]
    obtain ⟨G', g', h1, h2⟩ := Good.alloc (b := .closure f env args th body vs) (R := F + roots ρ O1) (h := h) (G := G)
      (g.of_eq (by
        change _ = ((addrsOf vs : List Addr) : Addrs) + _
        rw [e2, hO, roots_add]; abel)) ⟨e3, hnd, hbody⟩
    have hs : ∀ a ∈ F + roots ρ O1, G' a = G a := fun a ha => h2 a (g.lt (by
      rw [Multiset.mem_add] at ha ⊢
      exact ha.imp_right fun h => roots_mono hO1 h))
    have henv' : HEnvRel D O1 ρ σ G' := henv.next hO1 fun a ha => hs a (by simp [ha])
    have hval : Value.closure f env args th body (captureEnvironment env σ) = (HVal.pointer h.length).value G' := by
      simp only [HVal.value, h1, Block.value]
      congr 1
      funext x
      unfold captureEnvironment HEnv.env
      rw [e4]
      by_cases hx : x ∈ env
      · have hxO : x ∈ O := by rw [hO]; exact Multiset.mem_add.mpr (Or.inl (by simpa using hx))
        obtain ⟨v, hv⟩ := henv.inside x (hsubD x hx)
        simp [hx, hv, henv.owned x hxO v hv]
      · simp [hx]
    rw [hval]
    have := heval_post hcall b (f :: D) (f ::ₘ O1) O' (ρ.set f (.pointer h.length))
      (σ.set f ((HVal.pointer h.length).value G')) G' F _ l hb (henv'.bind hf _)
      (g'.of_eq (by
        rw [roots_cons, HEnv.set_self, roots_set (henv'.notIn hf), ← Multiset.singleton_add]
        change _ = F + (({h.length} : Addrs) + _)
        abel))
    rw [roots_set hO'] at this
    refine this.mono fun a ha => hs a ?_
    rw [Multiset.mem_add] at ha ⊢
    exact ha.imp_right fun h => roots_mono hsub h
  | .try_ e x t b, D, O, O', ρ, σ, G, F, h, l, hl, henv, g => by
    obtain ⟨hx, h1, h2⟩ := hl
    have ih := heval_post hcall e D O O' ρ σ G F h l h1 henv g
    simp only [heval, eval]
    refine ih.bind (Multiset.Subset.refl _) fun v h' l' G' g' s' => ?_
    have henv' := henv.next (lin_subset e D O O' h1) fun a ha => s' a (by simp [ha])
    cases v with
    | variant t' u =>
      simp only [HVal.value]
      by_cases ht : t' = t
      · simp only [ht, if_true]
        have := heval_post hcall b (x :: D) (x ::ₘ O') 0 (ρ.set x u) (σ.set x (u.value G')) G' F h' l' h2 (henv'.bind hx u)
          (g'.of_eq (by
            rw [roots_cons, HEnv.set_self, roots_set (henv'.notIn hx)]
            change _ = F + ((u.addrs : Addrs) + _)
            simp only [HVal.addrs]
            abel))
        rw [roots_zero] at this
        cases hr : heval w p hc (ρ.set x u) b h' l' with
        | ok r h'' l'' =>
          rw [hr] at this
          obtain ⟨G2, e1, g2, s2⟩ := this
          rw [e1]
          exact ⟨G2, rfl, g2.of_eq (by simp), fun a ha => s2 a (by simpa using ha)⟩
        | ret r h'' l'' =>
          rw [hr] at this
          obtain ⟨G2, e1, g2, s2⟩ := this
          rw [e1]
          exact ⟨G2, rfl, g2, s2⟩
        | timeout => rw [hr] at this; have : _ = R.timeout := this; rw [this]; rfl
        | stuck => rw [hr] at this; have : _ = R.stuck := this; rw [this]; rfl
        | fault => rw [hr] at this; exact this.elim
      · simp only [ht, if_false]
        exact ⟨G', rfl, g', fun _ _ => rfl⟩
    | pointer a =>
      obtain ⟨cc, _, hG⟩ := g'.pointer (a := a) (by simp [HVal.addrs])
      simp only [HVal.value, hG]
      cases cc.block <;> rfl
    | _ => rfl
  | .clone xs e, D, O, O', ρ, σ, G, F, h, l, hl, henv, g => by
    obtain ⟨vs, e1, e2, _, _⟩ := values_roots henv.inside xs fun x hx => henv.sub x (hl.1 x hx)
    have hsub : (xs : Tokens) + O ⊆ O := fun y hy => by
      rw [Multiset.mem_add] at hy
      exact hy.elim (fun h => hl.1 y (by simpa using h)) id
    obtain ⟨h', e3, g3, _⟩ := g.retainAll (addrsOf vs) fun a ha => g.live (by
      have : a ∈ ((addrsOf vs : List Addr) : Addrs) := by simpa using ha
      rw [e2] at this
      exact Multiset.mem_add.mpr (Or.inr (roots_mono (fun y hy => hsub (Multiset.mem_add.mpr (Or.inl hy))) this)))
    simp only [heval, eval, e1, e3, HR.heap]
    exact heval_post hcall e D ((xs : Tokens) + O) O' ρ σ G F h' l hl.2
      ⟨henv.outside, henv.inside, fun x hx => henv.sub x (hsub hx), fun x hx => henv.owned x (hsub hx)⟩
      (g3.of_eq (by rw [roots_add, e2]; abel))
  | .drop xs e, D, O, O', ρ, σ, G, F, h, l, hl, henv, g => by
    obtain ⟨O1, hO, h1⟩ := hl
    have hO1 : O1 ⊆ O := fun y hy => by rw [hO]; exact Multiset.mem_add.mpr (Or.inr hy)
    obtain ⟨vs, e1, e2, _, _⟩ := values_roots henv.inside xs fun x hx => henv.sub x (by
      rw [hO]; exact Multiset.mem_add.mpr (Or.inl (by simpa using hx)))
    obtain ⟨h', e3, g3⟩ := Good.release h (addrsOf vs) (R := F + roots ρ O1) (g.of_eq (by
      rw [hO, roots_add, e2]; abel))
    simp only [heval, eval, e1, e3, HR.heap]
    exact heval_post hcall e D O1 O' ρ σ G F h' l h1 (henv.next hO1 fun _ _ => rfl) g3
theorem hevals_post (hcall : HCallRel hc c) : ∀ (es : Exprs) (D : List Name) (scalar first : Bool) (held : List Name) (O O' : Tokens)
    (ρ : HEnv) (σ : Env) (G : Addr → Value) (F H : Addrs) (h : Heap) (l : Log), linExprs D scalar first held es O O' →
    HEnvRel D O ρ σ G → Held D held H ρ σ G → (first = true → H = 0) → (scalar = true → H = 0) →
    Good h G (F + H + roots ρ O) →
    PostAll G F H (roots ρ O') (hevals w p hc scalar ρ es h l) (evals w p captureEnvironment c scalar σ es l)
  | .nil, D, scalar, first, held, O, O', ρ, σ, G, F, H, h, l, hl, henv, hh, hf, hs, g => by
    have : O' = O := hl
    subst this
    exact ⟨G, rfl, g.of_eq (by simp [addrsOf]), fun _ _ => rfl⟩
  | .cons e es, D, scalar, first, held, O, O', ρ, σ, G, F, H, h, l, hl, henv, hh, hf, hs, g => by
    -- the rest of the operands, after the value of the first
    have rest : ∀ (O1 : Tokens) (held' : List Name) (v : HVal) (h' : Heap) (l' : Log) (G' : Addr → Value),
        linExprs D scalar false held' es O1 O' → HEnvRel D O1 ρ σ G' → Held D held' (H + (v.addrs : Addrs)) ρ σ G' →
        Good h' G' (F + H + roots ρ O1 + (v.addrs : Addrs)) → (∀ a ∈ F + H + roots ρ O1, G' a = G a) →
        PostAll G F H (roots ρ O')
          (if scalar && !v.isNumber then .stuck
            else (hevals w p hc scalar ρ es h' l').bind fun vs h l => .ok (v :: vs) h l)
          (if scalar && !(v.value G').isNumber then .stuck
            else (evals w p captureEnvironment c scalar σ es l').bind fun vs l => .ok (v.value G' :: vs) l) := by
      intro O1 held' v h' l' G' hl' henv' hh' g' s'
      rw [g'.isNumber (v := v) fun a ha => Multiset.mem_add.mpr (Or.inr (by simpa using ha))]
      by_cases hsc : (scalar && !v.isNumber) = true
      · rw [if_pos hsc, if_pos hsc]; rfl
      · rw [if_neg hsc, if_neg hsc]
        have hnum : scalar = true → H + (v.addrs : Addrs) = 0 := by
          intro h1
          rw [h1] at hsc
          have h2 : v.isNumber = true := by simpa using hsc
          obtain ⟨n, rfl⟩ := HVal.number_of h2
          rw [hs h1]
          simp [HVal.addrs]
        have ih := hevals_post hcall es D scalar false held' O1 O' ρ σ G' F (H + (v.addrs : Addrs)) h' l' hl' henv' hh'
          (by simp) hnum (g'.of_eq (by abel))
        have hsub := linExprs_subset es D scalar false held' O1 O' hl'
        cases hr : hevals w p hc scalar ρ es h' l' with
        | ok vs h'' l'' =>
          rw [hr] at ih
          obtain ⟨G2, e2, g2, s2⟩ := ih
          rw [e2]
          refine ⟨G2, ?_, g2.of_eq (by rw [coe_addrsOf_cons]; abel), fun a ha => ?_⟩
          · simp only [R.bind, List.map_cons]
            rw [HVal.value_congr (G := G') (G' := G2) fun a ha => s2 a (by simp [ha])]
          · rw [s2 a, s' a]
            · rw [Multiset.mem_add] at ha ⊢
              exact ha.imp_right fun h => roots_mono hsub h
            · simp only [Multiset.mem_add] at ha ⊢
              rcases ha with (h | h) | h
              · exact Or.inl (Or.inl h)
              · exact Or.inl (Or.inr (Or.inl h))
              · exact Or.inr h
        | ret u h'' l'' =>
          rw [hr] at ih
          obtain ⟨G2, e2, g2, s2⟩ := ih
          rw [e2]
          exact ⟨G2, rfl, g2, fun a ha => (s2 a ha).trans (s' a (by simp [ha]))⟩
        | timeout => rw [hr] at ih; have : _ = R.timeout := ih; rw [this]; rfl
        | stuck => rw [hr] at ih; have : _ = R.stuck := ih; rw [this]; rfl
        | fault => rw [hr] at ih; exact ih.elim
    rcases hl with ⟨x, rfl, hxD, hxh, hl'⟩ | ⟨hq, O1, h1, h2⟩
    · obtain ⟨v, hv⟩ := henv.inside x hxD
      obtain ⟨hsv, hHv⟩ := hh x hxh hxD v hv
      have ev : ρ.values [x] = some [v] := by unfold HEnv.values; rw [List.mapM_cons, hv]; rfl
      obtain ⟨h', e3, g3, _⟩ := g.retainAll (addrsOf [v]) fun a ha => g.live (by
        have : a ∈ v.addrs := by simpa [addrsOf] using ha
        simp [hHv a this])
      have ea : hlookup p ρ x = some v := by unfold hlookup; rw [hv]
      have eb : lookup p σ x = some (v.value G) := by unfold lookup; rw [hsv]
      simp only [hevals, evals, heval, eval, ev, e3, HR.heap, ea, eb, HR.ofOption, R.ofOption, HR.bind, R.bind]
      refine rest O held v h' l G hl' henv ?_ (g3.of_eq ?_) fun _ _ => rfl
      · intro y hy hyD u hu
        obtain ⟨h1, h2⟩ := hh y hy hyD u hu
        exact ⟨h1, fun a ha => Multiset.mem_add.mpr (Or.inl (h2 a ha))⟩
      · simp only [addrsOf, List.flatMap_cons, List.flatMap_nil, List.append_nil]; abel
    · have hsub := lin_subset e D O O1 h1
      simp only [hevals, evals]
      by_cases hquiet : quiet e = true
      · -- operands before this one are held
        have ih := heval_post hcall e D O O1 ρ σ G (F + H) h l h1 henv g
        cases hr : heval w p hc ρ e h l with
        | ok v h' l' =>
          have hr' := hr
          rw [hr] at ih
          obtain ⟨G1, e1, g1, s1⟩ := ih
          rw [e1]
          refine rest O1 _ v h' l' G1 h2 (henv.next hsub fun a ha => s1 a (by simp [ha])) ?_ g1 s1
          intro y hy hyD u hu
          rw [List.mem_append] at hy
          rcases hy with hy | hy
          · -- the variable itself
            have hsome : (∃ xs, e = .variable y ∨ e = .clone xs (.variable y)) ∧ y ∈ O := by
              unfold quiet at hquiet
              split at hquiet
              · simp [heldName] at hy
              · rename_i z
                simp only [heldName, List.mem_singleton] at hy
                subst hy
                refine ⟨⟨[], Or.inl rfl⟩, ?_⟩
                rcases h1 with h1 | h1
                · exact absurd hyD h1.1
                · exact h1.2.1
              · rename_i z z'
                have hzz : z = z' := by simpa using hquiet
                simp only [heldName, hzz, beq_self_eq_true, if_true, List.mem_singleton] at hy
                subst hy
                refine ⟨⟨_, Or.inr rfl⟩, ?_⟩
                exact h1.1 y (by simp [hzz])
              · cases hquiet
            obtain ⟨⟨xs, hex⟩, hyO⟩ := hsome
            have huv : u = v ∧ lookup p σ y = some (v.value G1) := by
              have el : hlookup p ρ y = some u := by unfold hlookup; rw [hu]
              rcases hex with rfl | rfl
              · simp only [heval, el, HR.ofOption, HR.ok.injEq] at hr'
                refine ⟨hr'.1, ?_⟩
                simp only [eval] at e1
                unfold R.ofOption at e1
                split at e1
                · rename_i o ho
                  rw [ho]; cases e1; rfl
                · cases e1
              · simp only [heval] at hr'
                split at hr'
                · unfold HR.heap at hr'
                  split at hr'
                  · simp only [el, HR.ofOption, HR.ok.injEq] at hr'
                    refine ⟨hr'.1, ?_⟩
                    simp only [eval] at e1
                    unfold R.ofOption at e1
                    split at e1
                    · rename_i o ho
                      rw [ho]; cases e1; rfl
                    · cases e1
                  · cases hr'
                · cases hr'
            obtain ⟨rfl, hlk⟩ := huv
            have hσ := henv.owned y hyO u hu
            have : lookup p σ y = some (u.value G) := by unfold lookup; rw [hσ]
            rw [this] at hlk
            rw [hσ, hlk]
            exact ⟨rfl, fun a ha => Multiset.mem_add.mpr (Or.inr (by simpa using ha))⟩
          · obtain ⟨h3, h4⟩ := hh y hy hyD u hu
            refine ⟨?_, fun a ha => Multiset.mem_add.mpr (Or.inl (h4 a ha))⟩
            rw [h3, HVal.value_congr (G := G) (G' := G1) fun a ha => s1 a (by simp [h4 a ha])]
        | ret v h' l' => exact absurd hr (quiet_ret hquiet)
        | timeout => rw [hr] at ih; have : _ = R.timeout := ih; rw [this]; rfl
        | stuck => rw [hr] at ih; have : _ = R.stuck := ih; rw [this]; rfl
        | fault => rw [hr] at ih; exact ih.elim
      · -- nothing is held
        have hH : H = 0 := by
          rcases hq with h3 | h3 | h3
          · exact absurd h3 hquiet
          · exact hf h3
          · exact hs h3
        subst hH
        have ih := heval_post hcall e D O O1 ρ σ G F h l h1 henv (g.of_eq (by simp))
        cases hr : heval w p hc ρ e h l with
        | ok v h' l' =>
          rw [hr] at ih
          obtain ⟨G1, e1, g1, s1⟩ := ih
          rw [e1]
          refine rest O1 _ v h' l' G1 h2 (henv.next hsub fun a ha => s1 a (by simp [ha])) ?_ (g1.of_eq (by simp))
            (fun a ha => s1 a (by simpa using ha))
          intro y hy hyD u hu
          rw [List.mem_append] at hy
          rcases hy with hy | hy
          · exfalso
            unfold heldName at hy
            split at hy
            · exact hquiet rfl
            · rename_i z z'
              by_cases hzz : (z == z') = true
              · exact hquiet hzz
              · rw [if_neg hzz] at hy; cases hy
            · cases hy
          · obtain ⟨h3, h4⟩ := hh y hy hyD u hu
            refine ⟨?_, fun a ha => absurd (h4 a ha) (by simp)⟩
            rw [h3, HVal.value_congr (G := G) (G' := G1) fun a ha => absurd (h4 a ha) (by simp)]
        | ret v h' l' =>
          rw [hr] at ih
          obtain ⟨G1, e1, g1, s1⟩ := ih
          rw [e1]
          exact ⟨G1, rfl, g1, s1⟩
        | timeout => rw [hr] at ih; have : _ = R.timeout := ih; rw [this]; rfl
        | stuck => rw [hr] at ih; have : _ = R.stuck := ih; rw [this]; rfl
        | fault => rw [hr] at ih; exact ih.elim
theorem hevalAlts_post (hcall : HCallRel hc c) : ∀ (as : Alts) (D : List Name) (O O' : Tokens) (ρ : HEnv) (σ : Env)
    (G : Addr → Value) (F : Addrs) (h : Heap) (l : Log) (t : TypeId) (v : HVal), linAlts D as O O' → HEnvRel D O ρ σ G →
    Good h G (F + roots ρ O + (v.addrs : Addrs)) →
    Post G F (roots ρ O') (hevalAlts w p hc ρ t v as h l) (evalAlts w p captureEnvironment c σ t (v.value G) as l)
  | .nil, _, _, _, _, _, _, _, _, _, _, _, _, _, _ => rfl
  | .cons ts x e as, D, O, O', ρ, σ, G, F, h, l, t, v, hl, henv, g => by
    obtain ⟨⟨hx, hO', h1⟩, h2⟩ := hl
    simp only [hevalAlts, evalAlts, hmatch_value]
    cases hm : hmatch ts t v with
    | none => exact hevalAlts_post hcall as D O O' ρ σ G F h l t v h2 henv g
    | some u =>
      have := heval_post hcall e (x :: D) (x ::ₘ O) O' (ρ.set x u) (σ.set x (u.value G)) G F h l h1 (henv.bind hx u)
        (g.of_eq (by
          rw [roots_cons, HEnv.set_self, roots_set (henv.notIn hx), ← hmatch_addrs hm]
          change _ = F + ((u.addrs : Addrs) + _)
          abel))
      rw [roots_set hO'] at this
      exact this
end
end

end Verif.Mir
