import Mathlib.Tactic.Tauto
import Verif.Mir.HeapSim

/- Calls of functions that handle references correctly, and whole programs of them. -/
namespace Verif.Mir

/-! ### Arguments -/

theorem HEnvRel.congr {D D' : List Name} {O : Tokens} {ρ : HEnv} {σ : Env} {G : Addr → Value} (h : HEnvRel D O ρ σ G)
    (e : ∀ x, x ∈ D' ↔ x ∈ D) : HEnvRel D' O ρ σ G :=
  ⟨fun x hx => h.outside x fun h' => hx ((e x).mpr h'), fun x hx => h.inside x ((e x).mp hx),
    fun x hx => (e x).mpr (h.sub x hx), h.owned⟩

theorem HEnvRel.empty (G : Addr → Value) : HEnvRel [] 0 (fun _ => none) (fun _ => none) G :=
  ⟨fun _ _ => ⟨rfl, rfl⟩, fun _ h => absurd h List.not_mem_nil, fun _ h => absurd h (Multiset.notMem_zero _),
    fun _ h => absurd h (Multiset.notMem_zero _)⟩

/-- Environments of arguments. -/
theorem setMany_post {G : Addr → Value} : ∀ (xs : List Name) (vs : List HVal) {D : List Name} {O : Tokens} {ρ : HEnv} {σ : Env},
    HEnvRel D O ρ σ G → xs.Nodup → (∀ x ∈ xs, x ∉ D) →
    match ρ.setMany xs vs with
    | some ρ' => ∃ σ', σ.setMany xs (vs.map (HVal.value G)) = some σ' ∧ HEnvRel (xs ++ D) ((xs : Tokens) + O) ρ' σ' G ∧
        roots ρ' ((xs : Tokens) + O) = (addrsOf vs : Addrs) + roots ρ O
    | none => σ.setMany xs (vs.map (HVal.value G)) = none
  | [], [], D, O, ρ, σ, h, _, _ => ⟨σ, rfl, by simpa using h, by simp [addrsOf]⟩
  | [], _ :: _, D, O, ρ, σ, h, _, _ => rfl
  | _ :: _, [], D, O, ρ, σ, h, _, _ => rfl
  | x :: xs, v :: vs, D, O, ρ, σ, h, hn, hx => by
    rw [List.nodup_cons] at hn
    have hxD := hx x (by simp)
    have ih := setMany_post xs vs (h.bind hxD v) hn.2 fun y hy hyD => by
      rw [List.mem_cons] at hyD
      rcases hyD with rfl | hyD
      · exact hn.1 hy
      · exact hx y (by simp [hy]) hyD
    simp only [HEnv.setMany, List.map_cons, Env.setMany]
    cases e : (ρ.set x v).setMany xs vs with
    | none => rw [e] at ih; exact ih
    | some ρ' =>
      rw [e] at ih
      obtain ⟨σ', e1, h1, h2⟩ := ih
      have eO : ((x :: xs : List Name) : Tokens) + O = (xs : Tokens) + x ::ₘ O := by
        rw [← Multiset.cons_coe, Multiset.cons_add, Multiset.add_cons]
      refine ⟨σ', e1, ?_, ?_⟩
      · rw [eO]
        exact h1.congr fun y => by simp [or_comm, or_assoc, or_left_comm]
      · rw [eO, h2, roots_cons, HEnv.set_self, roots_set (h.notIn hxD), coe_addrsOf_cons]
        change _ + (((v.addrs : List Addr) : Addrs) + _) = _
        abel

theorem setMany_closureEnv : ∀ (xs : List Name) (vs : List HVal) (ρ : HEnv), xs.Nodup → vs.length = xs.length →
    ρ.setMany xs vs = some fun y => (closureEnv xs vs y).or (ρ y)
  | [], [], ρ, _, _ => by simp [HEnv.setMany, closureEnv]
  | [], _ :: _, _, _, h => by simp at h
  | _ :: _, [], _, _, h => by simp at h
  | x :: xs, v :: vs, ρ, hn, h => by
    rw [List.nodup_cons] at hn
    simp only [HEnv.setMany]
    rw [setMany_closureEnv xs vs _ hn.2 (by simpa using h)]
    congr 1
    funext y
    simp only [closureEnv, HEnv.set]
    by_cases hy : y = x
    · subst hy
      rw [closureEnv_none hn.1]
      simp
    · simp [hy]
where
  closureEnv_none : ∀ {xs : List Name} {vs : List HVal} {x : Name}, x ∉ xs → closureEnv xs vs x = none
    | [], _, _, _ => by simp [closureEnv]
    | _ :: _, [], _, _ => by simp [closureEnv]
    | y :: xs, v :: vs, x, h => by
      rw [List.mem_cons, not_or] at h
      simp only [closureEnv, if_neg h.1]
      exact closureEnv_none h.2

theorem HEnvRel.eq {D : List Name} {O : Tokens} {ρ : HEnv} {σ : Env} {G : Addr → Value} (h : HEnvRel D O ρ σ G)
    (hO : ∀ x ∈ D, x ∈ O) : σ = ρ.env G := by
  funext x
  unfold HEnv.env
  by_cases hx : x ∈ D
  · obtain ⟨v, hv⟩ := h.inside x hx
    rw [hv, h.owned x (hO x hx) v hv]; rfl
  · rw [(h.outside x hx).1, (h.outside x hx).2]; rfl

/-! ### Calls -/

/-- Calls on heaps do what calls of values do. -/
theorem happly_post (w : World) {p : Program} (hp : p.linear) : ∀ n, HCallRel (happly w p n) (apply w p captureEnvironment n)
  | 0 => fun _ _ _ _ _ _ _ => rfl
  | n + 1 => by
    have ih := happly_post w hp n
    intro f vs h log G F g
    cases f with
    | pointer a =>
      obtain ⟨c, hc, hG⟩ := g.pointer (a := a) (by simp [HVal.addrs])
      have hok := g.closures a c hc
      obtain ⟨k, b⟩ := c
      simp only [happly, HVal.value]
      rw [hc, hG]
      cases b with
      | string s => rfl
      | record t us => rfl
      | closure f env args th body us =>
        obtain ⟨hlen, hnd, hlin⟩ := hok
        simp only [Block.value, apply]
        obtain ⟨h1, e1, g1, _⟩ := Good.retainAll (addrsOf us) g fun b hb => g.live_ref (Heap.mem_refs.mpr ⟨a, _, hc, hb⟩)
        rw [e1]
        simp only [HR.heap]
        have hnd' : f ∉ env ++ args ∧ (env ++ args).Nodup := List.nodup_cons.mp hnd
        have hne := hnd'.2.sublist (List.sublist_append_left env args)
        have hna := hnd'.2.sublist (List.sublist_append_right env args)
        have hdis := List.disjoint_of_nodup_append hnd'.2
        have s1 := setMany_post env us (HEnvRel.empty G) hne fun x _ hx => by cases hx
        rw [setMany_closureEnv env us _ hne hlen] at s1 ⊢
        have eor : (fun y => (closureEnv env us y).or none) = closureEnv env us := by funext y; simp
        simp only [eor] at s1 ⊢
        obtain ⟨σ1, _, r1, q1⟩ := s1
        have hσ := r1.eq fun x hx => by simpa using hx
        subst hσ
        have r2 := r1.bind (x := f) (by simp only [List.append_nil]; exact fun h => hnd'.1 (by simp [h])) (.pointer a)
        have hval : HVal.value G (.pointer a) = .closure f env args th body ((closureEnv env us).env G) := by
          simp only [HVal.value, hG, Block.value]
        rw [hval] at r2
        have s2 := setMany_post args vs r2 hna fun x hx hx' => by
          simp only [List.append_nil, List.mem_cons] at hx'
          rcases hx' with rfl | hx'
          · exact hnd'.1 (by simp [hx])
          · exact hdis hx' hx
        cases e2 : ((closureEnv env us).set f (.pointer a)).setMany args vs with
        | none => rw [e2] at s2; simp only at s2 ⊢; rw [s2]; rfl
        | some ρ2 =>
          rw [e2] at s2
          obtain ⟨σ2, e3, r3, q3⟩ := s2
          simp only [e3]
          refine Post.catch ?_
          have hO : ((f :: env ++ args : List Name) : Tokens) = (args : Tokens) + f ::ₘ ((env : Tokens) + 0) := by
            rw [add_zero, Multiset.cons_coe, Multiset.coe_add]
            exact Multiset.coe_eq_coe.mpr List.perm_append_comm
          have := heval_post ih body (f :: env ++ args) _ 0 ρ2 σ2 G F h1 log (w := w) (p := p) hlin
            (by rw [hO]; exact r3.congr fun x => by simp only [List.cons_append, List.append_nil, List.mem_cons, List.mem_append]; tauto)
            (g1.of_eq (by
              rw [hO, q3, roots_cons, HEnv.set_self, roots_set, q1, roots_zero]
              · change _ = F + (_ + (((([a] : List Addr)) : Addrs) + _))
                simp only [HVal.addrs]
                abel
              · exact fun h => hnd'.1 (by simp only [add_zero, Multiset.mem_coe] at h; simp [h])))
          rwa [roots_zero] at this
    | global gn =>
      simp only [happly, HVal.value, apply]
      cases hf : p.find gn with
      | none =>
        simp only
        split
        · exact hcallForeign_post w gn log (g.of_eq (by simp [HVal.addrs]))
        · rfl
      | some d =>
        obtain ⟨hnd, hlin⟩ := hp d (by unfold Program.find at hf; exact List.mem_of_find?_eq_some hf)
        have s := setMany_post d.args vs (HEnvRel.empty G) hnd fun x _ hx => by cases hx
        simp only
        cases e : HEnv.setMany (fun _ => none) d.args vs with
        | none => rw [e] at s; simp only at s ⊢; rw [s]; rfl
        | some ρ =>
          rw [e] at s
          obtain ⟨σ, e1, r, q⟩ := s
          simp only [e1]
          refine Post.catch ?_
          rw [add_zero] at r q
          have := heval_post ih d.body d.args _ 0 ρ σ G F h log (w := w) (p := p) hlin
            (r.congr fun x => by simp) (g.of_eq (by rw [q, roots_zero]; simp [HVal.addrs]))
          rwa [roots_zero] at this
    | _ => rfl

/-! ### Programs -/

/-- What holds of a program that handles references correctly. -/
theorem hrun_post (w : World) {p : Program} (hp : p.linear) (n : Nat) (f : Name) (args : List Obs) :
    ∃ G, CallPost G 0 (p.hrun w n f args) (p.run w captureEnvironment n f args) := by
  have g0 : Good [] (fun _ => .none) 0 :=
    ⟨fun a => by simp [Heap.cnt, Heap.cell, Heap.refs], fun a c h => by simp [Heap.cell] at h,
      ⟨fun _ => 0, fun a c h => by simp [Heap.cell] at h⟩, fun a c h => by simp [Heap.cell] at h,
      fun a c h => by simp [Heap.cell] at h⟩
  have s := Good.allocObsList args g0
  unfold Program.hrun Program.run
  cases e : Heap.allocObsList [] args with
  | none => rw [e] at s; simp only at s; rw [s]; exact ⟨fun _ => .none, rfl⟩
  | some r =>
    obtain ⟨vs, h⟩ := r
    rw [e] at s
    obtain ⟨G, e1, g, _⟩ := s
    rw [e1]
    exact ⟨G, happly_post w hp n (.global f) vs h [] G 0 (g.of_eq (by simp [HVal.addrs]))⟩

end Verif.Mir
