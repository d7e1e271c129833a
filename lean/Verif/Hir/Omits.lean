import Verif.Hir.Elaborate

/-!
# Variables that do not occur

The checks of an expression do not depend on the type of a variable that does not occur in it.
-/

namespace Verif.Hir

open Verif.Res (bind_eq_ok ok_bind)

/-- The elements of a list literal. -/
def listElem : ListElem Expr → Expr
  | .single e => e
  | .multiple e => e

/-- The expressions of an element of a map literal. -/
def mapElem : MapElem Expr → List Expr
  | .single a b => [a, b]
  | .multiple e => [e]

/-- The expressions of a branch of a comprehension. -/
def branchKids (b : Branch Expr) : List Expr := b.iteratees.map (·.2) ++ b.condition.toList

/-- The expressions that an expression is made of. -/
def kids : Expr → List Expr
  | .call _ f args => f :: args
  | .builtInCall _ _ args => args
  | .if_ c a b => [c, a, b]
  | .ifList _ l _ _ a b => [l, a, b]
  | .ifMap _ _ _ m k a b => [m, k, a, b]
  | .ifType _ e bs f => e :: bs.map (·.2) ++ f.toList.map (·.2)
  | .lambda _ _ b => [b]
  | .let_ _ _ a b => [a, b]
  | .list _ es => es.map listElem
  | .comprehension _ e b bs => e :: (b :: bs).flatMap branchKids
  | .map _ _ es => es.flatMap mapElem
  | .addition _ a b => [a, b]
  | .arithmetic _ a b => [a, b]
  | .booleanOp _ a b => [a, b]
  | .equality _ _ a b => [a, b]
  | .not a => [a]
  | .order _ a b => [a, b]
  | .try_ _ a => [a]
  | .record _ fs => fs.map (·.2)
  | .deconstruct _ e _ => [e]
  | .update _ e fs => e :: fs.map (·.2)
  | .coercion _ _ e => [e]
  | _ => []

/-- The variable `x` does not occur in an expression. -/
inductive Omits (x : String) : Expr → Prop
  | mk {e} : e ≠ .variable x → (∀ k ∈ kids e, Omits x k) → Omits x e

theorem Omits.kid {x : String} {e k : Expr} (h : Omits x e) (hk : k ∈ kids e) : Omits x k := by
  cases h with | mk _ h => exact h k hk

theorem Omits.ne {x : String} {e : Expr} (h : Omits x e) : e ≠ .variable x := by
  cases h with | mk h _ => exact h

/-- No name of a comprehension branch occurs in an iteratee after its own. -/
def Apart : List (String × (Option Ty × Expr)) → Prop
  | [] => True
  | (x, _) :: is => (∀ i ∈ is, Omits x i.2.2) ∧ Apart is

/-- Environments that agree but for a variable. -/
def Off (x : String) (Γ Δ : Vars) : Prop := ∀ y, y ≠ x → Γ y = Δ y

theorem Off.insert {x : String} {Γ Δ : Vars} (h : Off x Γ Δ) (y : String) (t : Ty) :
    Off x (Γ.insert y t) (Δ.insert y t) := by
  intro z hz
  unfold Vars.insert
  split
  · rfl
  · exact h z hz

theorem Off.insertAll {x : String} : ∀ (xs : List (String × Ty)) {Γ Δ : Vars}, Off x Γ Δ →
    Off x (Γ.insertAll xs) (Δ.insertAll xs)
  | [], _, _, h => h
  | (y, t) :: xs, Γ, Δ, h => Off.insertAll xs (h.insert y t)

theorem mapList_congr {α β : Type} {f g : α → Res Err β} : ∀ {as : List α}, (∀ a ∈ as, f a = g a) →
    Res.mapList f as = Res.mapList g as
  | [], _ => rfl
  | a :: as, h => by
    simp only [Res.mapList]
    rw [h a List.mem_cons_self, mapList_congr fun b hb => h b (List.mem_cons_of_mem _ hb)]

theorem bind_congr_right {α β : Type} {o : Res Err α} {f g : α → Res Err β} (h : ∀ a, f a = g a) :
    (o >>= f) = (o >>= g) := by rw [funext h]

theorem res_bind_assoc {α β γ : Type} (o : Res Err α) (f : α → Res Err β) (g : β → Res Err γ) :
    ((o >>= f) >>= g) = (o >>= fun a => f a >>= g) := by cases o <;> rfl

variable {C : Ctx}

/-- Extraction does not depend on variables that do not occur. -/
theorem extract_omits {x : String} : ∀ {n : Nat} {Γ Δ : Vars} {e : Expr}, Off x Γ Δ → Omits x e →
    extract n C Γ e = extract n C Δ e := by
  intro n
  induction n with
  | zero => intro Γ Δ e _ _; rfl
  | succ n ih =>
    intro Γ Δ e hΓ ho
    cases e with
    | if_ c a b =>
      simp only [extract, ih hΓ (ho.kid (k := a) (by simp [kids])), ih hΓ (ho.kid (k := b) (by simp [kids]))]
    | ifList t l y z a b =>
      simp only [extract, ih hΓ (ho.kid (k := l) (by simp [kids])), ih hΓ (ho.kid (k := b) (by simp [kids])),
        fun u w => ih ((hΓ.insert y u).insert z w) (ho.kid (k := a) (by simp [kids]))]
    | ifMap t u y m k a b =>
      simp only [extract, ih hΓ (ho.kid (k := m) (by simp [kids])), ih hΓ (ho.kid (k := b) (by simp [kids])),
        fun u => ih (hΓ.insert y u) (ho.kid (k := a) (by simp [kids]))]
    | ifType y e bs f =>
      have h1 : Res.mapList (fun b : Ty × Expr => extract n C (Γ.insert y b.1) b.2) bs =
          Res.mapList (fun b : Ty × Expr => extract n C (Δ.insert y b.1) b.2) bs :=
        mapList_congr fun b hb => ih (hΓ.insert y b.1)
          (ho.kid (by simp only [kids, List.cons_append, List.mem_cons, List.mem_append, List.mem_map]; exact .inr (.inl ⟨b, hb, rfl⟩)))
      cases f with
      | none => simp only [extract, h1]
      | some f =>
        obtain ⟨t, f⟩ := f
        simp only [extract, h1, fun u => ih (hΓ.insert y u) (ho.kid (k := f) (by simp [kids]))]
    | let_ y t a b =>
      simp only [extract, fun u => ih (hΓ.insertAll u) (ho.kid (k := b) (by simp [kids]))]
    | «variable» y =>
      simp only [extract, hΓ y (fun h => ho.ne (by rw [h]))]
    | _ => rfl

theorem mem_iteratees {t : Ty} {e : Expr} {b : Branch Expr} {bs : List (Branch Expr)} {p : Branch Expr}
    (hp : p ∈ b :: bs) {k : Expr} (hk : k ∈ branchKids p) : k ∈ kids (.comprehension t e b bs) := by
  simp only [kids, List.mem_cons]
  exact .inr (List.mem_flatMap.mpr ⟨p, hp, hk⟩)

theorem checkIteratees_omits {x : String} {n : Nat} {f : Vars → Expr → Res Err Ty} :
    ∀ {is : List (String × (Option Ty × Expr))} {Γ Δ : Vars}, Off x Γ Δ →
    (∀ i ∈ is, ∀ Γ Δ, Off x Γ Δ → f Γ i.2.2 = f Δ i.2.2) → ∀ {β : Type} {g h : Vars → Res Err β},
    (∀ Γ Δ, Off x Γ Δ → g Γ = h Δ) →
    (checkIteratees n C f Γ is >>= g) = (checkIteratees n C f Δ is >>= h)
  | [], Γ, Δ, hΓ, _, _, g, h, hg => hg Γ Δ hΓ
  | (y, (t, e)) :: is, Γ, Δ, hΓ, hf, β, g, h, hg => by
    simp only [checkIteratees, res_bind_assoc]
    rw [hf (y, (t, e)) List.mem_cons_self Γ Δ hΓ]
    refine bind_congr_right fun t => bind_congr_right fun u => bind_congr_right fun _ =>
      bind_congr_right fun xt => ?_
    exact checkIteratees_omits (hΓ.insert _ _) (fun i hi => hf i (List.mem_cons_of_mem _ hi)) hg

theorem checkBranches_omits {x : String} {n : Nat} {f : Vars → Expr → Res Err Ty} :
    ∀ {bs : List (Branch Expr)} {Γ Δ : Vars}, Off x Γ Δ →
    (∀ b ∈ bs, ∀ k ∈ branchKids b, ∀ Γ Δ, Off x Γ Δ → f Γ k = f Δ k) → ∀ {β : Type} {g h : Vars → Res Err β},
    (∀ Γ Δ, Off x Γ Δ → g Γ = h Δ) →
    (checkBranches n C f Γ bs >>= g) = (checkBranches n C f Δ bs >>= h)
  | [], Γ, Δ, hΓ, _, _, g, h, hg => hg Γ Δ hΓ
  | b :: bs, Γ, Δ, hΓ, hf, β, g, h, hg => by
    unfold checkBranches
    split
    · rfl
    · simp only [res_bind_assoc]
      refine checkIteratees_omits hΓ (fun i hi Γ Δ h => hf b List.mem_cons_self _ ?_ _ _ h) fun Γ Δ h => ?_
      · exact List.mem_append_left _ (List.mem_map_of_mem (List.of_mem_zip hi).2)
      · have : ∀ c, b.condition = some c → f Γ c = f Δ c := fun c hc => hf b List.mem_cons_self _
          (List.mem_append_right _ (by simp [hc])) _ _ h
        cases hc : b.condition with
        | none =>
          exact checkBranches_omits h (fun b' hb => hf b' (List.mem_cons_of_mem _ hb)) hg
        | some c =>
          simp only [this c hc, res_bind_assoc]
          exact bind_congr_right fun _ => bind_congr_right fun _ => checkBranches_omits h
            (fun b' hb => hf b' (List.mem_cons_of_mem _ hb)) hg

/-- Checks do not depend on variables that do not occur. -/
theorem check_omits {x : String} : ∀ {n : Nat} {Γ Δ : Vars} {e : Expr}, Off x Γ Δ → Omits x e →
    check n C Γ e = check n C Δ e := by
  intro n
  induction n with
  | zero => intro Γ Δ e _ _; rfl
  | succ n ih =>
    intro Γ Δ e hΓ ho
    have K : ∀ k ∈ kids e, check n C Γ k = check n C Δ k := fun k hk => ih hΓ (ho.kid hk)
    have X : extract n C Γ e = extract n C Δ e := extract_omits hΓ ho
    have Z : ∀ k ∈ kids e, ∀ y t, check n C (Γ.insert y t) k = check n C (Δ.insert y t) k :=
      fun k hk y t => ih (hΓ.insert y t) (ho.kid hk)
    have Y : ∀ k ∈ kids e, ∀ xs, check n C (Γ.insertAll xs) k = check n C (Δ.insertAll xs) k :=
      fun k hk xs => ih (hΓ.insertAll xs) (ho.kid hk)
    cases e with
    | call t f args =>
      have h1 : ∀ ts : List Ty, Res.mapList (fun p : Expr × Ty => do
          let t ← check n C Γ p.1
          expectSub n C t p.2) (args.zip ts) = Res.mapList (fun p : Expr × Ty => do
          let t ← check n C Δ p.1
          expectSub n C t p.2) (args.zip ts) := fun ts => mapList_congr fun p hp => by
        rw [K p.1 (List.mem_cons_of_mem _ (List.of_mem_zip hp).1)]
      simp only [check, h1, K f List.mem_cons_self]
    | builtInCall t f args =>
      have h1 : ∀ ts : List Ty, Res.mapList (fun p : Expr × Ty => do
          let t ← check n C Γ p.1
          expectSub n C t p.2) (args.zip ts) = Res.mapList (fun p : Expr × Ty => do
          let t ← check n C Δ p.1
          expectSub n C t p.2) (args.zip ts) := fun ts => mapList_congr fun p hp => by
        rw [K p.1 (List.of_mem_zip hp).1]
      simp only [check, h1]
    | if_ c a b =>
      simp only [check, X, K c (by simp [kids]), K a (by simp [kids]), K b (by simp [kids])]
    | ifList t l y z a b =>
      have h1 : ∀ u w, check n C ((Γ.insert y u).insert z w) a = check n C ((Δ.insert y u).insert z w) a :=
        fun u w => ih ((hΓ.insert y u).insert z w) (ho.kid (by simp [kids]))
      simp only [check, X, h1, K l (by simp [kids]), K b (by simp [kids])]
    | ifMap t u y m k a b =>
      simp only [check, X, K m (by simp [kids]), K k (by simp [kids]), K b (by simp [kids]),
        Z a (by simp [kids])]
    | ifType y e bs f =>
      have h1 : ∀ t, Res.mapList (fun b : Ty × Expr => do
          expectSub n C b.1 t
          let _ ← check n C (Γ.insert y b.1) b.2
          let u ← canonicalize n C.types b.1
          if u = .any then .err .anyTypeBranch else .ok ()) bs = Res.mapList (fun b : Ty × Expr => do
          expectSub n C b.1 t
          let _ ← check n C (Δ.insert y b.1) b.2
          let u ← canonicalize n C.types b.1
          if u = .any then .err .anyTypeBranch else .ok ()) bs := fun t => mapList_congr fun b hb => by
        rw [Z b.2 (by
          simp only [kids, List.cons_append, List.mem_cons, List.mem_append, List.mem_map]
          exact .inr (.inl ⟨b, hb, rfl⟩))]
      cases f with
      | none => simp only [check, X, h1, K e (by simp [kids])]
      | some f =>
        obtain ⟨t, f⟩ := f
        simp only [check, X, h1, K e (by simp [kids]), Z f (by simp [kids])]
    | lambda ps r b => simp only [check, Y b (by simp [kids])]
    | let_ y t a b => simp only [check, K a (by simp [kids]), Y b (by simp [kids])]
    | list t es =>
      simp only [check]
      rw [mapList_congr fun e he => ?_]
      cases e with
      | single e => simp only [K e (List.mem_map.mpr ⟨_, he, rfl⟩)]
      | multiple e => simp only [K e (List.mem_map.mpr ⟨_, he, rfl⟩)]
    | comprehension t e b bs =>
      simp only [check]
      refine checkBranches_omits hΓ (fun p hp k hk Γ Δ h => ih (e := k) h (ho.kid (mem_iteratees hp hk))) fun Γ Δ h => ?_
      rw [ih h (ho.kid (k := e) (by simp [kids]))]
    | map k v es =>
      simp only [check]
      rw [mapList_congr fun e he => ?_]
      cases e with
      | single a b =>
        simp only [K a (List.mem_flatMap.mpr ⟨_, he, by simp [mapElem]⟩),
          K b (List.mem_flatMap.mpr ⟨_, he, by simp [mapElem]⟩)]
      | multiple e => simp only [K e (List.mem_flatMap.mpr ⟨_, he, by simp [mapElem]⟩)]
    | addition t a b => simp only [check, K a (by simp [kids]), K b (by simp [kids])]
    | arithmetic o a b => simp only [check, K a (by simp [kids]), K b (by simp [kids])]
    | booleanOp o a b => simp only [check, K a (by simp [kids]), K b (by simp [kids])]
    | equality t o a b =>
      simp only [check, K a (by simp [kids]), K b (by simp [kids]),
        extract_omits (C := C) (n := n) hΓ (ho.kid (k := a) (by simp [kids])),
        extract_omits (C := C) (n := n) hΓ (ho.kid (k := b) (by simp [kids]))]
    | not a => simp only [check, K a (by simp [kids])]
    | order o a b => simp only [check, K a (by simp [kids]), K b (by simp [kids])]
    | try_ t a => simp only [check, K a (by simp [kids])]
    | record t fs =>
      simp only [check]
      refine bind_congr_right fun ts => ?_
      rw [mapList_congr fun f hf => ?_]
      rw [K f.2 (List.mem_map_of_mem hf)]
    | deconstruct t e y => simp only [check, K e (by simp [kids])]
    | update t e fs =>
      simp only [check, K e (by simp [kids])]
      refine bind_congr_right fun _ => bind_congr_right fun _ => bind_congr_right fun ts => ?_
      rw [mapList_congr fun f hf => ?_]
      rw [K f.2 (List.mem_cons_of_mem _ (List.mem_map_of_mem hf))]
    | coercion s d e => simp only [check, K e (by simp [kids])]
    | «variable» y => simp only [check, hΓ y (fun h => ho.ne (by rw [h]))]
    | boolean b => rfl
    | none => rfl
    | number i => rfl
    | string s => rfl
    | builtIn f => rfl

theorem forall₂_pair_right {α β : Type} {P : α → β → Prop} : ∀ {as : List α} {bs : List β}, List.Forall₂ P as bs →
    ∀ b ∈ bs, ∃ a ∈ as, P a b
  | _, _, .nil, b, hb => by simp at hb
  | _, _, .cons h hs, b, hb => by
    rcases List.mem_cons.mp hb with rfl | hb
    · exact ⟨_, List.mem_cons_self, h⟩
    · obtain ⟨a, ha, hp⟩ := forall₂_pair_right hs b hb
      exact ⟨a, List.mem_cons_of_mem _ ha, hp⟩

theorem mapList_right {α β : Type} {f : α → Res Err β} : ∀ {as : List α} {bs : List β},
    Res.mapList f as = .ok bs → ∀ b ∈ bs, ∃ a ∈ as, f a = .ok b
  | [], _, h, b, hb => by cases h; simp at hb
  | a :: as, bs, h, b, hb => by
    simp only [Res.mapList, bind_eq_ok, Res.ok.injEq] at h
    obtain ⟨b', h1, bs', h2, rfl⟩ := h
    rcases List.mem_cons.mp hb with rfl | hb
    · exact ⟨_, List.mem_cons_self, h1⟩
    · obtain ⟨a, ha, hp⟩ := mapList_right h2 b hb
      exact ⟨a, List.mem_cons_of_mem _ ha, hp⟩

theorem inferBranches_omits {x : String} {n : Nat} {f : Vars → Expr → Res Err Expr} :
    ∀ {bs bs' : List (Branch Expr)} {Γ Δ : Vars},
    (∀ b ∈ bs, ∀ k ∈ branchKids b, ∀ Γ e, f Γ k = .ok e → Omits x e) →
    inferBranches n C f Γ bs = .ok (bs', Δ) → ∀ b ∈ bs', ∀ k ∈ branchKids b, Omits x k
  | [], _, Γ, Δ, _, h => by
    simp only [inferBranches, Res.ok.injEq, Prod.mk.injEq] at h
    rw [← h.1]; simp
  | b :: bs, bs', Γ, Δ, hf, h => by
    unfold inferBranches at h
    obtain ⟨is, h1, h⟩ := bind_eq_ok.mp h
    obtain ⟨xs, h2, h⟩ := bind_eq_ok.mp h
    have hi : ∀ i ∈ is, Omits x i.2 := by
      intro i hi
      obtain ⟨j, hj, e⟩ := mapList_right h1 i hi
      simp only [bind_eq_ok, Res.ok.injEq] at e
      obtain ⟨e', e1, t, e2, rfl⟩ := e
      exact hf b List.mem_cons_self _ (List.mem_append_left _ (List.mem_map_of_mem hj)) _ _ e1
    have hc : ∃ c r, (∀ k, c = some k → Omits x k) ∧ inferBranches n C f (Γ.insertAll xs) bs = .ok r ∧
        bs' = ⟨b.names, is, c⟩ :: r.1 := by
      cases hb : b.condition with
      | none =>
        simp only [hb, ok_bind, bind_eq_ok, Res.ok.injEq, Prod.mk.injEq] at h
        obtain ⟨r, h4, h5, h6⟩ := h
        exact ⟨_, r, by simp, h4, h5.symm⟩
      | some e =>
        simp only [hb, ok_bind, bind_eq_ok, Res.ok.injEq, Prod.mk.injEq] at h
        obtain ⟨e', h3, r, h4, h5, h6⟩ := h
        refine ⟨some e', r, ?_, h4, h5.symm⟩
        intro k hk
        cases hk
        exact hf b List.mem_cons_self _ (List.mem_append_right _ (by simp [hb])) _ _ h3
    obtain ⟨c, r, hc, h4, rfl⟩ := hc
    intro p hp k hk
    rcases List.mem_cons.mp hp with rfl | hp
    · rcases List.mem_append.mp hk with hk | hk
      · obtain ⟨i, hi', rfl⟩ := List.mem_map.mp hk
        exact hi i hi'
      · exact hc k (by simpa using hk)
    · exact inferBranches_omits (bs' := r.1) (Δ := r.2) (fun b' hb => hf b' (List.mem_cons_of_mem _ hb)) h4 p hp k hk

/-- Inference makes up no variables. -/
theorem infer_omits {x : String} : ∀ {n : Nat} {Γ : Vars} {e e' : Expr}, Omits x e → infer n C Γ e = .ok e' →
    Omits x e' := by
  intro n
  induction n with
  | zero => intro Γ e e' _ h; simp [infer] at h
  | succ n ih =>
    intro Γ e e' ho h
    have K : ∀ {k k' : Expr} {Γ : Vars}, k ∈ kids e → infer n C Γ k = .ok k' → Omits x k' :=
      fun hk hi => ih (ho.kid hk) hi
    cases e with
    | call t f args =>
      simp only [infer, bind_eq_ok, Res.ok.injEq] at h
      obtain ⟨f', h1, t', h2, args', h3, rfl⟩ := h
      refine .mk (by simp) fun k hk => ?_
      simp only [kids, List.mem_cons] at hk
      rcases hk with rfl | hk
      · exact K (by simp [kids]) h1
      · obtain ⟨a, ha, e⟩ := mapList_right h3 k hk
        exact K (List.mem_cons_of_mem _ ha) e
    | builtInCall t f args =>
      simp only [infer, bind_eq_ok, Res.ok.injEq] at h
      obtain ⟨args', h3, ts, h2, t', _, rfl⟩ := h
      refine .mk (by simp) fun k hk => ?_
      obtain ⟨a, ha, e⟩ := mapList_right h3 k hk
      exact K ha e
    | if_ c a b =>
      simp only [infer, bind_eq_ok, Res.ok.injEq] at h
      obtain ⟨a', h1, b', h2, c', h3, rfl⟩ := h
      refine .mk (by simp) ?_
      simp only [kids, List.mem_cons, List.not_mem_nil, or_false, forall_eq_or_imp, forall_eq]
      exact ⟨K (by simp [kids]) h3, K (by simp [kids]) h1, K (by simp [kids]) h2⟩
    | ifList t l y z a b =>
      simp only [infer, bind_eq_ok, Res.ok.injEq] at h
      obtain ⟨l', h1, t', h2, e', h3, a', h4, b', h5, rfl⟩ := h
      refine .mk (by simp) ?_
      simp only [kids, List.mem_cons, List.not_mem_nil, or_false, forall_eq_or_imp, forall_eq]
      exact ⟨K (by simp [kids]) h1, K (by simp [kids]) h4, K (by simp [kids]) h5⟩
    | ifMap t u y m k a b =>
      simp only [infer, bind_eq_ok, Res.ok.injEq] at h
      obtain ⟨m', h1, k', h2, t', h3, kv, h4, a', h5, b', h6, rfl⟩ := h
      refine .mk (by simp) ?_
      simp only [kids, List.mem_cons, List.not_mem_nil, or_false, forall_eq_or_imp, forall_eq]
      exact ⟨K (by simp [kids]) h1, K (by simp [kids]) h2, K (by simp [kids]) h5, K (by simp [kids]) h6⟩
    | ifType y e bs f =>
      simp only [infer, bind_eq_ok, Res.ok.injEq] at h
      obtain ⟨a', h1, bs', h2, h3⟩ := h
      have ho' : ∃ f' : Option (Option Ty × Expr), (∀ p, f' = some p → Omits x p.2) ∧ e' = .ifType y a' bs' f' := by
        cases f with
        | none =>
          simp only [ok_bind, Res.ok.injEq] at h3
          exact ⟨none, by simp, h3.symm⟩
        | some f =>
          simp only [bind_eq_ok, Res.ok.injEq] at h3
          obtain ⟨_, _, _, _, _, _, d, _, b', e1, f', rfl, rfl⟩ := h3
          refine ⟨_, ?_, rfl⟩
          intro p hp
          cases hp
          exact K (by simp [kids]) e1
      obtain ⟨f', hf, rfl⟩ := ho'
      refine .mk (by simp) fun k hk => ?_
      simp only [kids, List.cons_append, List.mem_cons, List.mem_append, List.mem_map] at hk
      rcases hk with rfl | ⟨b, hb, rfl⟩ | ⟨b, hb, rfl⟩
      · exact K (by simp [kids]) h1
      · obtain ⟨c, hc, e⟩ := mapList_right h2 b hb
        simp only [bind_eq_ok, Res.ok.injEq] at e
        obtain ⟨e', e1, rfl⟩ := e
        refine K ?_ e1
        simp only [kids, List.cons_append, List.mem_cons, List.mem_append, List.mem_map]
        exact .inr (.inl ⟨c, hc, rfl⟩)
      · exact hf b (by simpa using hb)
    | lambda ps r b =>
      simp only [infer, bind_eq_ok, Res.ok.injEq] at h
      obtain ⟨b', h1, rfl⟩ := h
      refine .mk (by simp) ?_
      simp only [kids, List.mem_cons, List.not_mem_nil, or_false, forall_eq]
      exact K (by simp [kids]) h1
    | let_ y t a b =>
      simp only [infer, bind_eq_ok, Res.ok.injEq] at h
      obtain ⟨a', h1, t', h2, b', h3, rfl⟩ := h
      refine .mk (by simp) ?_
      simp only [kids, List.mem_cons, List.not_mem_nil, or_false, forall_eq_or_imp, forall_eq]
      exact ⟨K (by simp [kids]) h1, K (by simp [kids]) h3⟩
    | list t es =>
      simp only [infer, bind_eq_ok, Res.ok.injEq] at h
      obtain ⟨es', h1, rfl⟩ := h
      refine .mk (by simp) fun k hk => ?_
      obtain ⟨b, hb, rfl⟩ := List.mem_map.mp hk
      obtain ⟨a, ha, e⟩ := mapList_right h1 b hb
      cases a with
      | single a =>
        simp only [bind_eq_ok, Res.ok.injEq] at e
        obtain ⟨e', e1, rfl⟩ := e
        exact K (List.mem_map.mpr ⟨_, ha, rfl⟩) e1
      | multiple a =>
        simp only [bind_eq_ok, Res.ok.injEq] at e
        obtain ⟨e', e1, rfl⟩ := e
        exact K (List.mem_map.mpr ⟨_, ha, rfl⟩) e1
    | comprehension t e b bs =>
      simp only [infer, bind_eq_ok] at h
      obtain ⟨⟨r, Δ⟩, h1, e1, h2, h3⟩ := h
      have hb := inferBranches_omits (x := x) (fun p hp k hk Γ e' he => ih (ho.kid (mem_iteratees hp hk)) he) h1
      split at h3
      · rename_i c cs hcs
        cases h3
        simp only at hcs
        subst hcs
        refine .mk (by simp) fun k hk => ?_
        simp only [kids, List.mem_cons] at hk
        rcases hk with rfl | hk
        · exact K (by simp [kids]) h2
        · obtain ⟨p, hp, hk⟩ := List.mem_flatMap.mp hk
          exact hb p hp k hk
      · cases h3
    | map t u es =>
      simp only [infer, bind_eq_ok, Res.ok.injEq] at h
      obtain ⟨es', h1, rfl⟩ := h
      refine .mk (by simp) fun k hk => ?_
      obtain ⟨b, hb, hk⟩ := List.mem_flatMap.mp hk
      obtain ⟨a, ha, e⟩ := mapList_right h1 b hb
      cases a with
      | single a c =>
        simp only [bind_eq_ok, Res.ok.injEq] at e
        obtain ⟨e', e1, f', e2, rfl⟩ := e
        simp only [mapElem, List.mem_cons, List.not_mem_nil, or_false] at hk
        rcases hk with rfl | rfl
        · exact K (List.mem_flatMap.mpr ⟨_, ha, by simp [mapElem]⟩) e1
        · exact K (List.mem_flatMap.mpr ⟨_, ha, by simp [mapElem]⟩) e2
      | multiple a =>
        simp only [bind_eq_ok, Res.ok.injEq] at e
        obtain ⟨e', e1, rfl⟩ := e
        simp only [mapElem, List.mem_cons, List.not_mem_nil, or_false] at hk
        subst hk
        exact K (List.mem_flatMap.mpr ⟨_, ha, by simp [mapElem]⟩) e1
    | addition t a b =>
      simp only [infer, bind_eq_ok, Res.ok.injEq] at h
      obtain ⟨a', h1, t', h2, t'', h3, b', h4, rfl⟩ := h
      refine .mk (by simp) ?_
      simp only [kids, List.mem_cons, List.not_mem_nil, or_false, forall_eq_or_imp, forall_eq]
      exact ⟨K (by simp [kids]) h1, K (by simp [kids]) h4⟩
    | arithmetic o a b =>
      simp only [infer, bind_eq_ok, Res.ok.injEq] at h
      obtain ⟨a', h1, b', h4, rfl⟩ := h
      refine .mk (by simp) ?_
      simp only [kids, List.mem_cons, List.not_mem_nil, or_false, forall_eq_or_imp, forall_eq]
      exact ⟨K (by simp [kids]) h1, K (by simp [kids]) h4⟩
    | booleanOp o a b =>
      simp only [infer, bind_eq_ok, Res.ok.injEq] at h
      obtain ⟨a', h1, b', h4, rfl⟩ := h
      refine .mk (by simp) ?_
      simp only [kids, List.mem_cons, List.not_mem_nil, or_false, forall_eq_or_imp, forall_eq]
      exact ⟨K (by simp [kids]) h1, K (by simp [kids]) h4⟩
    | order o a b =>
      simp only [infer, bind_eq_ok, Res.ok.injEq] at h
      obtain ⟨a', h1, b', h4, rfl⟩ := h
      refine .mk (by simp) ?_
      simp only [kids, List.mem_cons, List.not_mem_nil, or_false, forall_eq_or_imp, forall_eq]
      exact ⟨K (by simp [kids]) h1, K (by simp [kids]) h4⟩
    | equality t o a b =>
      simp only [infer, bind_eq_ok, Res.ok.injEq] at h
      obtain ⟨a', h1, b', h4, t', _, u', _, rfl⟩ := h
      refine .mk (by simp) ?_
      simp only [kids, List.mem_cons, List.not_mem_nil, or_false, forall_eq_or_imp, forall_eq]
      exact ⟨K (by simp [kids]) h1, K (by simp [kids]) h4⟩
    | not a =>
      simp only [infer, bind_eq_ok, Res.ok.injEq] at h
      obtain ⟨a', h1, rfl⟩ := h
      refine .mk (by simp) ?_
      simp only [kids, List.mem_cons, List.not_mem_nil, or_false, forall_eq]
      exact K (by simp [kids]) h1
    | try_ t a =>
      simp only [infer, bind_eq_ok] at h
      obtain ⟨a', h1, t', _, d, _, d', _, h⟩ := h
      split at h
      · cases h
      · cases h
        refine .mk (by simp) ?_
        simp only [kids, List.mem_cons, List.not_mem_nil, or_false, forall_eq]
        exact K (by simp [kids]) h1
    | record t fs =>
      simp only [infer, bind_eq_ok, Res.ok.injEq] at h
      obtain ⟨fs', h1, rfl⟩ := h
      refine .mk (by simp) fun k hk => ?_
      obtain ⟨b, hb, rfl⟩ := List.mem_map.mp hk
      obtain ⟨a, ha, e⟩ := mapList_right h1 b hb
      simp only [bind_eq_ok, Res.ok.injEq] at e
      obtain ⟨e', e1, rfl⟩ := e
      exact K (List.mem_map_of_mem ha) e1
    | deconstruct t e y =>
      simp only [infer, bind_eq_ok, Res.ok.injEq] at h
      obtain ⟨a', h1, t', _, rfl⟩ := h
      refine .mk (by simp) ?_
      simp only [kids, List.mem_cons, List.not_mem_nil, or_false, forall_eq]
      exact K (by simp [kids]) h1
    | update t e fs =>
      simp only [infer, bind_eq_ok, Res.ok.injEq] at h
      obtain ⟨a', h1, fs', h2, rfl⟩ := h
      refine .mk (by simp) fun k hk => ?_
      simp only [kids, List.mem_cons] at hk
      rcases hk with rfl | hk
      · exact K (by simp [kids]) h1
      · obtain ⟨b, hb, rfl⟩ := List.mem_map.mp hk
        obtain ⟨a, ha, e⟩ := mapList_right h2 b hb
        simp only [bind_eq_ok, Res.ok.injEq] at e
        obtain ⟨e', e1, rfl⟩ := e
        exact K (List.mem_cons_of_mem _ (List.mem_map_of_mem ha)) e1
    | coercion s d e => simp [infer] at h
    | «variable» y => simp only [infer, Res.ok.injEq] at h; rw [← h]; exact ho
    | boolean b => simp only [infer, Res.ok.injEq] at h; rw [← h]; exact ho
    | none => simp only [infer, Res.ok.injEq] at h; rw [← h]; exact ho
    | number i => simp only [infer, Res.ok.injEq] at h; rw [← h]; exact ho
    | string s => simp only [infer, Res.ok.injEq] at h; rw [← h]; exact ho
    | builtIn f => simp only [infer, Res.ok.injEq] at h; rw [← h]; exact ho

end Verif.Hir
