import Verif.Hir.Ends

/-! # The analysis of expressions ends: expressions -/

namespace Verif.Hir

open Res

variable {C : Ctx}

set_option hygiene false in
macro "ends" : tactic => `(tactic|
  repeat' first
  | exact Ends.ok _
  | exact Ends.err _
  | exact orErr_ends _ _
  | exact fieldType_ends _ _
  | exact bindLet_ends _ _
  | exact AllEnd.expectFunction h _
  | exact AllEnd.expectList h _
  | exact AllEnd.expectMap h _
  | exact AllEnd.resolveFields h _
  | exact AllEnd.expectSub h _ _
  | exact AllEnd.typeDifference h _ _
  | exact AllEnd.equalCheck h _ _
  | exact AllEnd.subsumeCheck h _ _
  | exact AllEnd.builtInType h _ _
  | exact AllEnd.checkBuiltIn h _ _ _
  | exact AllEnd.bindElement h _ _
  | exact h _
  | exact ih _ (by simp [kids]) _
  | exact ih _ (by simp [kids])
  | exact extract_ends h _ _
  | refine Ends.mapList fun _ _ => ?_
  | refine Ends.ite ?_ ?_
  | refine Ends.bind ?_ fun _ => ?_)

theorem extract_ends (h : AllEnd C.types) (e : Expr) : ∀ Γ, Ends fun n => extract n C Γ e := by
  induction e using Expr.induction with
  | h e ih =>
    intro Γ
    refine .succ ?_
    cases e with
    | ifType x e bs f =>
      have hb : ∀ b ∈ bs, ∀ Γ, Ends fun n => extract n C Γ b.2 := fun b hb =>
        ih _ (by simp only [kids, List.cons_append, List.mem_cons, List.mem_append, List.mem_map]; exact .inr (.inl ⟨b, hb, rfl⟩))
      rcases f with _ | ⟨u, b⟩ <;> simp only [extract]
      · refine Ends.bind (.mapList fun b h => hb b h _) fun _ => ?_
        ends
      · refine Ends.bind (.mapList fun b h => hb b h _) fun _ => ?_
        ends
    | _ => simp only [extract]; ends

theorem mem_ifType {x : String} {e : Expr} {bs : List (Ty × Expr)} {f : Option (Option Ty × Expr)} {b : Ty × Expr}
    (hb : b ∈ bs) : b.2 ∈ kids (.ifType x e bs f) := by
  simp only [kids, List.cons_append, List.mem_cons, List.mem_append, List.mem_map]
  exact .inr (.inl ⟨b, hb, rfl⟩)

theorem mem_list {t : Ty} {es : List (ListElem Expr)} {e : ListElem Expr} (he : e ∈ es) :
    listElem e ∈ kids (.list t es) := List.mem_map.mpr ⟨e, he, rfl⟩

theorem mem_map {k v : Ty} {es : List (MapElem Expr)} {e : MapElem Expr} (he : e ∈ es) {x : Expr} (hx : x ∈ mapElem e) :
    x ∈ kids (.map k v es) := List.mem_flatMap.mpr ⟨e, he, hx⟩

theorem mem_record {t : Ty} {fs : List (String × Expr)} {f : String × Expr} (hf : f ∈ fs) :
    f.2 ∈ kids (.record t fs) := List.mem_map.mpr ⟨f, hf, rfl⟩

theorem mem_update {t : Ty} {r : Expr} {fs : List (String × Expr)} {f : String × Expr} (hf : f ∈ fs) :
    f.2 ∈ kids (.update t r fs) := List.mem_cons_of_mem _ (List.mem_map.mpr ⟨f, hf, rfl⟩)

theorem inferBranches_ends (h : AllEnd C.types) {inferE : Nat → Vars → Expr → Res Err Expr} :
    ∀ {bs : List (Branch Expr)}, (∀ b ∈ bs, ∀ k ∈ branchKids b, ∀ Γ, Ends fun n => inferE n Γ k) → ∀ Γ,
    Ends fun n => inferBranches n C (inferE n) Γ bs
  | [], _, Γ => by simp only [inferBranches]; exact .ok _
  | b :: bs, hb, Γ => by
    have h1 : ∀ i ∈ b.iteratees, ∀ Γ, Ends fun n => inferE n Γ i.2 := fun i hi =>
      hb b (by simp) _ (List.mem_append_left _ (List.mem_map.mpr ⟨i, hi, rfl⟩))
    have ih := inferBranches_ends h (bs := bs) (inferE := inferE) fun b hb' => hb b (by simp [hb'])
    have h2 : ∀ c, b.condition = some c → ∀ Γ, Ends fun n => inferE n Γ c := fun c hc =>
      hb b (by simp) _ (List.mem_append_right _ (by simp [hc]))
    simp only [inferBranches]
    refine Ends.bind (.mapList fun i hi => Ends.bind (h1 i hi _) fun _ => Ends.bind (extract_ends h _ _) fun _ => .ok _) fun is => ?_
    refine Ends.bind (.mapList fun _ _ => h.bindElement _ _) fun xs => ?_
    cases hc : b.condition with
    | none => exact Ends.bind (.ok _) fun _ => Ends.bind (ih _) fun _ => .ok _
    | some c => exact Ends.bind (h2 c hc _) fun _ => Ends.bind (.ok _) fun _ => Ends.bind (ih _) fun _ => .ok _

set_option maxHeartbeats 2000000 in
theorem infer_ends (h : AllEnd C.types) (e : Expr) : ∀ Γ, Ends fun n => infer n C Γ e := by
  induction e using Expr.induction with
  | h e ih =>
    intro Γ
    refine .succ ?_
    cases e with
    | call t f args =>
      have ha : ∀ a ∈ args, ∀ Γ, Ends fun n => infer n C Γ a := fun a ha => ih _ (by simp [kids, ha])
      simp only [infer]
      refine Ends.bind (by ends) fun _ => Ends.bind (by ends) fun _ => Ends.bind (.mapList fun a h => ha a h _) fun _ => .ok _
    | builtInCall t f args =>
      have ha : ∀ a ∈ args, ∀ Γ, Ends fun n => infer n C Γ a := fun a ha => ih _ (by simp [kids, ha])
      simp only [infer]
      refine Ends.bind (.mapList fun a h => ha a h _) fun _ => Ends.bind (.mapList fun _ _ => extract_ends h _ _) fun _ => ?_
      ends
    | ifType x e bs f =>
      have hb : ∀ b ∈ bs, ∀ Γ, Ends fun n => infer n C Γ b.2 := fun b hb => ih _ (mem_ifType hb)
      rcases f with _ | ⟨u, b⟩ <;> simp only [infer]
      · refine Ends.bind (by ends) fun _ => Ends.bind (.mapList fun b h => Ends.bind (hb b h _) fun _ => .ok _) fun _ => ?_
        ends
      · refine Ends.bind (by ends) fun _ => Ends.bind (.mapList fun b h => Ends.bind (hb b h _) fun _ => .ok _) fun _ => ?_
        ends
    | list t es =>
      simp only [infer]
      refine Ends.bind (.mapList fun a ha => ?_) fun _ => .ok _
      have := ih _ (mem_list ha)
      cases a <;> exact Ends.bind (this _) fun _ => .ok _
    | comprehension t e b bs =>
      simp only [infer]
      refine Ends.bind (inferBranches_ends h (inferE := fun n => infer n C) (fun b hb k hk => ih k ?_) _) fun _ =>
        Ends.bind (by ends) fun _ => .const (by split <;> simp)
      exact List.mem_cons_of_mem _ (List.mem_flatMap.mpr ⟨b, hb, hk⟩)
    | map k v es =>
      simp only [infer]
      refine Ends.bind (.mapList fun a ha => ?_) fun _ => .ok _
      have := fun x hx => ih x (mem_map ha hx)
      cases a with
      | single a b => exact Ends.bind (this a (by simp [mapElem]) _) fun _ => Ends.bind (this b (by simp [mapElem]) _) fun _ => .ok _
      | multiple a => exact Ends.bind (this a (by simp [mapElem]) _) fun _ => .ok _
    | record t fs =>
      simp only [infer]
      exact Ends.bind (.mapList fun f hf => Ends.bind (ih _ (mem_record hf) _) fun _ => .ok _) fun _ => .ok _
    | update t r fs =>
      simp only [infer]
      exact Ends.bind (by ends) fun _ =>
        Ends.bind (.mapList fun f hf => Ends.bind (ih _ (mem_update hf) _) fun _ => .ok _) fun _ => .ok _
    | _ => simp only [infer]; ends

theorem checkIteratees_ends (h : AllEnd C.types) {checkE : Nat → Vars → Expr → Res Err Ty} :
    ∀ {is : List (String × (Option Ty × Expr))}, (∀ i ∈ is, ∀ Γ, Ends fun n => checkE n Γ i.2.2) → ∀ Γ,
    Ends fun n => checkIteratees n C (checkE n) Γ is
  | [], _, Γ => by simp only [checkIteratees]; exact .ok _
  | (x, (t, e)) :: is, hi, Γ => by
    simp only [checkIteratees]
    have := hi _ (List.mem_cons_self ..)
    have ih := checkIteratees_ends h (is := is) (checkE := checkE) fun i hi' => hi i (by simp [hi'])
    exact Ends.bind (by ends) fun _ => Ends.bind (this _) fun _ => Ends.bind (by ends) fun _ => Ends.bind (by ends) fun _ => ih _

theorem checkBranches_ends (h : AllEnd C.types) {checkE : Nat → Vars → Expr → Res Err Ty} :
    ∀ {bs : List (Branch Expr)}, (∀ b ∈ bs, ∀ k ∈ branchKids b, ∀ Γ, Ends fun n => checkE n Γ k) → ∀ Γ,
    Ends fun n => checkBranches n C (checkE n) Γ bs
  | [], _, Γ => by simp only [checkBranches]; exact .ok _
  | b :: bs, hb, Γ => by
    have ih := checkBranches_ends h (bs := bs) (checkE := checkE) fun b hb' => hb b (by simp [hb'])
    have h2 : ∀ c, b.condition = some c → ∀ Γ, Ends fun n => checkE n Γ c := fun c hc =>
      hb b (by simp) _ (List.mem_append_right _ (by simp [hc]))
    simp only [checkBranches]
    refine .ite (.err _) ?_
    refine Ends.bind (checkIteratees_ends h (fun i hi => hb b (by simp) _ (List.mem_append_left _
      (List.mem_map.mpr ⟨i.2, (List.of_mem_zip hi).2, rfl⟩))) _) fun _ => ?_
    cases hc : b.condition with
    | none => exact Ends.bind (.ok _) fun _ => ih _
    | some c => exact Ends.bind (h2 c hc _) fun _ => Ends.bind (h.expectSub _ _) fun _ => ih _

set_option maxHeartbeats 2000000 in
theorem check_ends (h : AllEnd C.types) (e : Expr) : ∀ Γ, Ends fun n => check n C Γ e := by
  induction e using Expr.induction with
  | h e ih =>
    intro Γ
    refine .succ ?_
    cases e with
    | call t f args =>
      have ha : ∀ a ∈ args, ∀ Γ, Ends fun n => check n C Γ a := fun a ha => ih _ (by simp [kids, ha])
      simp only [check]
      refine Ends.bind (by ends) fun _ => Ends.bind (by ends) fun _ => .ite (.err _) ?_
      refine Ends.bind (.mapList fun p hp => Ends.bind (ha _ (List.of_mem_zip hp).1 _) fun _ => h.expectSub _ _) fun _ => ?_
      ends
    | builtInCall t f args =>
      have ha : ∀ a ∈ args, ∀ Γ, Ends fun n => check n C Γ a := fun a ha => ih _ (by simp [kids, ha])
      simp only [check]
      refine Ends.bind (by ends) fun _ => Ends.bind (by ends) fun _ => .ite (.err _) ?_
      refine Ends.bind (.mapList fun p hp => Ends.bind (ha _ (List.of_mem_zip hp).1 _) fun _ => h.expectSub _ _) fun _ => ?_
      ends
    | ifType x e bs f =>
      have hb : ∀ b ∈ bs, ∀ Γ, Ends fun n => check n C Γ b.2 := fun b hb => ih _ (mem_ifType hb)
      rcases f with _ | ⟨u, b⟩ <;> simp only [check]
      · refine Ends.bind (by ends) fun _ => Ends.bind (by ends) fun t => ?_
        cases t <;> refine Ends.bind (by ends) fun _ => Ends.bind (.mapList fun b h' => Ends.bind (by ends) fun _ =>
          Ends.bind (hb b h' _) fun _ => by ends) fun _ => by ends
      · refine Ends.bind (by ends) fun _ => Ends.bind (by ends) fun t => ?_
        cases t <;> refine Ends.bind (by ends) fun _ => Ends.bind (.mapList fun b h' => Ends.bind (by ends) fun _ =>
          Ends.bind (hb b h' _) fun _ => by ends) fun _ => by ends
    | list t es =>
      simp only [check]
      refine Ends.bind (.mapList fun a ha => ?_) fun _ => .ok _
      have := ih _ (mem_list ha)
      cases a <;> exact Ends.bind (this _) fun _ => by ends
    | comprehension t e b bs =>
      simp only [check]
      refine Ends.bind (checkBranches_ends h (checkE := fun n => check n C) (fun b hb k hk => ih k ?_) _) fun _ => ?_
      · exact List.mem_cons_of_mem _ (List.mem_flatMap.mpr ⟨b, hb, hk⟩)
      · ends
    | map k v es =>
      simp only [check]
      refine Ends.bind (.mapList fun a ha => ?_) fun _ => .ok _
      have := fun x hx => ih x (mem_map ha hx)
      cases a with
      | single a b => exact Ends.bind (this a (by simp [mapElem]) _) fun _ => Ends.bind (by ends) fun _ => Ends.bind (this b (by simp [mapElem]) _) fun _ => by ends
      | multiple a => exact Ends.bind (this a (by simp [mapElem]) _) fun _ => by ends
    | record t fs =>
      simp only [check]
      exact Ends.bind (by ends) fun _ => Ends.bind (.mapList fun f hf => Ends.bind (by ends) fun _ => Ends.bind (ih _ (mem_record hf) _) fun _ => by ends) fun _ => by ends
    | update t r fs =>
      simp only [check]
      exact Ends.bind (by ends) fun _ => Ends.bind (by ends) fun _ => Ends.bind (by ends) fun _ =>
        Ends.bind (.mapList fun f hf => Ends.bind (by ends) fun _ => Ends.bind (ih _ (mem_update hf) _) fun _ => by ends) fun _ => .ok _
    | coercion s d e =>
      simp only [check]
      refine Ends.bind (by ends) fun _ => Ends.bind (by ends) fun _ => Ends.bind (by ends) fun c => ?_
      cases c <;> ends
    | _ => simp only [check]; ends

theorem forList_ends {α : Type} {f : Nat → α → Res Err Unit} {as : List α} (h : ∀ a ∈ as, Ends fun n => f n a) :
    Ends fun n => forList (f n) as := by
  unfold forList
  exact Ends.bind (.mapList h) fun _ => .ok _

theorem validateTry_ends (h : AllEnd C.types) (e : Expr) : ∀ r, Ends fun n => validateTry n C r e := by
  induction e using Expr.induction with
  | h e ih =>
    intro r
    refine .succ ?_
    cases e with
    | call t f args =>
      simp only [validateTry]
      exact Ends.bind (by ends) fun _ => forList_ends fun a ha => ih _ (by simp [kids, ha]) _
    | builtInCall t f args =>
      simp only [validateTry]
      exact forList_ends fun a ha => ih _ (by simp [kids, ha]) _
    | ifType x e bs f =>
      simp only [validateTry]
      refine Ends.bind (by ends) fun _ => Ends.bind (forList_ends fun b hb => ih _ (mem_ifType hb) _) fun _ => ?_
      rcases f with _ | ⟨u, b⟩ <;> simp only <;> ends
    | list t es =>
      simp only [validateTry]
      refine forList_ends fun a ha => ?_
      have := ih _ (mem_list ha)
      cases a <;> exact this _
    | comprehension t e b bs =>
      simp only [validateTry]
      refine Ends.bind (forList_ends fun c hc => ?_) fun _ => by ends
      have hk : ∀ k ∈ branchKids c, ∀ r, Ends fun n => validateTry n C r k := fun k hk =>
        ih k (List.mem_cons_of_mem _ (List.mem_flatMap.mpr ⟨c, hc, hk⟩))
      refine Ends.bind (forList_ends fun i hi => hk _ (List.mem_append_left _ (List.mem_map.mpr ⟨i, hi, rfl⟩)) _) fun _ => ?_
      cases hcc : c.condition with
      | none => exact .ok _
      | some d => exact hk _ (List.mem_append_right _ (by simp [hcc])) _
    | map k v es =>
      simp only [validateTry]
      refine forList_ends fun a ha => ?_
      have := fun x hx => ih x (mem_map ha hx)
      cases a with
      | single a b => exact Ends.bind (this a (by simp [mapElem]) _) fun _ => this b (by simp [mapElem]) _
      | multiple a => exact this a (by simp [mapElem]) _
    | record t fs =>
      simp only [validateTry]
      exact forList_ends fun f hf => ih _ (mem_record hf) _
    | update t r fs =>
      simp only [validateTry]
      exact Ends.bind (by ends) fun _ => forList_ends fun f hf => ih _ (mem_update hf) _
    | try_ t a =>
      cases r <;> simp only [validateTry] <;> ends
    | _ => simp only [validateTry]; ends

theorem coerceTo_ends (h : AllEnd C.types) (Γ : Vars) (e : Expr) (t : Ty) : Ends fun n => coerceTo n C Γ e t := by
  unfold coerceTo
  ends

theorem coerceBranches_ends (h : AllEnd C.types) {coerceE : Nat → Vars → Expr → Res Err Expr} :
    ∀ {bs : List (Branch Expr)}, (∀ b ∈ bs, ∀ k ∈ branchKids b, ∀ Γ, Ends fun n => coerceE n Γ k) → ∀ Γ,
    Ends fun n => coerceBranches n C (coerceE n) Γ bs
  | [], _, Γ => by simp only [coerceBranches]; exact .ok _
  | b :: bs, hb, Γ => by
    have h1 : ∀ i ∈ b.iteratees, ∀ Γ, Ends fun n => coerceE n Γ i.2 := fun i hi =>
      hb b (by simp) _ (List.mem_append_left _ (List.mem_map.mpr ⟨i, hi, rfl⟩))
    have ih := coerceBranches_ends h (bs := bs) (coerceE := coerceE) fun b hb' => hb b (by simp [hb'])
    have h2 : ∀ c, b.condition = some c → ∀ Γ, Ends fun n => coerceE n Γ c := fun c hc =>
      hb b (by simp) _ (List.mem_append_right _ (by simp [hc]))
    simp only [coerceBranches]
    refine Ends.bind (.mapList fun i hi => Ends.bind (h1 i hi _) fun _ => .ok _) fun is => ?_
    refine Ends.bind (.mapList fun _ _ => h.bindElement _ _) fun xs => ?_
    cases hc : b.condition with
    | none => exact Ends.bind (.ok _) fun _ => Ends.bind (ih _) fun _ => .ok _
    | some c => exact Ends.bind (h2 c hc _) fun _ => Ends.bind (.ok _) fun _ => Ends.bind (ih _) fun _ => .ok _

set_option maxHeartbeats 2000000 in
theorem coerce_ends (h : AllEnd C.types) (e : Expr) : ∀ Γ, Ends fun n => coerce n C Γ e := by
  induction e using Expr.induction with
  | h e ih =>
    intro Γ
    refine .succ ?_
    have ct := fun Γ e t => coerceTo_ends h Γ e t
    cases e with
    | call t f args =>
      simp only [coerce]
      exact Ends.bind (by ends) fun _ => Ends.bind (by ends) fun _ => Ends.bind (by ends) fun _ =>
        Ends.bind (.mapList fun p hp => Ends.bind (ih _ (by simp [kids, (List.of_mem_zip hp).1]) _) fun _ => ct _ _ _) fun _ => .ok _
    | builtInCall t f args =>
      simp only [coerce]
      exact Ends.bind (by ends) fun _ => Ends.bind (by ends) fun _ =>
        Ends.bind (.mapList fun p hp => Ends.bind (ih _ (by simp [kids, (List.of_mem_zip hp).1]) _) fun _ => ct _ _ _) fun _ => .ok _
    | if_ c a b =>
      simp only [coerce]
      exact Ends.bind (by ends) fun _ => Ends.bind (by ends) fun _ => Ends.bind (by ends) fun _ => Ends.bind (ct _ _ _) fun _ =>
        Ends.bind (by ends) fun _ => Ends.bind (ct _ _ _) fun _ => .ok _
    | ifList t l x y a b =>
      simp only [coerce]
      exact Ends.bind (by ends) fun _ => Ends.bind (by ends) fun _ => Ends.bind (by ends) fun _ => Ends.bind (by ends) fun _ =>
        Ends.bind (ct _ _ _) fun _ => Ends.bind (by ends) fun _ => Ends.bind (ct _ _ _) fun _ => .ok _
    | ifMap kt vt x m k a b =>
      simp only [coerce]
      exact Ends.bind (by ends) fun _ => Ends.bind (by ends) fun _ => Ends.bind (by ends) fun _ => Ends.bind (by ends) fun _ =>
        Ends.bind (by ends) fun _ => Ends.bind (ct _ _ _) fun _ => Ends.bind (by ends) fun _ => Ends.bind (ct _ _ _) fun _ =>
        Ends.bind (by ends) fun _ => Ends.bind (ct _ _ _) fun _ => .ok _
    | ifType x e bs f =>
      have hb : ∀ b ∈ bs, ∀ Γ, Ends fun n => coerce n C Γ b.2 := fun b hb => ih _ (mem_ifType hb)
      rcases f with _ | ⟨u, b⟩ <;> simp only [coerce]
      · exact Ends.bind (by ends) fun _ => Ends.bind (by ends) fun _ => Ends.bind (.mapList fun b h' => Ends.bind (hb b h' _) fun _ =>
          Ends.bind (ct _ _ _) fun _ => .ok _) fun _ => by ends
      · exact Ends.bind (by ends) fun _ => Ends.bind (by ends) fun _ => Ends.bind (.mapList fun b h' => Ends.bind (hb b h' _) fun _ =>
          Ends.bind (ct _ _ _) fun _ => .ok _) fun _ => Ends.bind (by ends) fun _ => Ends.bind (by ends) fun _ =>
          Ends.bind (ct _ _ _) fun _ => by ends
    | lambda ps r b =>
      simp only [coerce]
      exact Ends.bind (by ends) fun _ => Ends.bind (ct _ _ _) fun _ => .ok _
    | list t es =>
      simp only [coerce]
      refine Ends.bind (.mapList fun a ha => ?_) fun _ => .ok _
      have := ih _ (mem_list ha)
      cases a <;> exact Ends.bind (this _) fun _ => Ends.bind (ct _ _ _) fun _ => .ok _
    | comprehension t e b bs =>
      simp only [coerce]
      refine Ends.bind (coerceBranches_ends h (coerceE := fun n => coerce n C) (fun b hb k hk => ih k ?_) _) fun _ =>
        Ends.bind (by ends) fun _ => Ends.bind (ct _ _ _) fun _ => .const (by split <;> simp)
      exact List.mem_cons_of_mem _ (List.mem_flatMap.mpr ⟨b, hb, hk⟩)
    | map k v es =>
      simp only [coerce]
      refine Ends.bind (.mapList fun a ha => ?_) fun _ => .ok _
      have := fun x hx => ih x (mem_map ha hx)
      cases a with
      | single a b =>
        exact Ends.bind (this a (by simp [mapElem]) _) fun _ => Ends.bind (ct _ _ _) fun _ =>
          Ends.bind (this b (by simp [mapElem]) _) fun _ => Ends.bind (ct _ _ _) fun _ => .ok _
      | multiple a => exact Ends.bind (this a (by simp [mapElem]) _) fun _ => Ends.bind (ct _ _ _) fun _ => .ok _
    | equality t op a b =>
      simp only [coerce]
      exact Ends.bind (by ends) fun _ => Ends.bind (by ends) fun _ => Ends.bind (ct _ _ _) fun _ => Ends.bind (by ends) fun _ =>
        Ends.bind (ct _ _ _) fun _ => .ok _
    | record t fs =>
      simp only [coerce]
      exact Ends.bind (by ends) fun _ => Ends.bind (.mapList fun f hf => Ends.bind (ih _ (mem_record hf) _) fun _ => Ends.bind (by ends) fun _ =>
        Ends.bind (ct _ _ _) fun _ => .ok _) fun _ => .ok _
    | update t r fs =>
      simp only [coerce]
      exact Ends.bind (by ends) fun _ => Ends.bind (by ends) fun _ => Ends.bind (.mapList fun f hf => Ends.bind (ih _ (mem_update hf) _) fun _ =>
        Ends.bind (by ends) fun _ => Ends.bind (ct _ _ _) fun _ => .ok _) fun _ => .ok _
    | _ => simp only [coerce]; ends

theorem typeExists_ends (m : TypeModule) (t : Ty) : Ends fun _ => typeExists m t := by
  refine .const ?_
  unfold typeExists
  split <;> simp

set_option maxHeartbeats 2000000 in
theorem typesExist_ends (m : TypeModule) (e : Expr) : Ends fun n => typesExist n m e := by
  induction e using Expr.induction with
  | h e ih =>
    refine .succ ?_
    have te := typeExists_ends m
    have h : True := trivial
    cases e with
    | call t f args =>
      simp only [typesExist]
      exact Ends.bind (ih _ (by simp [kids])) fun _ => forList_ends fun a ha => ih _ (by simp [kids, ha])
    | builtInCall t f args =>
      simp only [typesExist]
      exact forList_ends fun a ha => ih _ (by simp [kids, ha])
    | ifType x e bs f =>
      simp only [typesExist]
      refine Ends.bind (ih _ (by simp [kids])) fun _ => Ends.bind (forList_ends fun b hb => Ends.bind (te _) fun _ => ih _ (mem_ifType hb)) fun _ => ?_
      rcases f with _ | ⟨u, b⟩
      · exact .ok _
      · exact ih _ (by simp [kids])
    | coercion s d e =>
      simp only [typesExist]
      exact Ends.bind (te _) fun _ => Ends.bind (te _) fun _ => ih _ (by simp [kids])
    | lambda ps r b =>
      simp only [typesExist]
      exact Ends.bind (forList_ends fun _ _ => te _) fun _ => Ends.bind (te _) fun _ => ih _ (by simp [kids])
    | list t es =>
      simp only [typesExist]
      refine Ends.bind (te _) fun _ => forList_ends fun a ha => ?_
      have := ih _ (mem_list ha)
      cases a <;> exact this
    | comprehension t e b bs =>
      simp only [typesExist]
      refine Ends.bind (te _) fun _ => Ends.bind (ih _ (by simp [kids])) fun _ => forList_ends fun c hc => ?_
      have hk : ∀ k ∈ branchKids c, Ends fun n => typesExist n m k := fun k hk =>
        ih k (List.mem_cons_of_mem _ (List.mem_flatMap.mpr ⟨c, hc, hk⟩))
      refine Ends.bind (forList_ends fun i hi => hk _ (List.mem_append_left _ (List.mem_map.mpr ⟨i, hi, rfl⟩))) fun _ => ?_
      cases hcc : c.condition with
      | none => exact .ok _
      | some d => exact hk _ (List.mem_append_right _ (by simp [hcc]))
    | map k v es =>
      simp only [typesExist]
      refine Ends.bind (te _) fun _ => Ends.bind (te _) fun _ => forList_ends fun a ha => ?_
      have := fun x hx => ih x (mem_map ha hx)
      cases a with
      | single a b => exact Ends.bind (this a (by simp [mapElem])) fun _ => this b (by simp [mapElem])
      | multiple a => exact this a (by simp [mapElem])
    | record t fs =>
      simp only [typesExist]
      exact Ends.bind (te _) fun _ => forList_ends fun f hf => ih _ (mem_record hf)
    | update t r fs =>
      simp only [typesExist]
      exact Ends.bind (te _) fun _ => Ends.bind (ih _ (by simp [kids])) fun _ => forList_ends fun f hf => ih _ (mem_update hf)
    | _ => simp only [typesExist]; ends

/-- The analysis of a definition ends. -/
theorem analyzeDefinition_ends (h : AllEnd C.types) (Γ : Vars) (d : Definition) : Ends fun n => analyzeDefinition n C Γ d := by
  unfold analyzeDefinition
  exact Ends.bind (infer_ends h _ _) fun _ => Ends.bind (check_ends h _ _) fun _ => Ends.bind (h.expectSub _ _) fun _ =>
    Ends.bind (validateTry_ends h _ _) fun _ => Ends.bind (coerce_ends h _ _) fun _ => Ends.bind (coerceTo_ends h _ _ _) fun _ =>
    Ends.bind (check_ends h _ _) fun _ => Ends.bind (h.expectSub _ _) fun _ => .ok _

end Verif.Hir
