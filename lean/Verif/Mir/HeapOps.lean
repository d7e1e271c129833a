import Verif.Mir.HeapGood

/- Operations on heaps do what operations on values do. -/
namespace Verif.Mir

/-- What holds of a call or an operation with references `F` elsewhere. -/
def CallPost (G : Addr → Value) (F : Addrs) (r : HR HVal) (q : R Value) : Prop :=
  match r with
  | .ok v h l => ∃ G', q = .ok (v.value G') l ∧ Good h G' (F + (v.addrs : Addrs)) ∧ ∀ a ∈ F, G' a = G a
  | .ret _ _ _ => False
  | .timeout => q = .timeout
  | .stuck => q = .stuck
  | .fault => False

theorem CallPost.mono {G G' : Addr → Value} {F : Addrs} {r : HR HVal} {q : R Value} (h : CallPost G' F r q)
    (hG : ∀ a ∈ F, G' a = G a) : CallPost G F r q := by
  cases r with
  | ok v h' l =>
    obtain ⟨G1, h1, h2, h3⟩ := h
    exact ⟨G1, h1, h2, fun a ha => (h3 a ha).trans (hG a ha)⟩
  | _ => exact h

/-! ### Shapes of values -/

/-- Values of blocks. -/
theorem Good.pointer {h : Heap} {G : Addr → Value} {R : Addrs} (g : Good h G R) {a : Addr} (ha : a ∈ R) :
    ∃ c, h.cell a = some c ∧ G a = c.block.value G := by
  obtain ⟨c, hc⟩ := g.live ha
  exact ⟨c, hc, g.values a c hc⟩

theorem Good.number {h : Heap} {G : Addr → Value} {R : Addrs} (g : Good h G R) {v : HVal} (hv : ∀ a ∈ v.addrs, a ∈ R)
    {n : UInt64} (e : v.value G = .number n) : v = .number n := by
  cases v with
  | number m => simpa [HVal.value] using e
  | pointer a =>
    obtain ⟨c, _, hG⟩ := g.pointer (hv a (by simp [HVal.addrs]))
    simp only [HVal.value, hG] at e
    cases hb : c.block <;> simp [hb, Block.value] at e
  | _ => simp [HVal.value] at e

theorem Good.isNumber {h : Heap} {G : Addr → Value} {R : Addrs} (g : Good h G R) {v : HVal} (hv : ∀ a ∈ v.addrs, a ∈ R) :
    (v.value G).isNumber = v.isNumber := by
  cases v with
  | pointer a =>
    obtain ⟨c, _, hG⟩ := g.pointer (hv a (by simp [HVal.addrs]))
    simp only [HVal.value, hG]
    cases hb : c.block <;> rfl
  | _ => rfl

theorem Good.variant {h : Heap} {G : Addr → Value} {R : Addrs} (g : Good h G R) {v : HVal} (hv : ∀ a ∈ v.addrs, a ∈ R)
    {t : TypeId} {u : Value} (e : v.value G = .variant t u) : ∃ v', v = .variant t v' ∧ u = v'.value G := by
  cases v with
  | variant t' v' =>
    simp only [HVal.value, Value.variant.injEq] at e
    exact ⟨v', by rw [e.1], e.2.symm⟩
  | pointer a =>
    obtain ⟨c, _, hG⟩ := g.pointer (hv a (by simp [HVal.addrs]))
    simp only [HVal.value, hG] at e
    cases hb : c.block <;> simp [hb, Block.value] at e
  | _ => simp [HVal.value] at e

theorem Good.record {h : Heap} {G : Addr → Value} {R : Addrs} (g : Good h G R) {v : HVal} (hv : ∀ a ∈ v.addrs, a ∈ R)
    {t : TypeId} {us : List Value} (e : v.value G = .record t us) :
    (v = .empty t ∧ us = []) ∨ ∃ a n vs, v = .pointer a ∧ h.cell a = some ⟨n, .record t vs⟩ ∧ us = vs.map (HVal.value G) := by
  cases v with
  | empty t' =>
    simp only [HVal.value, Value.record.injEq] at e
    exact Or.inl ⟨by rw [e.1], e.2.symm⟩
  | pointer a =>
    obtain ⟨c, hc, hG⟩ := g.pointer (hv a (by simp [HVal.addrs]))
    simp only [HVal.value, hG] at e
    cases hb : c.block with
    | record t' vs =>
      simp only [hb, Block.value, Value.record.injEq] at e
      refine Or.inr ⟨a, c.count, vs, rfl, ?_, e.2.symm⟩
      rw [hc]
      cases c
      simp only at hb
      rw [hb, e.1]
    | _ => simp [hb, Block.value] at e
  | _ => simp [HVal.value] at e

/-! ### Record fields -/

theorem coe_addrsOf_cons (v : HVal) (vs : List HVal) :
    ((addrsOf (v :: vs) : List Addr) : Addrs) = (v.addrs : Addrs) + (addrsOf vs : Addrs) := by
  simp [addrsOf]

theorem coe_addrsOf_append (vs us : List HVal) :
    ((addrsOf (vs ++ us) : List Addr) : Addrs) = (addrsOf vs : Addrs) + (addrsOf us : Addrs) := by
  simp [addrsOf]

theorem count_addrsOf_set {vs : List HVal} {i : Nat} {w v : HVal} (h : vs[i]? = some v) (x : Addr) :
    (addrsOf (vs.set i w)).count x + v.addrs.count x = (addrsOf vs).count x + w.addrs.count x := by
  unfold addrsOf
  induction vs generalizing i with
  | nil => simp at h
  | cons u vs ih =>
    cases i with
    | zero => simp at h; subst h; simp; omega
    | succ i =>
      simp at h
      have := ih h
      simp only [List.set_cons_succ, List.flatMap_cons, List.count_append] at this ⊢
      omega

theorem fieldsAt_set {vs : List HVal} {i : Nat} {w : HVal} {is : List Nat} (h : i ∉ is) :
    fieldsAt (vs.set i w) is = fieldsAt vs is := by
  unfold fieldsAt
  apply List.filterMap_congr
  intro j hj
  rw [List.getElem?_set_ne (fun e : i = j => h (e ▸ hj))]

/-- References of new fields, of old ones and of replaced ones. -/
theorem count_updateHVals : ∀ {is : List Nat} {vs ws vs' : List HVal}, is.Nodup → updateHVals vs is ws = some vs' →
    ∀ x, (addrsOf vs').count x + (addrsOf (fieldsAt vs is)).count x = (addrsOf vs).count x + (addrsOf ws).count x
  | [], vs, [], vs', _, h, x => by
    simp only [updateHVals, Option.some.injEq] at h; subst h; simp [fieldsAt, addrsOf]
  | [], vs, _ :: _, _, _, h, _ => by simp [updateHVals] at h
  | _ :: _, vs, [], _, _, h, _ => by simp [updateHVals] at h
  | i :: is, vs, w :: ws, vs', hn, h, x => by
    rw [List.nodup_cons] at hn
    simp only [updateHVals] at h
    split at h
    · rename_i hi
      have ih := count_updateHVals hn.2 h x
      rw [fieldsAt_set hn.1] at ih
      have hv : vs[i]? = some vs[i] := List.getElem?_eq_getElem hi
      have h1 := count_addrsOf_set (w := w) hv x
      have e : fieldsAt vs (i :: is) = vs[i] :: fieldsAt vs is := by simp [fieldsAt, hv]
      rw [e]
      simp only [addrsOf, List.flatMap_cons, List.count_append] at ih h1 ⊢
      omega
    · cases h

theorem updateHVals_lt : ∀ {is : List Nat} {vs ws vs' : List HVal}, updateHVals vs is ws = some vs' → ∀ i ∈ is, i < vs.length
  | [], _, _, _, _, _, hi => by cases hi
  | _ :: _, _, [], _, h, _, _ => by simp [updateHVals] at h
  | j :: is, vs, w :: ws, vs', h, i, hi => by
    simp only [updateHVals] at h
    split at h
    · rename_i hj
      rw [List.mem_cons] at hi
      rcases hi with rfl | hi
      · exact hj
      · simpa using updateHVals_lt h i hi
    · cases h

theorem fields_perm {vs : List HVal} {is : List Nat} (hn : is.Nodup) (hlt : ∀ i ∈ is, i < vs.length) :
    (fieldsAt vs is ++ fieldsNotAt vs is).Perm vs := by
  have h1 : (List.range vs.length).Perm (is ++ (List.range vs.length).filter (· ∉ is)) := by
    rw [List.perm_ext_iff_of_nodup List.nodup_range]
    · intro a
      simp only [List.mem_range, List.mem_append, List.mem_filter, decide_eq_true_eq]
      by_cases ha : a ∈ is
      · simp [ha, hlt a ha]
      · simp [ha]
    · rw [List.nodup_append]
      refine ⟨hn, List.nodup_range.filter _, ?_⟩
      rintro a ha b hb rfl
      simp only [List.mem_filter, decide_eq_true_eq] at hb
      exact hb.2 ha
  have h2 : (List.range vs.length).filterMap (vs[·]?) = vs := by
    apply List.ext_getElem?
    intro i
    clear h1 hlt hn
    induction vs using List.reverseRecOn with
    | nil => simp
    | append_singleton vs v ih =>
      have e : (List.range (vs ++ [v]).length).filterMap ((vs ++ [v])[·]?) = (List.range vs.length).filterMap (vs[·]?) ++ [v] := by
        rw [List.length_append, List.length_singleton, List.range_succ, List.filterMap_append]
        congr 1
        · apply List.filterMap_congr
          intro j hj
          rw [List.getElem?_append_left (by simpa using hj)]
        · simp
      rw [e, List.getElem?_append, List.getElem?_append]
      have hl : ((List.range vs.length).filterMap (vs[·]?)).length = vs.length := by
        apply Nat.le_antisymm
        · exact Nat.le_trans (List.length_filterMap_le _ _) (by simp)
        · by_contra hlt
          have h3 : (List.range vs.length).filterMap (vs[·]?) = (List.range vs.length).filterMap fun i => vs[i]? := rfl
          have : (List.range vs.length).filterMap (vs[·]?) = (List.range vs.length).attach.map fun i => vs[i.1]'(by simpa using i.2) := by
            rw [← List.filterMap_eq_map]
            conv_lhs => rw [← List.attach_map_subtype_val (List.range vs.length), List.filterMap_map]
            apply List.filterMap_congr
            intro j _
            simp [List.getElem?_eq_getElem (show j.1 < vs.length by simpa using j.2)]
          rw [this] at hlt
          simp at hlt
      rw [hl, ih]
  have h3 := h1.filterMap (vs[·]?)
  rw [h2, List.filterMap_append] at h3
  have h4 : fieldsNotAt vs is = ((List.range vs.length).filter (· ∉ is)).filterMap (vs[·]?) := by
    unfold fieldsNotAt
    rw [List.filterMap_filter]
    apply List.filterMap_congr
    intro j _
    by_cases hj : j ∈ is <;> simp [hj]
  rw [h4]
  exact h3.symm

theorem count_fields {vs : List HVal} {is : List Nat} (hn : is.Nodup) (hlt : ∀ i ∈ is, i < vs.length) (x : Addr) :
    (addrsOf (fieldsAt vs is)).count x + (addrsOf (fieldsNotAt vs is)).count x = (addrsOf vs).count x := by
  have := ((fields_perm hn hlt).flatMap_right HVal.addrs).count_eq x
  rw [List.flatMap_append, List.count_append] at this
  exact this

theorem updateFields_map (G : Addr → Value) : ∀ (is : List Nat) (vs ws : List HVal),
    updateFields (vs.map (HVal.value G)) is (ws.map (HVal.value G)) = (updateHVals vs is ws).map (List.map (HVal.value G))
  | [], _, [] => rfl
  | [], _, _ :: _ => rfl
  | _ :: _, _, [] => rfl
  | i :: is, vs, w :: ws => by
    simp only [List.map_cons, updateFields, updateHVals, List.length_map]
    split
    · rw [← updateFields_map G is (vs.set i w) ws, List.map_set]
    · rfl

/-! ### Strings -/

theorem Good.stringOf {h : Heap} {G : Addr → Value} {R : Addrs} (g : Good h G R) {v : HVal} (hv : ∀ a ∈ v.addrs, a ∈ R) :
    match h.stringOf v with
    | .ok s _ _ => v.value G = .string s
    | .stuck => ∀ s, v.value G ≠ .string s
    | _ => False := by
  cases v with
  | static s => simp [Heap.stringOf, HVal.value]
  | pointer a =>
    obtain ⟨c, hc, hG⟩ := g.pointer (hv a (by simp [HVal.addrs]))
    cases c with
    | mk n b => cases b <;> simp [Heap.stringOf, hc, HVal.value, hG, Block.value]
  | _ => simp [Heap.stringOf, HVal.value]

theorem Good.strings {h : Heap} {G : Addr → Value} {R : Addrs} (g : Good h G R) : ∀ {vs : List HVal},
    (∀ a ∈ addrsOf vs, a ∈ R) →
    match h.strings vs with
    | .ok s _ _ => concatenate (vs.map (HVal.value G)) = some s
    | .stuck => concatenate (vs.map (HVal.value G)) = none
    | _ => False
  | [], _ => rfl
  | v :: vs, hv => by
    have h1 := g.stringOf (v := v) fun a ha => hv a (mem_addrsOf.mpr ⟨v, by simp, ha⟩)
    have h2 := g.strings (vs := vs) fun a ha => hv a (by
      obtain ⟨u, hu, h⟩ := mem_addrsOf.mp ha; exact mem_addrsOf.mpr ⟨u, by simp [hu], h⟩)
    simp only [Heap.strings]
    cases e1 : h.stringOf v with
    | ok s h' l =>
      rw [e1] at h1
      simp only at h1
      cases e2 : h.strings vs with
      | ok t h' l => rw [e2] at h2; simp only at h2; simp [HR.bind, h1, concatenate, h2]
      | stuck => rw [e2] at h2; simp only at h2; simp [HR.bind, h1, concatenate, h2]
      | ret v h l => rw [e2] at h2; exact h2.elim
      | timeout => rw [e2] at h2; exact h2.elim
      | fault => rw [e2] at h2; exact h2.elim
    | stuck =>
      rw [e1] at h1
      simp only at h1
      simp only [HR.bind, List.map_cons]
      unfold concatenate
      split
      · rename_i h3; cases h3
      · rename_i h3; simp only [List.cons.injEq] at h3; exact absurd h3.1 (h1 _)
      · rfl
    | ret v h l => rw [e1] at h1; exact h1.elim
    | timeout => rw [e1] at h1; exact h1.elim
    | fault => rw [e1] at h1; exact h1.elim

/-! ### Operations -/

theorem loadField_post {h : Heap} {G : Addr → Value} {F : Addrs} {a : Addr} (g : Good h G (F + {a})) (i : Nat) (log : Log)
    (w : World) (p : Program) : CallPost G F (loadField h a i log) (R.ofOption (applyOp w p (.field i) [G a]) log) := by
  obtain ⟨c, hc, hG⟩ := g.pointer (a := a) (by simp)
  unfold loadField
  rw [hc]
  obtain ⟨n, b⟩ := c
  cases b with
  | record t vs =>
    simp only [hG, Block.value, applyOp, List.getElem?_map]
    cases hv : vs[i]? with
    | none => rfl
    | some v =>
      have hm := List.mem_of_getElem? hv
      simp only [Option.map_some, R.ofOption]
      obtain ⟨h1, e1, g1, _⟩ := g.retainAll v.addrs fun b hb => g.live_ref (Heap.mem_refs.mpr
        ⟨a, _, hc, mem_addrsOf.mpr ⟨v, hm, hb⟩⟩)
      obtain ⟨h2, e2, g2⟩ := Good.release h1 [a] (R := F + (v.addrs : Addrs)) (g1.of_eq (by
        rw [Multiset.coe_singleton]; abel))
      rw [e1]
      simp only [HR.heap]
      rw [e2]
      exact ⟨G, rfl, g2, fun _ _ => rfl⟩
  | string => simp only [hG, Block.value, applyOp, R.ofOption, CallPost]
  | closure => simp only [hG, Block.value, applyOp, R.ofOption, CallPost]

theorem updateRecord_post {h : Heap} {G : Addr → Value} {F : Addrs} {a : Addr} {ws : List HVal}
    (g : Good h G (F + {a} + (addrsOf ws : Addrs))) {is : List Nat} (hn : is.Nodup) (log : Log)
    (w : World) (p : Program) :
    CallPost G F (updateRecord h a is ws log) (R.ofOption (applyOp w p (.update is) (G a :: ws.map (HVal.value G))) log) := by
  obtain ⟨c, hc, hG⟩ := g.pointer (a := a) (by simp)
  unfold updateRecord
  rw [hc]
  obtain ⟨n, b⟩ := c
  cases b with
  | record t vs =>
    simp only [hG, Block.value, applyOp, updateFields_map]
    cases hu : updateHVals vs is ws with
    | none => rfl
    | some vs' =>
      have hcnt := count_updateHVals hn hu
      have hlt := updateHVals_lt hu
      simp only [Option.map_some, R.ofOption]
      by_cases hone : n = 1
      · subst hone
        obtain ⟨G', g1, hGa, hGb⟩ := Good.replace (b' := .record t vs') (as := addrsOf ws)
          (old := addrsOf (fieldsAt vs is)) (F := F)
          (g.of_eq (by rw [← Multiset.singleton_add]; abel)) hc trivial fun x => hcnt x
        obtain ⟨h2, e2, g2⟩ := Good.release _ (addrsOf (fieldsAt vs is)) (R := F + {a})
          (g1.of_eq (by rw [← Multiset.singleton_add]; abel))
        rw [if_pos rfl, e2]
        have h3 := g.count_eq hc
        simp only [Multiset.count_add, Multiset.count_singleton_self] at h3
        refine ⟨G', ?_, g2, fun b hb => hGb b ?_⟩
        · simp only [HVal.value, hGa]; rfl
        · rintro rfl
          have := Multiset.count_pos.mpr hb
          omega
      · rw [if_neg hone]
        obtain ⟨h1, e1, g1, _⟩ := g.retainAll (addrsOf (fieldsNotAt vs is)) fun b hb => g.live_ref (Heap.mem_refs.mpr
          ⟨a, _, hc, by
            have h5 := count_fields hn hlt b
            have h6 : 0 < (addrsOf (fieldsNotAt vs is)).count b := List.count_pos_iff.mpr hb
            exact List.count_pos_iff.mp (show 0 < (addrsOf vs).count b by omega)⟩)
        have hA : ((addrsOf vs' : List Addr) : Addrs) = (addrsOf (fieldsNotAt vs is) : Addrs) + (addrsOf ws : Addrs) := by
          ext x
          rw [Multiset.count_add, Multiset.coe_count, Multiset.coe_count, Multiset.coe_count]
          have := hcnt x
          have := count_fields hn hlt x
          omega
        obtain ⟨G', g2, hGn, hGb⟩ := Good.alloc (b := .record t vs') (R := F + {a}) (h := h1) (G := G)
          (g1.of_eq (by
            change _ = ((addrsOf vs' : List Addr) : Addrs) + _
            rw [hA]; abel)) trivial
        obtain ⟨h3, e3, g3⟩ := Good.release _ [a] (R := F + {h1.length}) (g2.of_eq (by
          rw [Multiset.coe_singleton, ← Multiset.singleton_add]; abel))
        rw [e1]
        simp only [HR.heap]
        rw [e3]
        refine ⟨G', ?_, g3, fun b hb => hGb b ?_⟩
        · simp only [Heap.alloc, HVal.value, hGn]; rfl
        · exact g1.lt (by simp [hb])
  | string => simp only [hG, Block.value, applyOp, R.ofOption, CallPost]
  | closure => simp only [hG, Block.value, applyOp, R.ofOption, CallPost]

theorem ofOption_none {α : Type} {o : Option α} {l : Log} (h : o = none) : R.ofOption o l = .stuck := by subst h; rfl

theorem HVal.number_of {v : HVal} (h : v.isNumber = true) : ∃ n, v = .number n := by
  cases v <;> first | exact ⟨_, rfl⟩ | simp [HVal.isNumber] at h

theorem applyHeap_arithmetic {w : World} {p : Program} {h : Heap} {log : Log} {o : ArithmeticOperator} {vs : List HVal}
    (hne : ∀ m n, vs ≠ [.number m, .number n]) : applyHeap w p h log (.arithmetic o) vs = .stuck := by
  unfold applyHeap
  split <;> simp_all

theorem applyHeap_comparison {w : World} {p : Program} {h : Heap} {log : Log} {o : ComparisonOperator} {vs : List HVal}
    (hne : ∀ m n, vs ≠ [.number m, .number n]) : applyHeap w p h log (.comparison o) vs = .stuck := by
  unfold applyHeap
  split <;> simp_all

theorem applyOp_arithmetic {w : World} {p : Program} {o : ArithmeticOperator} {vs : List Value}
    (hne : ∀ m n, vs ≠ [.number m, .number n]) : applyOp w p (.arithmetic o) vs = none := by
  unfold applyOp
  split <;> simp_all

theorem applyOp_comparison {w : World} {p : Program} {o : ComparisonOperator} {vs : List Value}
    (hne : ∀ m n, vs ≠ [.number m, .number n]) : applyOp w p (.comparison o) vs = none := by
  unfold applyOp
  split <;> simp_all

theorem Good.numbers {h : Heap} {G : Addr → Value} {R : Addrs} (g : Good h G R) {vs : List HVal}
    (hv : ∀ v ∈ vs, ∀ a ∈ v.addrs, a ∈ R) (hne : ∀ m n, vs ≠ [.number m, .number n]) (m n : UInt64) :
    vs.map (HVal.value G) ≠ [.number m, .number n] := by
  intro h
  match vs, h with
  | [v1, v2], h =>
    simp only [List.map_cons, List.map_nil, List.cons.injEq, and_true] at h
    have h1 := g.number (hv v1 (by simp)) h.1
    have h2 := g.number (hv v2 (by simp)) h.2
    exact hne m n (by rw [h1, h2])
  | [_], h => simp at h
  | _ :: _ :: _ :: _, h => simp at h

/-- Strict operations other than calls. -/
theorem applyHeap_post (w : World) (p : Program) {h : Heap} {G : Addr → Value} {F : Addrs} (log : Log) (o : Op)
    (hd : o.distinct) (vs : List HVal) (g : Good h G (F + (addrsOf vs : Addrs))) :
    CallPost G F (applyHeap w p h log o vs) (R.ofOption (applyOp w p o (vs.map (HVal.value G))) log) := by
  have hlive : ∀ v ∈ vs, ∀ a ∈ v.addrs, a ∈ F + (addrsOf vs : Addrs) := fun v hv a ha =>
    Multiset.mem_add.mpr (Or.inr (by simpa using mem_addrsOf.mpr ⟨v, hv, ha⟩))
  have hsame : ∀ {v : HVal}, (∀ x, v.addrs.count x = (addrsOf vs).count x) →
      CallPost G F (.ok v h log) (.ok (v.value G) log) := fun hv =>
    ⟨G, rfl, g.of_eq (by congr 1; ext x; simp [hv]), fun _ _ => rfl⟩
  cases o with
  | arithmetic o =>
    by_cases hn : ∃ m n, vs = [.number m, .number n]
    · obtain ⟨m, n, rfl⟩ := hn
      exact hsame fun x => by simp [HVal.addrs, addrsOf]
    · have hn' : ∀ m n, vs ≠ [.number m, .number n] := fun m n e => hn ⟨m, n, e⟩
      rw [applyHeap_arithmetic hn', applyOp_arithmetic (g.numbers hlive hn')]
      rfl
  | comparison o =>
    by_cases hn : ∃ m n, vs = [.number m, .number n]
    · obtain ⟨m, n, rfl⟩ := hn
      exact hsame fun x => by simp [HVal.addrs, addrsOf]
    · have hn' : ∀ m n, vs ≠ [.number m, .number n] := fun m n e => hn ⟨m, n, e⟩
      rw [applyHeap_comparison hn', applyOp_comparison (g.numbers hlive hn')]
      rfl
  | call =>
    have : applyHeap w p h log .call vs = .stuck := by cases vs <;> rfl
    rw [this]
    have : applyOp w p .call (vs.map (HVal.value G)) = none := by cases vs <;> rfl
    rw [this]
    rfl
  | record t =>
    cases vs with
    | nil => exact hsame fun x => by simp [HVal.addrs, addrsOf]
    | cons v vs =>
      obtain ⟨G', g', h1, h2⟩ := Good.alloc (b := .record t (v :: vs)) (R := F) (h := h) (G := G)
        (g.of_eq (by change _ = (addrsOf (v :: vs) : Addrs) + F; abel)) trivial
      refine ⟨G', ?_, g'.of_eq (by rw [← Multiset.singleton_add, add_comm]; rfl), fun a ha => h2 a (g.lt (by simp [ha]))⟩
      simp only [Heap.alloc, HVal.value, h1]
      rfl
  | field i =>
    match vs with
    | [] => rfl
    | v :: u :: vs => 
      have h1 : applyHeap w p h log (.field i) (v :: u :: vs) = .stuck := by unfold applyHeap; split <;> simp_all
      have h2 : applyOp w p (.field i) ((v :: u :: vs).map (HVal.value G)) = none := by
        simp only [List.map_cons]; unfold applyOp; split <;> simp_all
      rw [h1, h2]; rfl
    | [v] =>
      cases v with
      | pointer a => exact loadField_post (g.of_eq (by simp [addrsOf, HVal.addrs])) i log w p
      | empty t => rfl
      | _ => rfl
  | update is =>
    match vs with
    | [] => cases is <;> rfl
    | v :: ws =>
      cases v with
      | pointer a =>
        have e : applyHeap w p h log (.update is) (.pointer a :: ws) = updateRecord h a is ws log := by cases is <;> rfl
        rw [e]
        exact updateRecord_post (g.of_eq (by rw [coe_addrsOf_cons]; simp [HVal.addrs, add_assoc])) hd log w p
      | empty t =>
        cases is with
        | nil =>
          cases ws with
          | nil => exact hsame fun x => by simp [HVal.addrs, addrsOf]
          | cons => rfl
        | cons i is => cases ws <;> rfl
      | _ => cases is <;> rfl
  | concatenation =>
    have hs := g.strings (vs := vs) fun a ha => Multiset.mem_add.mpr (Or.inr (by simpa using ha))
    have e : applyHeap w p h log .concatenation vs = (h.strings vs).bind fun s _ _ =>
        HR.heap ((h.alloc (.string s)).2.release (addrsOf vs)) fun h' => .ok (h.alloc (.string s)).1 h' log := by
      unfold applyHeap; split <;> first | rfl | simp_all
    have e2 : applyOp w p .concatenation (vs.map (HVal.value G)) = (concatenate (vs.map (HVal.value G))).map .string := by
      unfold applyOp; split <;> first | rfl | simp_all
    rw [e, e2]
    cases hv : h.strings vs with
    | ok s h' l =>
      rw [hv] at hs
      simp only at hs
      rw [hs]
      obtain ⟨G', g', h1, h2⟩ := Good.alloc (b := .string s) (R := F + (addrsOf vs : Addrs)) (h := h) (G := G)
        (g.of_eq (by change _ = ((([] : List Addr)) : Addrs) + _; simp)) trivial
      obtain ⟨h3, e3, g3⟩ := Good.release _ (addrsOf vs) (R := F + {h.length}) (g'.of_eq (by
        rw [← Multiset.singleton_add]; abel))
      simp only [HR.bind, e3, HR.heap]
      refine ⟨G', ?_, g3, fun a ha => h2 a (g.lt (by simp [ha]))⟩
      simp only [Heap.alloc, HVal.value, h1]
      rfl
    | stuck => rw [hv] at hs; simp only at hs; rw [hs]; rfl
    | ret v h l => rw [hv] at hs; exact hs.elim
    | timeout => rw [hv] at hs; exact hs.elim
    | fault => rw [hv] at hs; exact hs.elim
  | synchronize =>
    match vs with
    | [] => rfl
    | [v] => exact hsame fun x => by simp [addrsOf]
    | _ :: _ :: _ => rfl
  | typeInformation =>
    match vs with
    | [] => rfl
    | v :: u :: vs =>
      have h1 : applyHeap w p h log .typeInformation (v :: u :: vs) = .stuck := by unfold applyHeap; split <;> simp_all
      have h2 : applyOp w p .typeInformation ((v :: u :: vs).map (HVal.value G)) = none := by
        simp only [List.map_cons]; unfold applyOp; split <;> simp_all
      rw [h1, h2]; rfl
    | [v] =>
      cases v with
      | variant t v =>
        obtain ⟨h3, e3, g3⟩ := Good.release h v.addrs (R := F) (g.of_eq (by
          rw [coe_addrsOf_cons]; simp [addrsOf, HVal.addrs, add_comm]))
        change CallPost G F (HR.heap (h.release v.addrs) _) _
        rw [e3]
        exact ⟨G, rfl, g3.of_eq (by simp [HVal.addrs]), fun _ _ => rfl⟩
      | pointer a =>
        obtain ⟨c, _, hG⟩ := g.pointer (hlive (.pointer a) (by simp) a (by simp [HVal.addrs]))
        have : applyOp w p .typeInformation [G a] = none := by
          rw [hG]; cases c.block <;> rfl
        simp only [List.map_cons, List.map_nil, HVal.value, this]
        rfl
      | _ => rfl
  | variant t =>
    match vs with
    | [] => rfl
    | [v] => exact hsame (v := .variant t v) fun x => by simp [addrsOf, HVal.addrs]
    | _ :: _ :: _ => rfl

/-! ### Native code -/

theorem view_value {G : Addr → Value} {view : Addr → Option Obs} : ∀ {v : HVal},
    (∀ a ∈ v.addrs, view a = some (G a).obs) → v.view view = some (v.value G).obs
  | .pointer a, h => h a (by simp [HVal.addrs])
  | .variant t v, h => by
    simp only [HVal.view, view_value (v := v) h, HVal.value, Value.obs, Option.map_some]
  | .none, _ | .boolean _, _ | .number _, _ | .static _, _ | .global _, _ => rfl
  | .empty _, _ => rfl

theorem view_values {G : Addr → Value} {view : Addr → Option Obs} : ∀ {vs : List HVal},
    (∀ a ∈ addrsOf vs, view a = some (G a).obs) → vs.mapM (HVal.view view) = some (Value.obsList (vs.map (HVal.value G)))
  | [], _ => rfl
  | v :: vs, h => by
    have h1 := view_value (v := v) fun a ha => h a (mem_addrsOf.mpr ⟨v, by simp, ha⟩)
    have h2 := view_values (vs := vs) fun a ha => h a (by
      obtain ⟨u, hu, h⟩ := mem_addrsOf.mp ha; exact mem_addrsOf.mpr ⟨u, by simp [hu], h⟩)
    rw [List.mapM_cons, h1, h2]
    rfl

/-- Native code sees what a block stands for. -/
theorem Good.view {h : Heap} {G : Addr → Value} {R : Addrs} (g : Good h G R) {rank : Addr → Nat} (hr : h.ranked rank) :
    ∀ (n : Nat) (h' : Heap) (a : Addr), (∀ b, rank b ≤ rank a → h'.cell b = h.cell b) → h'.live ≤ n →
      (∃ c, h.cell a = some c) → Heap.view n h' a = some (G a).obs
  | 0, h', a, hs, hl, hc => by
    obtain ⟨c, hc⟩ := hc
    have := Heap.live_put_none ((hs a (Nat.le_refl _)).trans hc)
    omega
  | n + 1, h', a, hs, hl, hc => by
    obtain ⟨c, hc⟩ := hc
    have hc' := (hs a (Nat.le_refl _)).trans hc
    have hG := g.values a c hc
    have ha := Heap.lt_of_cell hc'
    unfold Heap.view
    rw [hc']
    obtain ⟨m, b⟩ := c
    cases b with
    | string s => rw [hG]; rfl
    | closure => rw [hG]; rfl
    | record t vs =>
      simp only
      rw [view_values (G := G), hG]
      · rfl
      · intro b hb
        have hlt := hr a _ hc b hb
        refine g.view hr n _ b (fun x hx => ?_) ?_ (g.live_ref (Heap.mem_refs.mpr ⟨a, _, hc, hb⟩))
        · rw [Heap.cell_put ha, if_neg]
          · exact hs x (by omega)
          · rintro rfl; omega
        · have := Heap.live_put_none hc'; omega

theorem Good.viewAll {h : Heap} {G : Addr → Value} {R : Addrs} (g : Good h G R) {vs : List HVal}
    (hv : ∀ a ∈ addrsOf vs, a ∈ R) : h.viewAll vs = some (Value.obsList (vs.map (HVal.value G))) := by
  obtain ⟨rank, hr⟩ := g.acyclic
  exact view_values fun a ha => g.view hr _ h a (fun _ _ => rfl) (Nat.le_refl _) (g.live (hv a ha))

mutual
/-- Allocated values. -/
theorem Good.allocObs : ∀ (o : Obs) {h : Heap} {G : Addr → Value} {R : Addrs}, Good h G R →
    match h.allocObs o with
    | some (v, h') => ∃ G', o.value = some (v.value G') ∧ Good h' G' (R + (v.addrs : Addrs)) ∧ ∀ a ∈ R, G' a = G a
    | none => o.value = none
  | .none, h, G, R, g => ⟨G, rfl, by simpa [HVal.addrs] using g, fun _ _ => rfl⟩
  | .boolean b, h, G, R, g => ⟨G, rfl, by simpa [HVal.addrs] using g, fun _ _ => rfl⟩
  | .number n, h, G, R, g => ⟨G, rfl, by simpa [HVal.addrs] using g, fun _ _ => rfl⟩
  | .function, h, G, R, g => rfl
  | .string s, h, G, R, g => by
    obtain ⟨G', g', h1, h2⟩ := Good.alloc (b := .string s) (R := R) (h := h) (G := G)
      (g.of_eq (by change _ = ((([] : List Addr)) : Addrs) + _; simp)) trivial
    refine ⟨G', ?_, g'.of_eq (by rw [← Multiset.singleton_add, add_comm]; rfl), fun a ha => h2 a (g.lt ha)⟩
    simp only [HVal.value, h1]; rfl
  | .record t [], h, G, R, g => ⟨G, rfl, by simpa [HVal.addrs] using g, fun _ _ => rfl⟩
  | .record t (v :: vs), h, G, R, g => by
    have ih := Good.allocObsList (v :: vs) g
    simp only [Heap.allocObs]
    cases e : h.allocObsList (v :: vs) with
    | none => rw [e] at ih; simp only at ih; simp [Obs.value, ih]
    | some r =>
      obtain ⟨us, h1⟩ := r
      rw [e] at ih
      obtain ⟨G1, e1, g1, s1⟩ := ih
      obtain ⟨G', g', h2, h3⟩ := Good.alloc (b := .record t us) (R := R) (h := h1) (G := G1)
        (g1.of_eq (by change _ = (addrsOf us : Addrs) + R; abel)) trivial
      refine ⟨G', ?_, g'.of_eq (by rw [← Multiset.singleton_add, add_comm]; rfl), fun a ha => ?_⟩
      · simp only [HVal.value, h2, Obs.value, e1]; rfl
      · rw [h3 a (g1.lt (by simp [ha])), s1 a ha]
  | .variant t v, h, G, R, g => by
    have ih := Good.allocObs v g
    simp only [Heap.allocObs]
    cases e : h.allocObs v with
    | none => rw [e] at ih; simp only at ih; simp [Obs.value, ih]
    | some r =>
      obtain ⟨u, h1⟩ := r
      rw [e] at ih
      obtain ⟨G1, e1, g1, s1⟩ := ih
      exact ⟨G1, by simp only [Obs.value, e1, HVal.value]; rfl, g1, s1⟩
theorem Good.allocObsList : ∀ (os : List Obs) {h : Heap} {G : Addr → Value} {R : Addrs}, Good h G R →
    match h.allocObsList os with
    | some (vs, h') => ∃ G', Obs.valueList os = some (vs.map (HVal.value G')) ∧ Good h' G' (R + (addrsOf vs : Addrs)) ∧
        ∀ a ∈ R, G' a = G a
    | none => Obs.valueList os = none
  | [], h, G, R, g => ⟨G, rfl, by simpa [addrsOf] using g, fun _ _ => rfl⟩
  | o :: os, h, G, R, g => by
    have ih := Good.allocObs o g
    simp only [Heap.allocObsList]
    cases e : h.allocObs o with
    | none => rw [e] at ih; simp only at ih; simp [Obs.valueList, ih]
    | some r =>
      obtain ⟨u, h1⟩ := r
      rw [e] at ih
      obtain ⟨G1, e1, g1, s1⟩ := ih
      have ih2 := Good.allocObsList os g1
      simp only [Option.bind_some]
      cases e' : h1.allocObsList os with
      | none => rw [e'] at ih2; simp only at ih2; simp [Obs.valueList, ih2, e1]
      | some r =>
        obtain ⟨us, h2⟩ := r
        rw [e'] at ih2
        obtain ⟨G2, e2, g2, s2⟩ := ih2
        refine ⟨G2, ?_, g2.of_eq (by rw [coe_addrsOf_cons]; abel), fun a ha => (s2 a (by simp [ha])).trans (s1 a ha)⟩
        simp only [Obs.valueList, e1, e2, Option.bind_some, Option.map_some, List.map_cons]
        rw [HVal.value_congr (G := G1) (G' := G2) fun a ha => s2 a (by simp [ha])]
end

theorem hcallForeign_post (w : World) (n : Name) {h : Heap} {G : Addr → Value} {F : Addrs} {vs : List HVal} (log : Log)
    (g : Good h G (F + (addrsOf vs : Addrs))) :
    CallPost G F (hcallForeign w n vs h log) (callForeign w n (vs.map (HVal.value G)) log) := by
  unfold hcallForeign callForeign
  rw [g.viewAll fun a ha => Multiset.mem_add.mpr (Or.inr (by simpa using ha))]
  obtain ⟨h1, e1, g1⟩ := Good.release h (addrsOf vs) (R := F) (g.of_eq (add_comm _ _))
  simp only [e1, HR.heap]
  have := Good.allocObs (w.foreign log n (Value.obsList (vs.map (HVal.value G)))) g1
  cases e2 : h1.allocObs (w.foreign log n (Value.obsList (vs.map (HVal.value G)))) with
  | none => rw [e2] at this; simp only at this; rw [this]; rfl
  | some r =>
    obtain ⟨v, h2⟩ := r
    rw [e2] at this
    obtain ⟨G', e3, g3, s3⟩ := this
    rw [e3]
    exact ⟨G', rfl, g3, s3⟩

end Verif.Mir
