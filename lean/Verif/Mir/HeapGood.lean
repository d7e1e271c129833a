import Mathlib.Data.Multiset.Bind
import Mathlib.Algebra.Order.Group.Multiset
import Mathlib.Tactic.Abel
import Verif.Mir.Linear

/- What is true of heaps while programs run: counts are numbers of references. -/
namespace Verif.Mir

abbrev Addrs := Multiset Addr

/-! ### Values in heaps -/

/-- The value that a word stands for, given the values that blocks stand for. -/
def HVal.value (G : Addr → Value) : HVal → Value
  | .none => .none
  | .boolean b => .boolean b
  | .number n => .number n
  | .static s => .string s
  | .empty t => .record t []
  | .pointer a => G a
  | .variant t v => .variant t (v.value G)
  | .global g => .global g

/-- The value of a variable in the environment of a closure. -/
def closureEnv : List Name → List HVal → HEnv
  | x :: xs, v :: vs => fun y => if y = x then some v else closureEnv xs vs y
  | _, _ => fun _ => none

def HEnv.env (G : Addr → Value) (ρ : HEnv) : Env := fun x => (ρ x).map (HVal.value G)

def Block.value (G : Addr → Value) : Block → Value
  | .string s => .string s
  | .record t vs => .record t (vs.map (HVal.value G))
  | .closure f env args th body vs => .closure f env args th body ((closureEnv env vs).env G)

/-- Code of closures handles references correctly. -/
def Block.ok : Block → Prop
  | .closure f env args _ body vs =>
    vs.length = env.length ∧ (f :: env ++ args).Nodup ∧
      lin (f :: env ++ args) body ((f :: env ++ args : List Name) : Tokens) 0
  | _ => True

def Block.addrs (b : Block) : List Addr := addrsOf b.fields

def cellAddrs : Option Cell → List Addr
  | some c => c.block.addrs
  | none => []

/-- All references in blocks. -/
def Heap.refs (h : Heap) : List Addr := h.flatMap cellAddrs

def Heap.cnt (h : Heap) (a : Addr) : Nat :=
  match h.cell a with
  | some c => c.count
  | none => 0

/-- References in blocks point at blocks of lower ranks. -/
def Heap.ranked (h : Heap) (rank : Addr → Nat) : Prop :=
  ∀ a c, h.cell a = some c → ∀ b ∈ c.block.addrs, rank b < rank a

/-- Counts are the numbers of references in blocks and those outside blocks, `R`. -/
structure Good (h : Heap) (G : Addr → Value) (R : Addrs) : Prop where
  counts : ∀ a, h.cnt a = R.count a + h.refs.count a
  positive : ∀ a c, h.cell a = some c → 0 < c.count
  acyclic : ∃ rank, h.ranked rank
  values : ∀ a c, h.cell a = some c → G a = c.block.value G
  closures : ∀ a c, h.cell a = some c → c.block.ok

theorem Good.of_eq {h : Heap} {G : Addr → Value} {R R' : Addrs} (g : Good h G R) (e : R = R') : Good h G R' := e ▸ g

/-! ### Cells -/

theorem Heap.cell_put {h : Heap} {a : Addr} (ha : a < h.length) (c : Option Cell) (b : Addr) :
    (h.put a c).cell b = if b = a then c else h.cell b := by
  unfold Heap.put Heap.cell
  rw [List.getElem?_set]
  by_cases hb : b = a
  · subst hb; simp [ha]
  · simp [hb, Ne.symm hb]

theorem Heap.lt_of_cell {h : Heap} {a : Addr} {c : Cell} (hc : h.cell a = some c) : a < h.length := by
  unfold Heap.cell at hc
  by_cases ha : a < h.length
  · exact ha
  · rw [List.getElem?_eq_none (by omega)] at hc; cases hc

theorem Heap.cell_append (h : Heap) (o : Option Cell) (b : Addr) :
    (h ++ [o] : Heap).cell b = if b = h.length then o else h.cell b := by
  unfold Heap.cell
  by_cases hb : b = h.length
  · subst hb; simp
  · rw [if_neg hb]
    by_cases hb' : b < h.length
    · rw [List.getElem?_append_left hb']
    · rw [List.getElem?_eq_none (by simp; omega), List.getElem?_eq_none (by omega)]

theorem Heap.refs_put {h : Heap} {a : Addr} {c : Cell} (hc : h.cell a = some c) (o : Option Cell) (b : Addr) :
    (h.put a o).refs.count b + c.block.addrs.count b = h.refs.count b + (cellAddrs o).count b := by
  unfold Heap.cell at hc
  unfold Heap.put Heap.refs
  induction h generalizing a with
  | nil => simp at hc
  | cons o' h ih =>
    cases a with
    | zero =>
      simp at hc
      subst hc
      simp [cellAddrs]
      omega
    | succ a =>
      simp at hc
      have := @ih a hc
      simp only [List.set_cons_succ, List.flatMap_cons, List.count_append] at this ⊢
      omega

theorem Heap.refs_append (h : Heap) (o : Option Cell) (b : Addr) :
    (h ++ [o] : Heap).refs.count b = h.refs.count b + (cellAddrs o).count b := by
  unfold Heap.refs
  simp

/-- References in blocks. -/
theorem Heap.mem_refs {h : Heap} {a : Addr} : a ∈ h.refs ↔ ∃ b c, h.cell b = some c ∧ a ∈ c.block.addrs := by
  unfold Heap.refs
  rw [List.mem_flatMap]
  constructor
  · rintro ⟨o, ho, ha⟩
    cases o with
    | none => simp [cellAddrs] at ha
    | some c =>
      obtain ⟨i, hi, e⟩ := List.getElem_of_mem ho
      exact ⟨i, c, by unfold Heap.cell; rw [List.getElem?_eq_getElem hi, e]; rfl, ha⟩
  · rintro ⟨b, c, hc, ha⟩
    refine ⟨some c, ?_, ha⟩
    have hb := Heap.lt_of_cell hc
    unfold Heap.cell at hc
    rw [List.getElem?_eq_getElem hb] at hc
    simp at hc
    rw [← hc]
    exact List.getElem_mem hb

theorem Good.live {h : Heap} {G : Addr → Value} {R : Addrs} (g : Good h G R) {a : Addr} (ha : a ∈ R) :
    ∃ c, h.cell a = some c := by
  have := g.counts a
  have h1 : 0 < R.count a := Multiset.count_pos.mpr ha
  unfold Heap.cnt at this
  cases hc : h.cell a with
  | some c => exact ⟨c, rfl⟩
  | none => rw [hc] at this; simp only at this; omega

theorem Good.live_ref {h : Heap} {G : Addr → Value} {R : Addrs} (g : Good h G R) {a : Addr} (ha : a ∈ h.refs) :
    ∃ c, h.cell a = some c := by
  have := g.counts a
  have h1 : 0 < h.refs.count a := List.count_pos_iff.mpr ha
  unfold Heap.cnt at this
  cases hc : h.cell a with
  | some c => exact ⟨c, rfl⟩
  | none => rw [hc] at this; simp only at this; omega

theorem Good.count_eq {h : Heap} {G : Addr → Value} {R : Addrs} (g : Good h G R) {a : Addr} {c : Cell}
    (hc : h.cell a = some c) : c.count = R.count a + h.refs.count a := by
  have := g.counts a
  unfold Heap.cnt at this
  rw [hc] at this
  exact this

theorem Good.lt {h : Heap} {G : Addr → Value} {R : Addrs} (g : Good h G R) {a : Addr} (ha : a ∈ R) : a < h.length := by
  obtain ⟨c, hc⟩ := g.live ha
  exact Heap.lt_of_cell hc

theorem Heap.cnt_put {h : Heap} {a : Addr} (ha : a < h.length) (o : Option Cell) (b : Addr) :
    (h.put a o).cnt b = if b = a then (match o with | some c => c.count | none => 0) else h.cnt b := by
  unfold Heap.cnt
  rw [Heap.cell_put ha]
  by_cases hb : b = a
  · simp only [hb, if_true]
  · simp only [hb, if_false]

/-! ### Values do not depend on other blocks -/

theorem HVal.value_congr {G G' : Addr → Value} : ∀ {v : HVal}, (∀ a ∈ v.addrs, G' a = G a) → v.value G' = v.value G
  | .pointer a, h => h a (by simp [HVal.addrs])
  | .variant t v, h => congrArg (Value.variant t) (HVal.value_congr (v := v) h)
  | .none, _ | .boolean _, _ | .number _, _ | .static _, _ | .empty _, _ | .global _, _ => rfl

theorem mem_addrsOf {a : Addr} {vs : List HVal} : a ∈ addrsOf vs ↔ ∃ v ∈ vs, a ∈ v.addrs := by
  simp [addrsOf, List.mem_flatMap]

theorem values_congr {G G' : Addr → Value} {vs : List HVal} (h : ∀ a ∈ addrsOf vs, G' a = G a) :
    vs.map (HVal.value G') = vs.map (HVal.value G) :=
  List.map_congr_left fun v hv => HVal.value_congr fun a ha => h a (mem_addrsOf.mpr ⟨v, hv, ha⟩)

theorem closureEnv_mem : ∀ {xs : List Name} {vs : List HVal} {x : Name} {v : HVal}, closureEnv xs vs x = some v → v ∈ vs
  | [], _, _, _, h => by simp [closureEnv] at h
  | _ :: _, [], _, _, h => by simp [closureEnv] at h
  | y :: xs, u :: vs, x, v, h => by
    simp only [closureEnv] at h
    split at h
    · cases h; simp
    · exact List.mem_cons_of_mem _ (closureEnv_mem h)

theorem closureEnv_congr {G G' : Addr → Value} {xs : List Name} {vs : List HVal} (h : ∀ a ∈ addrsOf vs, G' a = G a) :
    (closureEnv xs vs).env G' = (closureEnv xs vs).env G := by
  funext x
  unfold HEnv.env
  cases hx : closureEnv xs vs x with
  | none => rfl
  | some v =>
    exact congrArg some (HVal.value_congr fun a ha => h a (mem_addrsOf.mpr ⟨v, closureEnv_mem hx, ha⟩))

theorem Block.value_congr {G G' : Addr → Value} {b : Block} (h : ∀ a ∈ b.addrs, G' a = G a) : b.value G' = b.value G := by
  cases b with
  | string => rfl
  | record t vs => exact congrArg (Value.record t) (values_congr h)
  | closure f env args th body vs => exact congrArg (Value.closure f env args th body) (closureEnv_congr h)

/-! ### Operations -/

theorem Good.retain {h : Heap} {G : Addr → Value} {R : Addrs} (g : Good h G R) {a : Addr} {c : Cell}
    (hc : h.cell a = some c) : ∃ h', h.retain a = some h' ∧ Good h' G (a ::ₘ R) ∧
      ∀ b, (h'.cell b).map (·.block) = (h.cell b).map (·.block) := by
  have ha := Heap.lt_of_cell hc
  refine ⟨h.put a (some { c with count := c.count + 1 }), by unfold Heap.retain; rw [hc], ?_, ?_⟩
  · have hcell := Heap.cell_put ha (some { c with count := c.count + 1 })
    refine ⟨fun b => ?_, fun b c' hb => ?_, ?_, fun b c' hb => ?_, fun b c' hb => ?_⟩
    · have h1 := Heap.refs_put hc (some { c with count := c.count + 1 }) b
      simp only [cellAddrs] at h1
      rw [Heap.cnt_put ha, Multiset.count_cons]
      have h2 := g.counts b
      have h3 := g.count_eq hc
      by_cases hb : b = a
      · subst hb; simp only [if_true]; omega
      · simp only [hb, if_false]; omega
    · rw [hcell] at hb
      split at hb
      · cases hb; simp
      · exact g.positive b c' hb
    · obtain ⟨rank, hr⟩ := g.acyclic
      refine ⟨rank, fun b c' hb => ?_⟩
      rw [hcell] at hb
      split at hb
      · rename_i hba; cases hb; exact hba ▸ hr a c hc
      · exact hr b c' hb
    · rw [hcell] at hb
      split at hb
      · rename_i hba; cases hb; exact hba ▸ g.values a c hc
      · exact g.values b c' hb
    · rw [hcell] at hb
      split at hb
      · cases hb; exact g.closures a c hc
      · exact g.closures b c' hb
  · intro b
    rw [Heap.cell_put ha]
    split
    · rename_i hb; rw [hb, hc]; rfl
    · rfl

theorem Good.retainAll {G : Addr → Value} : ∀ (as : List Addr) {h : Heap} {R : Addrs}, Good h G R →
    (∀ a ∈ as, ∃ c, h.cell a = some c) → ∃ h', h.retainAll as = some h' ∧ Good h' G ((as : Addrs) + R) ∧
      ∀ b, (h'.cell b).map (·.block) = (h.cell b).map (·.block)
  | [], h, R, g, _ => ⟨h, rfl, by simpa using g, fun _ => rfl⟩
  | a :: as, h, R, g, hl => by
    obtain ⟨c, hc⟩ := hl a (by simp)
    obtain ⟨h1, e1, g1, s1⟩ := g.retain hc
    have hl' : ∀ b ∈ as, ∃ c, h1.cell b = some c := by
      intro b hb
      obtain ⟨c, hc⟩ := hl b (by simp [hb])
      have := s1 b
      rw [hc] at this
      cases h2 : h1.cell b with
      | none => rw [h2] at this; cases this
      | some c => exact ⟨c, rfl⟩
    obtain ⟨h2, e2, g2, s2⟩ := Good.retainAll as g1 hl'
    refine ⟨h2, by simp only [Heap.retainAll, e1, Option.bind_some, e2], g2.of_eq ?_, fun b => (s2 b).trans (s1 b)⟩
    rw [← Multiset.cons_coe, Multiset.add_cons, Multiset.cons_add]

theorem Good.release {G : Addr → Value} : ∀ (h : Heap) (as : List Addr) {R : Addrs}, Good h G ((as : Addrs) + R) →
    ∃ h', h.release as = some h' ∧ Good h' G R := by
  intro h as
  induction h, as using Heap.release.induct with
  | case1 h => intro R g; exact ⟨h, by simp [Heap.release], by simpa using g⟩
  | case2 h a as c hc hone ih =>
    intro R g
    have ha := Heap.lt_of_cell hc
    have hcell := Heap.cell_put ha none
    have h3 := g.count_eq hc
    rw [hone, Multiset.count_add, ← Multiset.cons_coe, Multiset.count_cons_self] at h3
    have g' : Good (h.put a none) G (((addrsOf c.block.fields ++ as : List Addr) : Addrs) + R) := by
      refine ⟨fun b => ?_, fun b c' hb => ?_, ?_, fun b c' hb => ?_, fun b c' hb => ?_⟩
      · have h1 := Heap.refs_put hc none b
        have h1a := Heap.refs_put hc none a
        have h2 := g.counts b
        rw [Heap.cnt_put ha]
        have e : (cellAddrs none).count b = 0 := rfl
        have ea : (cellAddrs none).count a = 0 := rfl
        rw [e] at h1
        rw [ea] at h1a
        have e2 : (addrsOf c.block.fields).count b = c.block.addrs.count b := rfl
        have e2a : (addrsOf c.block.fields).count a = c.block.addrs.count a := rfl
        rw [Multiset.count_add, ← Multiset.cons_coe] at h2
        rw [Multiset.count_add, Multiset.coe_count, List.count_append]
        simp only [Multiset.coe_count] at h2 h3 ⊢
        by_cases hb : b = a
        · subst hb
          simp only [if_true]
          omega
        · rw [Multiset.count_cons_of_ne hb, Multiset.coe_count] at h2
          simp only [hb, if_false]
          omega
      · rw [hcell] at hb
        split at hb
        · cases hb
        · exact g.positive b c' hb
      · obtain ⟨rank, hr⟩ := g.acyclic
        refine ⟨rank, fun b c' hb => ?_⟩
        rw [hcell] at hb
        split at hb
        · cases hb
        · exact hr b c' hb
      · rw [hcell] at hb
        split at hb
        · cases hb
        · exact g.values b c' hb
      · rw [hcell] at hb
        split at hb
        · cases hb
        · exact g.closures b c' hb
    obtain ⟨h', e, g2⟩ := ih g'
    refine ⟨h', ?_, g2⟩
    rw [Heap.release]
    split
    · rename_i c' hc'
      rw [hc] at hc'; cases hc'
      rw [if_pos hone]; exact e
    · rename_i hc'; rw [hc] at hc'; cases hc'
  | case3 h a as c hc hone ih =>
    intro R g
    have ha := Heap.lt_of_cell hc
    have hcell := Heap.cell_put ha (some { c with count := c.count - 1 })
    have hpos := g.positive a c hc
    have h3 := g.count_eq hc
    rw [Multiset.count_add, ← Multiset.cons_coe, Multiset.count_cons_self] at h3
    have g' : Good (h.put a (some { c with count := c.count - 1 })) G ((as : Addrs) + R) := by
      refine ⟨fun b => ?_, fun b c' hb => ?_, ?_, fun b c' hb => ?_, fun b c' hb => ?_⟩
      · have h1 := Heap.refs_put hc (some { c with count := c.count - 1 }) b
        simp only [cellAddrs] at h1
        have h2 := g.counts b
        rw [Heap.cnt_put ha]
        rw [Multiset.count_add, ← Multiset.cons_coe] at h2
        rw [Multiset.count_add]
        by_cases hb : b = a
        · subst hb
          simp only [if_true]
          omega
        · rw [Multiset.count_cons_of_ne hb] at h2
          simp only [hb, if_false]
          omega
      · rw [hcell] at hb
        split at hb
        · cases hb; simp; omega
        · exact g.positive b c' hb
      · obtain ⟨rank, hr⟩ := g.acyclic
        refine ⟨rank, fun b c' hb => ?_⟩
        rw [hcell] at hb
        split at hb
        · rename_i hba; cases hb; exact hba ▸ hr a c hc
        · exact hr b c' hb
      · rw [hcell] at hb
        split at hb
        · rename_i hba; cases hb; exact hba ▸ g.values a c hc
        · exact g.values b c' hb
      · rw [hcell] at hb
        split at hb
        · cases hb; exact g.closures a c hc
        · exact g.closures b c' hb
    obtain ⟨h', e, g2⟩ := ih g'
    refine ⟨h', ?_, g2⟩
    rw [Heap.release]
    split
    · rename_i c' hc'
      rw [hc] at hc'; cases hc'
      rw [if_neg hone]; exact e
    · rename_i hc'; rw [hc] at hc'; cases hc'
  | case4 h a as hc =>
    intro R g
    obtain ⟨c, hc'⟩ := g.live (a := a) (by rw [← Multiset.cons_coe]; simp)
    rw [hc] at hc'; cases hc'

/-- A bound of ranks. -/
theorem rank_bound (rank : Addr → Nat) : ∀ n, ∃ m, ∀ b < n, rank b < m
  | 0 => ⟨0, fun b hb => by omega⟩
  | n + 1 => by
    obtain ⟨m, hm⟩ := rank_bound rank n
    refine ⟨max m (rank n + 1), fun b hb => ?_⟩
    by_cases h : b = n
    · subst h; omega
    · have := hm b (by omega); omega

/-- Sets the value of a block. -/
def setValue (G : Addr → Value) (a : Addr) (v : Value) : Addr → Value := fun b => if b = a then v else G b

theorem setValue_ne {G : Addr → Value} {a b : Addr} {v : Value} (h : b ≠ a) : setValue G a v b = G b := if_neg h

theorem Good.alloc {h : Heap} {G : Addr → Value} {R : Addrs} {b : Block} (g : Good h G ((b.addrs : Addrs) + R))
    (hb : b.ok) : ∃ G', Good (h.alloc b).2 G' (h.length ::ₘ R) ∧ G' h.length = b.value G ∧
      ∀ a, a < h.length → G' a = G a := by
  have hlt : ∀ a ∈ b.addrs, a < h.length := fun a ha => g.lt (Multiset.mem_add.mpr (Or.inl (by simpa using ha)))
  have hrefs : ∀ a ∈ h.refs, a < h.length := fun a ha => by
    obtain ⟨c, hc⟩ := g.live_ref ha; exact Heap.lt_of_cell hc
  have hRlt : ∀ a ∈ R, a < h.length := fun a ha => g.lt (Multiset.mem_add.mpr (Or.inr ha))
  have hcell := Heap.cell_append h (some ⟨1, b⟩)
  refine ⟨setValue G h.length (b.value G), ⟨fun a => ?_, fun a c hc => ?_, ?_, fun a c hc => ?_, fun a c hc => ?_⟩,
    if_pos rfl, fun a ha => setValue_ne (by omega)⟩
  · have h1 := Heap.refs_append h (some ⟨1, b⟩) a
    have h2 := g.counts a
    rw [Multiset.count_add, Multiset.coe_count] at h2
    simp only [cellAddrs] at h1
    have h3 : (h.alloc b).2.cnt a = if a = h.length then 1 else h.cnt a := by
      unfold Heap.cnt Heap.alloc
      simp only [hcell]
      by_cases ha : a = h.length
      · simp [ha]
      · simp [ha]
    rw [h3, Multiset.count_cons]
    have h4 : (h.alloc b).2.refs.count a = h.refs.count a + b.addrs.count a := h1
    rw [h4]
    by_cases ha : a = h.length
    · subst ha
      have e1 : h.refs.count h.length = 0 := List.count_eq_zero.mpr fun h1 => absurd (hrefs _ h1) (by omega)
      have e2 : b.addrs.count h.length = 0 := List.count_eq_zero.mpr fun h1 => absurd (hlt _ h1) (by omega)
      have e3 : R.count h.length = 0 := Multiset.count_eq_zero.mpr fun h1 => absurd (hRlt _ h1) (by omega)
      simp [e1, e2, e3]
    · simp only [ha, if_false]; omega
  · change (h ++ [some ⟨1, b⟩] : Heap).cell a = some c at hc
    rw [hcell] at hc
    split at hc
    · cases hc; simp
    · exact g.positive a c hc
  · obtain ⟨rank, hr⟩ := g.acyclic
    obtain ⟨m, hm⟩ := rank_bound rank h.length
    refine ⟨fun a => if a = h.length then m else rank a, fun a c hc x hx => ?_⟩
    change (h ++ [some ⟨1, b⟩] : Heap).cell a = some c at hc
    rw [hcell] at hc
    split at hc
    · rename_i ha
      cases hc
      have := hlt x hx
      simp only [ha, if_true]
      rw [if_neg (by omega)]
      exact hm x this
    · rename_i ha
      have hx' := hrefs x (Heap.mem_refs.mpr ⟨a, c, hc, hx⟩)
      simp only [ha, if_false]
      rw [if_neg (by omega)]
      exact hr a c hc x hx
  · change (h ++ [some ⟨1, b⟩] : Heap).cell a = some c at hc
    rw [hcell] at hc
    split at hc
    · rename_i ha
      cases hc
      rw [ha]
      change (if h.length = h.length then b.value G else _) = _
      rw [if_pos rfl]
      exact (Block.value_congr fun x hx => setValue_ne (Nat.ne_of_lt (hlt x hx))).symm
    · rename_i ha
      rw [setValue_ne ha, g.values a c hc]
      exact (Block.value_congr fun x hx => setValue_ne
        (Nat.ne_of_lt (hrefs x (Heap.mem_refs.mpr ⟨a, c, hc, hx⟩)))).symm
  · change (h ++ [some ⟨1, b⟩] : Heap).cell a = some c at hc
    rw [hcell] at hc
    split at hc
    · cases hc; exact hb
    · exact g.closures a c hc

/-- Replaces a block that has only one reference. -/
theorem Good.replace {h : Heap} {G : Addr → Value} {F : Addrs} {a : Addr} {b b' : Block} {as old : List Addr}
    (g : Good h G (a ::ₘ ((as : Addrs) + F))) (hc : h.cell a = some ⟨1, b⟩) (hb : b'.ok)
    (he : ∀ x, b'.addrs.count x + old.count x = b.addrs.count x + as.count x) :
    ∃ G', Good (h.put a (some ⟨1, b'⟩)) G' (a ::ₘ ((old : Addrs) + F)) ∧ G' a = b'.value G ∧
      ∀ x, x ≠ a → G' x = G x := by
  have ha := Heap.lt_of_cell hc
  have hcell := Heap.cell_put ha (some ⟨1, b'⟩)
  have h3 := g.count_eq hc
  rw [Multiset.count_cons_self, Multiset.count_add, Multiset.coe_count] at h3
  have hrefs : a ∉ h.refs := fun h' => by have := List.count_pos_iff.mpr h'; simp only at h3; omega
  have hba : a ∉ b.addrs := fun h' => hrefs (Heap.mem_refs.mpr ⟨a, _, hc, h'⟩)
  have hb'a : a ∉ b'.addrs := by
    intro h'
    have := List.count_pos_iff.mpr h'
    have h4 := he a
    rw [List.count_eq_zero.mpr hba] at h4
    simp only at h3
    omega
  refine ⟨setValue G a (b'.value G), ⟨fun x => ?_, fun x c hx => ?_, ?_, fun x c hx => ?_, fun x c hx => ?_⟩, if_pos rfl,
    fun x hx => setValue_ne hx⟩
  · have h1 := Heap.refs_put hc (some ⟨1, b'⟩) x
    simp only [cellAddrs] at h1
    have h2 := g.counts x
    have h4 := he x
    rw [Heap.cnt_put ha]
    rw [Multiset.count_cons, Multiset.count_add, Multiset.coe_count] at h2 ⊢
    have h5 : h.cnt a = 1 := by unfold Heap.cnt; rw [hc]
    by_cases hx : x = a
    · subst hx; simp only [if_true] at h2 ⊢; omega
    · simp only [hx, if_false] at h2 ⊢; omega
  · rw [hcell] at hx
    split at hx
    · cases hx; simp
    · exact g.positive x c hx
  · obtain ⟨rank, hr⟩ := g.acyclic
    obtain ⟨m, hm⟩ := rank_bound rank h.length
    refine ⟨fun x => if x = a then m else rank x, fun x c hx y hy => ?_⟩
    rw [hcell] at hx
    split at hx
    · rename_i hxa
      cases hx
      have hya : y ≠ a := fun h' => hb'a (h' ▸ hy)
      simp only [hxa, if_true, hya, if_false]
      apply hm
      have h4 := he y
      have : 0 < b'.addrs.count y := List.count_pos_iff.mpr hy
      by_cases hyb : y ∈ b.addrs
      · obtain ⟨c', hc'⟩ := g.live_ref (Heap.mem_refs.mpr ⟨a, _, hc, hyb⟩)
        exact Heap.lt_of_cell hc'
      · rw [List.count_eq_zero.mpr hyb] at h4
        have : y ∈ as := List.count_pos_iff.mp (by omega)
        exact g.lt (by simp [this])
    · rename_i hxa
      have hya : y ≠ a := fun h' => hrefs (h' ▸ Heap.mem_refs.mpr ⟨x, c, hx, hy⟩)
      simp only [hxa, if_false, hya]
      exact hr x c hx y hy
  · rw [hcell] at hx
    split at hx
    · rename_i hxa
      cases hx
      rw [hxa]
      change (if a = a then b'.value G else _) = _
      rw [if_pos rfl]
      exact (Block.value_congr fun y hy => setValue_ne fun h' : y = a => hb'a (h' ▸ hy)).symm
    · rename_i hxa
      rw [setValue_ne hxa, g.values x c hx]
      exact (Block.value_congr fun y hy => setValue_ne fun h' : y = a => hrefs (h' ▸ Heap.mem_refs.mpr ⟨x, c, hx, hy⟩)).symm
  · rw [hcell] at hx
    split at hx
    · cases hx; exact hb
    · exact g.closures x c hx

/-- Nothing is left when there are no references anymore. -/
theorem Good.empty {h : Heap} {G : Addr → Value} (g : Good h G 0) : h.live = 0 := by
  obtain ⟨rank, hr⟩ := g.acyclic
  obtain ⟨m, hm⟩ := rank_bound rank h.length
  have key : ∀ k a c, h.cell a = some c → ∃ a c, h.cell a = some c ∧ k ≤ rank a := by
    intro k
    induction k with
    | zero => exact fun a c hc => ⟨a, c, hc, Nat.zero_le _⟩
    | succ k ih =>
      intro a c hc
      obtain ⟨a, c, hc, h1⟩ := ih a c hc
      have h2 := g.count_eq hc
      have h3 := g.positive a c hc
      rw [Multiset.count_zero] at h2
      obtain ⟨b, d, hd, hb⟩ := Heap.mem_refs.mp (List.count_pos_iff.mp (show 0 < h.refs.count a by omega))
      have := hr b d hd a hb
      exact ⟨b, d, hd, by omega⟩
  have hnone : ∀ a, h.cell a = none := by
    intro a
    cases hc : h.cell a with
    | none => rfl
    | some c =>
      obtain ⟨b, d, hd, h1⟩ := key m a c hc
      have := hm b (Heap.lt_of_cell hd)
      omega
  unfold Heap.live
  rw [List.countP_eq_zero]
  intro o ho
  obtain ⟨i, hi, e⟩ := List.getElem_of_mem ho
  have := hnone i
  unfold Heap.cell at this
  rw [List.getElem?_eq_getElem hi, e] at this
  cases o with
  | none => simp
  | some c => cases this

end Verif.Mir
