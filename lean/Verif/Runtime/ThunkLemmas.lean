import Verif.Runtime.Thunk

/- The invariant of thunks whose bodies do not return early. -/
namespace Verif.Runtime.Thunk

variable {T V : Type} [DecidableEq T]

/-- Where threads can be that do not evaluate the thunk while there is no value. -/
def quiet : Pc V → Prop
  | .idle | .entering .initial | .entering .locked | .reloading => True
  | _ => False

/-- Where threads can be once there is the value `v`. -/
def settled (v : V) : Pc V → Prop
  | .idle | .entering _ | .reloading | .reading => True
  | .finishing w => w = v
  | _ => False

/-- What holds while thread `t` evaluates, by where it is. -/
def busyAt (results : V → Prop) (s : State T V) : Pc V → Prop
  | .starting => s.payload = .environment ∧ s.metadata = .initial ∧ s.bodies = 0 ∧ s.environmentDrops = 0
  | .evaluating => s.payload = .environment ∧ s.metadata = .initial ∧ s.bodies = 1 ∧ s.environmentDrops = 0
  | .evaluated v => results v ∧ s.payload = .environment ∧ s.metadata = .initial ∧ s.bodies = 1 ∧ s.environmentDrops = 0
  | .dropped v => results v ∧ s.payload = .empty ∧ s.metadata = .initial ∧ s.bodies = 1 ∧ s.environmentDrops = 1
  | .stored v => results v ∧ s.payload = .value v ∧ s.metadata = .initial ∧ s.bodies = 1 ∧ s.environmentDrops = 1
  | .described v => results v ∧ s.payload = .value v ∧ s.metadata = .normal ∧ s.bodies = 1 ∧ s.environmentDrops = 1
  | _ => False

/-- Handles, counts and faults. -/
structure Base (s : State T V) : Prop where
  held : s.mode ≠ .static → ∀ t, s.pc t ≠ .idle → t ∈ s.handles
  twice : s.mode ≠ .static → ∀ t, s.pc t = .evaluating → 2 ≤ s.handles.count t
  owner : s.mode = .unsynchronized → ∃ o, (∀ x ∈ s.handles, x = o) ∧ ∀ t, t ≠ o → s.pc t = .idle
  freed : s.freed = if s.mode ≠ .static ∧ s.handles = 0 then 1 else 0
  fault : s.fault = false

inductive Phase (results : V → Prop) (s : State T V) : Prop
  | fresh : s.entry = .initial → s.payload = .environment → s.metadata = .initial → s.bodies = 0 → s.returned = [] →
      s.environmentDrops = s.freed → s.valueDrops = 0 → (∀ t, quiet (s.pc t)) → Phase results s
  | busy (t : T) : s.entry = (if s.mode = .unsynchronized then .initial else .locked) → s.returned = [] →
      s.valueDrops = 0 → busyAt results s (s.pc t) → (∀ t', t' ≠ t → quiet (s.pc t')) → Phase results s
  | done (v : V) : s.entry = .normal → s.payload = .value v → s.metadata = .normal → s.bodies = 1 →
      s.environmentDrops = 1 → s.valueDrops = s.freed → results v → (∀ r ∈ s.returned, r.2 = v) →
      (∀ t, settled v (s.pc t)) → Phase results s

/-- Threads that own an unsynchronized thunk have loaded the current entry function. -/
def Loaded (s : State T V) : Prop := s.mode = .unsynchronized → ∀ t e, s.pc t = .entering e → e = s.entry

structure Inv (results : V → Prop) (s : State T V) : Prop where
  base : Base s
  phase : Phase results s
  loaded : Loaded s

theorem setPc_self (s : State T V) (t : T) (p : Pc V) : (s.setPc t p).pc t = p := by simp [State.setPc]

theorem setPc_other (s : State T V) {t t' : T} (p : Pc V) (h : t' ≠ t) : (s.setPc t p).pc t' = s.pc t' := by
  simp [State.setPc, h]

theorem busyAt_not_idle {results : V → Prop} {s : State T V} {p : Pc V} (h : busyAt results s p) : p ≠ .idle := by
  rintro rfl; exact h

/-- A thread that does not evaluate is quiet while another one does. -/
theorem busy_unique {results : V → Prop} {s : State T V} {t t' : T} (h : ∀ t', t' ≠ t → quiet (s.pc t'))
    (hq : ¬ quiet (s.pc t')) : t' = t := by
  by_cases e : t' = t
  · exact e
  · exact absurd (h t' e) hq

omit [DecidableEq T] in
theorem erase_ne_zero_of_two [DecidableEq T] {m : Multiset T} {t : T} (h : 2 ≤ m.count t) : m.erase t ≠ 0 := by
  intro e
  have := congrArg (Multiset.count t) e
  rw [Multiset.count_erase_self] at this
  simp at this
  omega

theorem erase_ne_zero_of_other {m : Multiset T} {t t' : T} (hm : t' ∈ m) (h : t' ≠ t) : m.erase t ≠ 0 := by
  intro e
  have : t' ∈ m.erase t := (Multiset.mem_erase_of_ne h).2 hm
  rw [e] at this
  simp at this

/-- Updating the position of a thread that keeps its handle. -/
theorem Base.setPc {s : State T V} (b : Base s) {t : T} (p : Pc V) (ht : s.has t) (hp : p ≠ .evaluating)
    : Base (s.setPc t p) where
  held hm t' ht' := by
    by_cases e : t' = t
    · subst e
      rcases ht with h | h
      · exact absurd h hm
      · exact h
    · rw [setPc_other s p e] at ht'; exact b.held hm t' ht'
  twice hm t' ht' := by
    by_cases e : t' = t
    · subst e; rw [setPc_self] at ht'; exact absurd ht' hp
    · rw [setPc_other s p e] at ht'; exact b.twice hm t' ht'
  owner hm := by
    obtain ⟨o, h1, h2⟩ := b.owner hm
    refine ⟨o, h1, fun t' ht' => ?_⟩
    by_cases e : t' = t
    · subst e
      rcases ht with h | h
      · have hm : s.mode = .unsynchronized := hm
        rw [h] at hm; cases hm
      · exact absurd (h1 _ h) ht'
    · rw [setPc_other s p e]; exact h2 t' ht'
  freed := b.freed
  fault := b.fault

/-- Only fields that are not about handles and positions change. -/
theorem Base.congr {s s' : State T V} (b : Base s) (hm : s'.mode = s.mode) (hh : s'.handles = s.handles)
    (hp : s'.pc = s.pc) (hf : s'.freed = s.freed) (hx : s'.fault = s.fault) : Base s' where
  held := by rw [hm, hh, hp]; exact b.held
  twice := by rw [hm, hh, hp]; exact b.twice
  owner := by rw [hm, hh, hp]; exact b.owner
  freed := by rw [hm, hh, hf]; exact b.freed
  fault := by rw [hx]; exact b.fault

theorem Base.has {s : State T V} (b : Base s) {t : T} (h : s.pc t ≠ .idle) : s.has t := by
  by_cases hm : s.mode = .static
  · exact Or.inl hm
  · exact Or.inr (b.held hm t h)

theorem drop_static {s : State T V} {t : T} (h : s.mode = .static) : s.drop t = s := by
  simp [State.drop, h]

theorem drop_more {s : State T V} {t : T} (h : s.mode ≠ .static) (h0 : s.handles.erase t ≠ 0) :
    s.drop t = { s with handles := s.handles.erase t } := by
  simp [State.drop, h, h0]

theorem drop_last {s : State T V} {t : T} (h : s.mode ≠ .static) (h0 : s.handles.erase t = 0) :
    s.drop t = ({ s with handles := 0 } : State T V).free := by
  simp [State.drop, h, h0]

/-- A handle is dropped that is not the last one. -/
theorem Base.drop_more {s : State T V} (b : Base s) {t : T} (hm : s.mode ≠ .static) (h0 : s.handles.erase t ≠ 0)
    (hp : ∀ t', s.pc t' ≠ .idle → t' ≠ t ∨ t ∈ s.handles.erase t) (hd : s.pc t ≠ .evaluating) :
    Base { s with handles := s.handles.erase t } where
  held _ t' ht' := by
    by_cases e : t' = t
    · subst e
      rcases hp t' ht' with h | h
      · exact absurd rfl h
      · exact h
    · exact (Multiset.mem_erase_of_ne e).2 (b.held hm t' ht')
  twice _ t' ht' := by
    by_cases e : t' = t
    · subst e; exact absurd ht' hd
    · show 2 ≤ (s.handles.erase t).count t'
      rw [Multiset.count_erase_of_ne e]
      exact b.twice hm t' ht'
  owner h := by
    obtain ⟨o, h1, h2⟩ := b.owner h
    exact ⟨o, fun x hx => h1 x (Multiset.mem_of_mem_erase hx), h2⟩
  freed := by
    have h0' : s.handles ≠ 0 := by
      intro e; apply h0; rw [e]; simp
    have := b.freed
    simp only [h0', and_false, if_false] at this
    simp [this, h0]
  fault := b.fault

theorem Phase.handles {results : V → Prop} {s : State T V} (p : Phase results s) (m : Multiset T) :
    Phase results { s with handles := m } := by
  cases p with
  | fresh h1 h2 h3 h4 h5 h6 h7 h8 => exact .fresh h1 h2 h3 h4 h5 h6 h7 h8
  | busy t h1 h2 h3 h4 h5 =>
    refine .busy t h1 h2 h3 ?_ h5
    change busyAt results _ (s.pc t)
    revert h4
    cases s.pc t <;> exact fun h => h
  | done v h1 h2 h3 h4 h5 h6 h7 h8 h9 => exact .done v h1 h2 h3 h4 h5 h6 h7 h8 h9

theorem free_fresh {s : State T V} (h1 : s.metadata = .initial) (h2 : s.payload = .environment) :
    s.free = { s with environmentDrops := s.environmentDrops + 1, freed := s.freed + 1 } := by
  simp [State.free, h1, State.needEnvironment, h2]

theorem free_done {s : State T V} {v : V} (h1 : s.metadata = .normal) (h2 : s.payload = .value v) :
    s.free = { s with valueDrops := s.valueDrops + 1, freed := s.freed + 1 } := by
  simp [State.free, h1, State.needValue, h2]

/-- An idle thread drops a handle. -/
theorem Inv.drop_idle {results : V → Prop} {s : State T V} (i : Inv results s) {t : T} (hi : s.pc t = .idle)
    (ht : s.has t) : Inv results (s.drop t) := by
  by_cases hm : s.mode = .static
  · rw [drop_static hm]; exact i
  have ht : t ∈ s.handles := ht.resolve_left hm
  by_cases h0 : s.handles.erase t = 0
  · have hall : ∀ t', s.pc t' = .idle := by
      intro t'
      by_cases hc : s.pc t' = .idle
      · exact hc
      · exact absurd h0 (erase_ne_zero_of_other (i.base.held hm t' hc) (by rintro rfl; exact hc hi))
    have hne : s.handles ≠ 0 := by rintro e; rw [e] at ht; simp at ht
    have hf : s.freed = 0 := by rw [i.base.freed]; simp [hne]
    rw [drop_last hm h0]
    cases i.phase with
    | fresh h1 h2 h3 h4 h5 h6 h7 h8 =>
      rw [free_fresh (s := { s with handles := 0 }) h3 h2]
      refine ⟨⟨?_, ?_, ?_, ?_, i.base.fault⟩, .fresh h1 h2 h3 h4 h5 ?_ h7 h8, i.loaded⟩
      · intro _ t' h; exact absurd (hall t') h
      · intro _ t' h; rw [show ({ s with handles := 0, environmentDrops := s.environmentDrops + 1, freed := s.freed + 1 } : State T V).pc t' = s.pc t' from rfl, hall t'] at h; cases h
      · intro hu
        obtain ⟨o, _, h2⟩ := i.base.owner hu
        exact ⟨o, by simp, h2⟩
      · simp [hf, hm]
      · simp [h6]
    | busy t' h1 h2 h3 h4 h5 => exact absurd (hall t') (busyAt_not_idle h4)
    | done v h1 h2 h3 h4 h5 h6 h7 h8 h9 =>
      rw [free_done (s := { s with handles := 0 }) h3 h2]
      refine ⟨⟨?_, ?_, ?_, ?_, i.base.fault⟩, .done v h1 h2 h3 h4 h5 ?_ h7 h8 h9, i.loaded⟩
      · intro _ t' h; exact absurd (hall t') h
      · intro _ t' h; rw [show ({ s with handles := 0, valueDrops := s.valueDrops + 1, freed := s.freed + 1 } : State T V).pc t' = s.pc t' from rfl, hall t'] at h; cases h
      · intro hu
        obtain ⟨o, _, h2⟩ := i.base.owner hu
        exact ⟨o, by simp, h2⟩
      · simp [hf, hm]
      · simp [h6]
  · rw [Thunk.drop_more hm h0]
    refine ⟨i.base.drop_more hm h0 (fun t' h => Or.inl ?_) (by rw [hi]; simp), i.phase.handles _, i.loaded⟩
    rintro rfl; exact h hi

theorem setPc_setPc (s : State T V) (t : T) (p q : Pc V) : (s.setPc t p).setPc t q = s.setPc t q := by
  simp [State.setPc]

theorem drop_setPc (s : State T V) (t : T) (p : Pc V) : (s.setPc t p).drop t = (s.drop t).setPc t p := by
  unfold State.drop State.setPc State.free State.needEnvironment State.needValue
  cases s with
  | mk mode entry payload metadata handles pc bodies returned ed vd freed fault =>
    cases mode <;> cases metadata <;> cases payload <;> by_cases h : handles.erase t = 0 <;> simp [h]

theorem Phase.quiet_update {results : V → Prop} {s : State T V} (p : Phase results s) {t : T} {q : Pc V}
    (h1 : quiet (s.pc t)) (h2 : quiet q) : Phase results (s.setPc t q) := by
  have hq : ∀ {a : T → Pc V} {P : T → Prop}, (∀ t', P t' → quiet (a t')) →
      ∀ t', P t' → quiet (Function.update a t q t') := by
    intro a P ha t' ht'
    by_cases e : t' = t
    · subst e; simpa using h2
    · simpa [e] using ha t' ht'
  cases p with
  | fresh g1 g2 g3 g4 g5 g6 g7 g8 =>
    exact .fresh g1 g2 g3 g4 g5 g6 g7 fun t' => hq (P := fun _ => True) (fun t' _ => g8 t') t' trivial
  | busy o g1 g2 g3 g4 g5 =>
    have hne : o ≠ t := by
      rintro rfl
      revert h1 g4
      cases s.pc o <;> intro h1 g4 <;> first | exact g4 | exact h1
    refine .busy o g1 g2 g3 ?_ (hq g5)
    rw [setPc_other s q hne]
    revert g4
    cases s.pc o <;> exact fun h => h
  | done v g1 g2 g3 g4 g5 g6 g7 g8 g9 =>
    refine .done v g1 g2 g3 g4 g5 g6 g7 g8 fun t' => ?_
    by_cases e : t' = t
    · subst e
      rw [setPc_self]
      revert h2
      cases q with
      | entering e => cases e <;> simp [quiet, settled]
      | _ => simp [quiet, settled]
    · rw [setPc_other s q e]; exact g9 t'

theorem Phase.settled_update {results : V → Prop} {s : State T V} {v : V} (he : s.payload = .value v)
    (hn : s.entry = .normal) (p : Phase results s) {t : T} {q : Pc V}
    (h2 : settled v q) : Phase results (s.setPc t q) := by
  cases p with
  | fresh g1 _ _ _ _ _ _ _ => rw [g1] at hn; cases hn
  | busy o g1 _ _ _ _ => rw [g1] at hn; split at hn <;> cases hn
  | done w g1 g2 g3 g4 g5 g6 g7 g8 g9 =>
    have : v = w := by rw [g2] at he; cases he; rfl
    subst this
    refine .done v g1 g2 g3 g4 g5 g6 g7 g8 fun t' => ?_
    by_cases e : t' = t
    · subst e; rw [setPc_self]; exact h2
    · rw [setPc_other s q e]; exact g9 t'

/-- The phase if some thread is not quiet, by where it is. -/
theorem Phase.busy_of {results : V → Prop} {s : State T V} (p : Phase results s) {t : T} (hq : ¬ quiet (s.pc t))
    (h : ∀ v, ¬ settled v (s.pc t)) :
    s.entry = (if s.mode = .unsynchronized then .initial else .locked) ∧ s.returned = [] ∧ s.valueDrops = 0 ∧
      busyAt results s (s.pc t) ∧ ∀ t', t' ≠ t → quiet (s.pc t') := by
  cases p with
  | fresh g1 g2 g3 g4 g5 g6 g7 g8 => exact absurd (g8 t) hq
  | busy o g1 g2 g3 g4 g5 =>
    have : t = o := by
      by_cases e : t = o
      · exact e
      exact absurd (g5 t e) hq
    subst this
    exact ⟨g1, g2, g3, g4, g5⟩
  | done v g1 g2 g3 g4 g5 g6 g7 g8 g9 => exact absurd (g9 t) (h v)

theorem Phase.done_of {results : V → Prop} {s : State T V} (p : Phase results s) {t : T}
    (h : ¬ quiet (s.pc t)) (h' : ¬ busyAt results s (s.pc t)) :
    ∃ v, s.entry = .normal ∧ s.payload = .value v ∧ s.metadata = .normal ∧ s.bodies = 1 ∧
      s.environmentDrops = 1 ∧ s.valueDrops = s.freed ∧ results v ∧ (∀ r ∈ s.returned, r.2 = v) ∧
      ∀ t, settled v (s.pc t) := by
  cases p with
  | fresh g1 g2 g3 g4 g5 g6 g7 g8 => exact absurd (g8 t) h
  | busy o g1 g2 g3 g4 g5 =>
    exfalso
    by_cases e : t = o
    · subst e; exact h' g4
    · exact h (g5 t e)
  | done v g1 g2 g3 g4 g5 g6 g7 g8 g9 => exact ⟨v, g1, g2, g3, g4, g5, g6, g7, g8, g9⟩

theorem inv_new (results : V → Prop) (t : T) : Inv results (State.new t : State T V) where
  base := ⟨fun _ t' h => absurd rfl h, (by intro _ t' h; cases h), fun _ => ⟨t, by simp [State.new], fun _ _ => rfl⟩,
    by simp [State.new], rfl⟩
  phase := .fresh rfl rfl rfl rfl rfl rfl rfl fun _ => trivial
  loaded := by intro _ t e h; cases h

theorem inv_global (results : V → Prop) : Inv results (State.global : State T V) where
  base := ⟨fun _ t' h => absurd rfl h, (by intro _ t' h; cases h), (by intro h; cases h),
    by simp [State.global], rfl⟩
  phase := .fresh rfl rfl rfl rfl rfl rfl rfl fun _ => trivial
  loaded := by intro _ t e h; cases h

theorem needEnvironment_eq {s : State T V} (h : s.payload = .environment) : s.needEnvironment = s := by
  simp [State.needEnvironment, h]

theorem busyAt_congr {results : V → Prop} {s s' : State T V} {p : Pc V} (h1 : s'.payload = s.payload)
    (h2 : s'.metadata = s.metadata) (h3 : s'.bodies = s.bodies) (h4 : s'.environmentDrops = s.environmentDrops)
    (h : busyAt results s p) : busyAt results s' p := by
  revert h
  cases p <;> simp only [busyAt, h1, h2, h3, h4] <;> exact id

theorem Loaded.setPc {s : State T V} (l : Loaded s) (t : T) {p : Pc V} (h : ∀ e, p = .entering e → e = s.entry) :
    Loaded (s.setPc t p) := by
  intro hm t' e he
  by_cases ht : t' = t
  · subst ht; rw [setPc_self] at he; exact h e he
  · rw [setPc_other s p ht] at he; exact l hm t' e he

theorem Loaded.of_sync {s : State T V} (h : s.mode ≠ .unsynchronized) : Loaded s := fun h' => absurd h' h

/-- The thread that evaluates an unsynchronized thunk is the only one in a call. -/
theorem Base.alone {s : State T V} (b : Base s) (hm : s.mode = .unsynchronized) {t t' : T} (ht : s.pc t ≠ .idle)
    (h : t' ≠ t) : s.pc t' = .idle := by
  obtain ⟨o, h1, h2⟩ := b.owner hm
  have : t = o := h1 t ((b.has ht).resolve_left (by rw [hm]; simp))
  subst this
  exact h2 t' h

/-- Loads the entry function: at the start of a call, or again. -/
theorem Inv.load {results : V → Prop} {s : State T V} (i : Inv results s) {t : T} (ht : s.has t)
    (hq : quiet (s.pc t)) : Inv results (s.setPc t (.entering s.entry)) := by
  refine ⟨i.base.setPc _ ht (by simp), ?_, i.loaded.setPc t (by intro e h; cases h; rfl)⟩
  cases he : s.entry with
  | initial => exact i.phase.quiet_update hq trivial
  | locked => exact i.phase.quiet_update hq trivial
  | normal =>
    cases i.phase with
    | fresh g1 _ _ _ _ _ _ _ => rw [g1] at he; cases he
    | busy o g1 _ _ _ _ => rw [g1] at he; split at he <;> cases he
    | done w g1 g2 g3 g4 g5 g6 g7 g8 g9 =>
      exact Phase.settled_update g2 g1 i.phase (by trivial)

/-- The evaluating thread moves on. -/
theorem Inv.busy_step {results : V → Prop} {s s' : State T V} (i : Inv results s) {t : T} (hq : ¬ quiet (s.pc t))
    (h : ∀ v, ¬ settled v (s.pc t)) (hm : s'.mode = s.mode) (hh : s'.handles = s.handles) (hf : s'.freed = s.freed)
    (hx : s'.fault = s.fault) (he : s'.entry = s.entry) (hr : s'.returned = s.returned)
    (hv : s'.valueDrops = s.valueDrops) {p : Pc V} (hp : s'.pc = Function.update s.pc t p) (hne : p ≠ .evaluating)
    (hb : busyAt results s (s.pc t) → busyAt results s' p) : Inv results s' := by
  obtain ⟨h1, h2, h3, h4, h5⟩ := i.phase.busy_of hq h
  have hni : s.pc t ≠ .idle := busyAt_not_idle h4
  have hb' := hb h4
  refine ⟨?_, .busy t (by rw [he, hm]; exact h1) (by rw [hr]; exact h2) (by rw [hv]; exact h3) ?_ ?_, ?_⟩
  · exact (i.base.setPc p (i.base.has hni) hne).congr hm hh hp hf hx
  · rw [hp, Function.update_self]; exact hb'
  · intro t' ht'; rw [hp, Function.update_of_ne ht']; exact h5 t' ht'
  · intro hu t' e hte
    rw [hm] at hu
    rw [hp] at hte
    by_cases ht : t' = t
    · subst ht; rw [Function.update_self] at hte; subst hte; exact hb'.elim
    · rw [Function.update_of_ne ht, i.base.alone hu hni ht] at hte; cases hte

theorem inv_step {results : V → Prop} {s s' : State T V} {t : T} (i : Inv results s)
    (h : Step results false t s s') : Inv results s' := by
  have b := i.base
  cases h with
  | clone _ _ hi ht =>
    unfold State.clone
    split
    · exact i
    · rename_i hm
      have ht : t ∈ s.handles := ht.resolve_left hm
      have hne : s.handles ≠ 0 := by rintro e; rw [e] at ht; simp at ht
      refine ⟨⟨fun h t' h' => Multiset.mem_cons_of_mem (b.held h t' h'), fun h t' h' => ?_, fun h => ?_, ?_, b.fault⟩,
        i.phase.handles _, i.loaded⟩
      · exact le_trans (b.twice h t' h') (Multiset.count_le_count_cons t' t _)
      · obtain ⟨o, h1, h2⟩ := b.owner h
        refine ⟨o, fun x hx => ?_, h2⟩
        rcases Multiset.mem_cons.1 hx with rfl | hx
        · exact h1 _ ht
        · exact h1 x hx
      · have := b.freed
        simp only [hne, and_false, if_false] at this
        simp [this]
  | drop _ _ hi ht => exact i.drop_idle hi ht
  | send _ _ t' hi ht hm =>
    refine ⟨⟨fun h x hx => ?_, fun h x hx => ?_, fun h => ?_, ?_, b.fault⟩, i.phase.handles _, i.loaded⟩
    · refine Multiset.mem_cons_of_mem ((Multiset.mem_erase_of_ne ?_).2 (b.held h x hx))
      rintro rfl; exact hx hi
    · have : x ≠ t := by rintro rfl; rw [show s.pc x = .idle from hi] at hx; cases hx
      show 2 ≤ (t' ::ₘ s.handles.erase t).count x
      refine le_trans ?_ (Multiset.count_le_count_cons x t' _)
      rw [Multiset.count_erase_of_ne this]
      exact b.twice h x hx
    · change s.mode = _ at h; rw [hm] at h; cases h
    · have hne : s.handles ≠ 0 := by rintro e; rw [e] at ht; simp at ht
      have := b.freed
      simp only [hne, and_false, if_false] at this
      simp [this]
  | synchronize _ _ hi ht hm =>
    have hall : ∀ t', s.pc t' = .idle := by
      obtain ⟨o, h1, h2⟩ := b.owner hm
      intro t'
      by_cases e : t' = o
      · rw [e, ← h1 t ht]; exact hi
      · exact h2 t' e
    have hne : s.handles ≠ 0 := by rintro e; rw [e] at ht; simp at ht
    have hf := b.freed
    simp only [hne, and_false, if_false] at hf
    have key : s.synchronizeContent = s := by
      cases i.phase with
      | fresh h1 h2 h3 _ _ _ _ _ => simp [State.synchronizeContent, h3, State.needEnvironment, h2]
      | busy o _ _ _ h4 _ => exact absurd (hall o) (busyAt_not_idle h4)
      | done v h1 h2 h3 _ _ _ _ _ _ => simp [State.synchronizeContent, h3, State.needValue, h2]
    rw [key]
    refine ⟨⟨fun _ t' h => absurd (hall t') h, ?_, (by intro h; cases h), by simp [hf, hne], b.fault⟩, ?_, ?_⟩
    · intro _ t' h
      have h : s.pc t' = .evaluating := h
      rw [hall t'] at h; cases h
    · cases i.phase with
      | fresh h1 h2 h3 h4 h5 h6 h7 h8 => exact .fresh h1 h2 h3 h4 h5 h6 h7 h8
      | busy o _ _ _ h4 _ => exact absurd (hall o) (busyAt_not_idle h4)
      | done v h1 h2 h3 h4 h5 h6 h7 h8 h9 => exact .done v h1 h2 h3 h4 h5 h6 h7 h8 h9
    · exact Loaded.of_sync (by simp)
  | call _ _ hi ht => exact i.load ht (by rw [hi]; trivial)
  | enterUnsynchronized _ _ hi hm =>
    have hni : s.pc t ≠ .idle := by rw [hi]; simp
    have hh : s.has t := b.has hni
    have he : s.entry = .initial := (i.loaded hm t _ hi).symm
    refine ⟨b.setPc _ hh (by simp), ?_, i.loaded.setPc t (by intro e h; cases h)⟩
    have hne : s.handles ≠ 0 := by
      have := hh.resolve_left (by rw [hm]; simp)
      rintro e; rw [e] at this; simp at this
    have hf := b.freed
    simp only [hne, and_false, if_false] at hf
    cases i.phase with
    | fresh g1 g2 g3 g4 g5 g6 g7 g8 =>
      refine .busy t (by simp [State.setPc, hm, g1]) g5 g7 ?_ fun t' ht' => ?_
      · rw [setPc_self]; exact ⟨g2, g3, g4, by rw [← hf]; exact g6⟩
      · rw [setPc_other _ _ ht']; exact g8 t'
    | busy o g1 g2 g3 g4 g5 =>
      exfalso
      by_cases e : o = t
      · subst e; rw [hi] at g4; exact g4
      · rw [b.alone hm hni e] at g4; exact g4
    | done w g1 g2 g3 g4 g5 g6 g7 g8 g9 => rw [g1] at he; cases he
  | lock _ _ hi hm he =>
    have hni : s.pc t ≠ .idle := by rw [hi]; simp
    have hh : s.has t := b.has hni
    refine ⟨(b.setPc .starting hh (by simp)).congr rfl rfl rfl rfl rfl, ?_, Loaded.of_sync hm⟩
    have hf : s.freed = 0 := by
      rw [b.freed]
      rcases hh with h | h
      · simp [h]
      · have : s.handles ≠ 0 := by rintro e; rw [e] at h; simp at h
        simp [this]
    cases i.phase with
    | fresh g1 g2 g3 g4 g5 g6 g7 g8 =>
      refine .busy t (by simp [State.setPc, hm]) g5 g7 ?_ fun t' ht' => ?_
      · show busyAt results _ ((s.setPc t .starting).pc t)
        rw [setPc_self]; exact ⟨g2, g3, g4, by rw [← hf]; exact g6⟩
      · show quiet ((s.setPc t .starting).pc t')
        rw [setPc_other _ _ ht']; exact g8 t'
    | busy o g1 g2 g3 g4 g5 => rw [g1, if_neg hm] at he; cases he
    | done w g1 g2 g3 g4 g5 g6 g7 g8 g9 => rw [g1] at he; cases he
  | lockFails _ _ hi hm he =>
    exact ⟨b.setPc _ (b.has (by rw [hi]; simp)) (by simp), i.phase.quiet_update (by rw [hi]; trivial) trivial,
      i.loaded.setPc t (by intro e h; cases h)⟩
  | reload _ _ hi => exact i.load (b.has (by rw [hi]; simp)) (by rw [hi]; trivial)
  | start _ _ hi =>
    obtain ⟨h1, h2, h3, h4, h5⟩ := i.phase.busy_of (t := t) (by rw [hi]; exact id) (by intro v; rw [hi]; exact id)
    have hni : s.pc t ≠ .idle := by rw [hi]; simp
    have hh := b.has hni
    rw [hi] at h4
    obtain ⟨a1, a2, a3, a4⟩ := h4
    have hpay : (s.clone t).payload = .environment := by unfold State.clone; split <;> exact a1
    rw [needEnvironment_eq hpay]
    by_cases hm : s.mode = .static
    · have : s.clone t = s := by simp [State.clone, hm]
      rw [this]
      refine ⟨⟨fun h => absurd hm h, fun h => absurd hm h, fun h => ?_, ?_, b.fault⟩, .busy t h1 h2 h3 ?_ ?_, ?_⟩
      · have h : s.mode = .unsynchronized := h
        rw [hm] at h; cases h
      · exact b.freed
      · show busyAt results _ ((s.setPc t .evaluating).pc t)
        rw [setPc_self]; exact ⟨a1, a2, by simp [a3], a4⟩
      · intro t' ht'
        show quiet ((s.setPc t .evaluating).pc t')
        rw [setPc_other _ _ ht']; exact h5 t' ht'
      · exact Loaded.of_sync (by show s.mode ≠ _; rw [hm]; simp)
    · have : s.clone t = { s with handles := t ::ₘ s.handles } := by simp [State.clone, hm]
      rw [this]
      have hmem : t ∈ s.handles := hh.resolve_left hm
      have hne : s.handles ≠ 0 := by rintro e; rw [e] at hmem; simp at hmem
      have hpc : ∀ t', t' ≠ t → Function.update s.pc t .evaluating t' = s.pc t' := fun t' h => by simp [h]
      refine ⟨⟨fun _ t' h => ?_, fun _ t' h => ?_, fun h => ?_, ?_, b.fault⟩, .busy t h1 h2 h3 ?_ ?_, ?_⟩
      · by_cases e : t' = t
        · subst e; exact Multiset.mem_cons_self _ _
        · have h : Function.update s.pc t .evaluating t' ≠ .idle := h
          rw [hpc t' e] at h
          exact Multiset.mem_cons_of_mem (b.held hm t' h)
      · by_cases e : t' = t
        · subst e
          show 2 ≤ (t' ::ₘ s.handles).count t'
          rw [Multiset.count_cons_self]
          have := Multiset.count_pos.2 hmem
          omega
        · have h : Function.update s.pc t .evaluating t' = .evaluating := h
          rw [hpc t' e] at h
          exact le_trans (b.twice hm t' h) (Multiset.count_le_count_cons t' t _)
      · have h : s.mode = .unsynchronized := h
        obtain ⟨o, h1, h2⟩ := b.owner h
        refine ⟨o, fun x hx => ?_, fun t' ht' => ?_⟩
        · rcases Multiset.mem_cons.1 hx with rfl | hx
          · exact h1 _ hmem
          · exact h1 x hx
        · have : t' ≠ t := by rintro rfl; exact ht' (h1 _ hmem)
          show Function.update s.pc t .evaluating t' = .idle
          rw [hpc t' this]; exact h2 t' ht'
      · have := b.freed
        simp only [hne, and_false, if_false] at this
        show s.freed = _
        rw [this]; simp [State.setPc]
      · show busyAt results _ ((s.setPc t .evaluating).pc t)
        rw [setPc_self]; exact ⟨a1, a2, by simp [a3], a4⟩
      · intro t' ht'
        show quiet ((s.setPc t .evaluating).pc t')
        rw [setPc_other _ _ ht']; exact h5 t' ht'
      · exact i.loaded.setPc t (by intro e h; cases h)
  | finish _ _ v hi hv =>
    obtain ⟨h1, h2, h3, h4, h5⟩ := i.phase.busy_of (t := t) (by rw [hi]; exact id) (by intro v; rw [hi]; exact id)
    rw [hi] at h4
    obtain ⟨a1, a2, a3, a4⟩ := h4
    have hni : s.pc t ≠ .idle := by rw [hi]; simp
    by_cases hm : s.mode = .static
    · rw [drop_static hm]
      exact i.busy_step (t := t) (by rw [hi]; exact id) (by intro v; rw [hi]; exact id) rfl rfl rfl rfl rfl rfl rfl
        (p := .evaluated v) rfl (by simp) (fun _ => ⟨hv, a1, a2, a3, a4⟩)
    · have h2' := b.twice hm t hi
      have h0 := erase_ne_zero_of_two h2'
      have hmem : t ∈ s.handles.erase t := by
        rw [← Multiset.count_pos, Multiset.count_erase_self]; omega
      rw [drop_more hm h0]
      have i' := i.busy_step (t := t) (s' := s.setPc t (.evaluated v)) (by rw [hi]; exact id)
        (by intro v; rw [hi]; exact id) rfl rfl rfl rfl rfl rfl rfl (p := .evaluated v) rfl (by simp)
        (fun _ => ⟨hv, a1, a2, a3, a4⟩)
      exact ⟨i'.base.drop_more (t := t) hm h0 (fun _ _ => Or.inr hmem) (by rw [setPc_self]; simp),
        i'.phase.handles _, i'.loaded⟩
  | returnEarly _ _ v he hi hv => cases he
  | dropEnvironment _ _ v hi =>
    obtain ⟨_, _, _, h4, _⟩ := i.phase.busy_of (t := t) (by rw [hi]; exact id) (by intro v; rw [hi]; exact id)
    rw [hi] at h4
    obtain ⟨hv, a1, a2, a3, a4⟩ := h4
    rw [needEnvironment_eq a1]
    exact i.busy_step (t := t) (by rw [hi]; exact id) (by intro v; rw [hi]; exact id) rfl rfl rfl rfl rfl rfl rfl
      (p := .dropped v) rfl (by simp) (fun _ => ⟨hv, rfl, a2, a3, by show s.environmentDrops + 1 = 1; rw [a4]⟩)
  | storeValue _ _ v hi =>
    obtain ⟨_, _, _, h4, _⟩ := i.phase.busy_of (t := t) (by rw [hi]; exact id) (by intro v; rw [hi]; exact id)
    rw [hi] at h4
    obtain ⟨hv, a1, a2, a3, a4⟩ := h4
    exact i.busy_step (t := t) (by rw [hi]; exact id) (by intro v; rw [hi]; exact id) rfl rfl rfl rfl rfl rfl rfl
      (p := .stored v) rfl (by simp) (fun _ => ⟨hv, rfl, a2, a3, a4⟩)
  | storeMetadata _ _ v hi =>
    obtain ⟨_, _, _, h4, _⟩ := i.phase.busy_of (t := t) (by rw [hi]; exact id) (by intro v; rw [hi]; exact id)
    rw [hi] at h4
    obtain ⟨hv, a1, a2, a3, a4⟩ := h4
    exact i.busy_step (t := t) (by rw [hi]; exact id) (by intro v; rw [hi]; exact id) rfl rfl rfl rfl rfl rfl rfl
      (p := .described v) rfl (by simp) (fun _ => ⟨hv, a1, rfl, a3, a4⟩)
  | publish _ _ v hi =>
    obtain ⟨h1, h2, h3, h4, h5⟩ := i.phase.busy_of (t := t) (by rw [hi]; exact id) (by intro v; rw [hi]; exact id)
    have hni : s.pc t ≠ .idle := by rw [hi]; simp
    have hh := b.has hni
    rw [hi] at h4
    obtain ⟨hv, a1, a2, a3, a4⟩ := h4
    have hf : s.freed = 0 := by
      rw [b.freed]
      rcases hh with h | h
      · simp [h]
      · have : s.handles ≠ 0 := by rintro e; rw [e] at h; simp at h
        simp [this]
    refine ⟨(b.setPc (.finishing v) hh (by simp)).congr rfl rfl rfl rfl rfl,
      .done v rfl a1 a2 a3 a4 (by show s.valueDrops = s.freed; rw [h3, hf]) hv ?_ ?_, ?_⟩
    · intro r hr
      have hr : r ∈ s.returned := hr
      rw [h2] at hr; cases hr
    · intro t'
      show settled v ((s.setPc t (.finishing v)).pc t')
      by_cases e : t' = t
      · subst e; rw [setPc_self]; rfl
      · rw [setPc_other _ _ e]
        have := h5 t' e
        revert this
        rcases hp : s.pc t' with _ | e | _ | _ | _ | _ | _ | _ | _ | _ | _
        all_goals simp [quiet, settled]
    · intro hu t' e he
      have he : Function.update s.pc t (.finishing v) t' = .entering e := he
      by_cases ht : t' = t
      · subst ht; simp at he
      · rw [Function.update_of_ne ht, b.alone hu hni ht] at he; cases he
  | finishCall _ _ v hi =>
    have hni : s.pc t ≠ .idle := by rw [hi]; simp
    have hh := b.has hni
    obtain ⟨w, g1, g2, g3, g4, g5, g6, g7, g8, g9⟩ := i.phase.done_of (t := t) (by rw [hi]; exact id) (by rw [hi]; exact id)
    have hw : v = w := by have := g9 t; rw [hi] at this; exact this
    subst hw
    -- the same as dropping the handle after the call
    have i' : Inv results ((s.setPc t .idle) : State T V) := by
      refine ⟨b.setPc _ hh (by simp), Phase.settled_update g2 g1 i.phase trivial, i.loaded.setPc t (by intro e h; cases h)⟩
    have i'' := i'.drop_idle (t := t) (setPc_self _ _ _) (by
      rcases hh with h | h
      · exact Or.inl h
      · exact Or.inr h)
    rw [drop_setPc] at i''
    obtain ⟨b'', p'', l''⟩ := i''
    refine ⟨b''.congr rfl rfl rfl rfl rfl, ?_, l''⟩
    have hret : (s.drop t).returned = s.returned := by
      unfold State.drop State.free State.needEnvironment State.needValue
      cases s with
      | mk mode entry payload metadata handles pc bodies returned ed vd freed fault =>
        cases mode <;> cases metadata <;> cases payload <;> by_cases h : handles.erase t = 0 <;> simp [h]
    have hpay : (s.drop t).payload = .value v := by
      unfold State.drop State.free State.needEnvironment State.needValue
      cases s with
      | mk mode entry payload metadata handles pc bodies returned ed vd freed fault =>
        simp only at g2; subst g2
        cases mode <;> cases metadata <;> by_cases h : handles.erase t = 0 <;> simp [h]
    have hent : (s.drop t).entry = .normal := by
      unfold State.drop State.free State.needEnvironment State.needValue
      cases s with
      | mk mode entry payload metadata handles pc bodies returned ed vd freed fault =>
        simp only at g2 g1; subst g2 g1
        cases mode <;> cases metadata <;> by_cases h : handles.erase t = 0 <;> simp [h]
    cases p'' with
    | fresh q1 q2 q3 q4 q5 q6 q7 q8 =>
      have q2 : (s.drop t).payload = .environment := q2
      rw [hpay] at q2; cases q2
    | busy o q1 q2 q3 q4 q5 =>
      have q1 : (s.drop t).entry = (if (s.drop t).mode = .unsynchronized then .initial else .locked) := q1
      rw [hent] at q1
      split at q1 <;> cases q1
    | done u q1 q2 q3 q4 q5 q6 q7 q8 q9 =>
      have q2' : (s.drop t).payload = .value u := q2
      rw [hpay] at q2'
      cases q2'
      refine .done v q1 q2 q3 q4 q5 q6 q7 ?_ q9
      intro r hr
      rcases List.mem_cons.1 hr with rfl | hr
      · rfl
      · rw [hret] at hr; exact g8 r hr
  | enterNormal _ _ hi =>
    obtain ⟨w, g1, g2, g3, g4, g5, g6, g7, g8, g9⟩ := i.phase.done_of (t := t) (by rw [hi]; exact id) (by rw [hi]; exact id)
    exact ⟨b.setPc _ (b.has (by rw [hi]; simp)) (by simp), Phase.settled_update g2 g1 i.phase trivial,
      i.loaded.setPc t (by intro e h; cases h)⟩
  | read _ _ v hi hv =>
    obtain ⟨w, g1, g2, g3, g4, g5, g6, g7, g8, g9⟩ := i.phase.done_of (t := t) (by rw [hi]; exact id) (by rw [hi]; exact id)
    exact ⟨b.setPc _ (b.has (by rw [hi]; simp)) (by simp), Phase.settled_update hv g1 i.phase rfl,
      i.loaded.setPc t (by intro e h; cases h)⟩
  | readFails _ _ hi hv =>
    obtain ⟨w, g1, g2, g3, g4, g5, g6, g7, g8, g9⟩ := i.phase.done_of (t := t) (by rw [hi]; exact id) (by rw [hi]; exact id)
    exact absurd g2 (hv w)
  | enterLocked _ _ hi =>
    exact ⟨b.setPc _ (b.has (by rw [hi]; simp)) (by simp), i.phase.quiet_update (by rw [hi]; trivial) trivial,
      i.loaded.setPc t (by intro e h; cases h)⟩

theorem inv_reachable {results : V → Prop} {s : State T V} (h : Reachable results false s) : Inv results s := by
  induction h with
  | new t => exact inv_new results t
  | global => exact inv_global results
  | step _ h ih => exact inv_step ih h

end Verif.Runtime.Thunk
