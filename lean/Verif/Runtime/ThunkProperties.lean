import Verif.Runtime.ThunkLemmas

/- C46: a lazily evaluated value is computed at most once and all its readers get that value, under every schedule; except
that a function without arguments that returns early by a `?` operator can never be called again. -/
namespace Verif.Runtime.Thunk

variable {T V : Type} [DecidableEq T]

/-- C46: the body of a thunk is evaluated at most once, whatever threads call it and when. -/
theorem c46_evaluated_once_partial {results : V → Prop} {s : State T V} (h : Reachable results false s) : s.bodies ≤ 1 := by
  cases (inv_reachable h).phase with
  | fresh _ _ _ h _ _ _ _ => omega
  | busy t _ _ _ h _ =>
    revert h
    rcases s.pc t with _ | e | _ | _ | _ | _ | _ | _ | _ | _ | _ <;> simp only [busyAt] <;> intro h <;>
      first | exact h.elim | omega
  | done v _ _ _ h _ _ _ _ _ => omega

/-- C46: all calls have the same result, and it is one of the body. -/
theorem c46_same_result_partial {results : V → Prop} {s : State T V} (h : Reachable results false s) {t t' : T} {v v' : V}
    (h1 : (t, v) ∈ s.returned) (h2 : (t', v') ∈ s.returned) : v = v' ∧ results v := by
  cases (inv_reachable h).phase with
  | fresh _ _ _ _ h _ _ _ => rw [h] at h1; cases h1
  | busy t _ h _ _ _ => rw [h] at h1; cases h1
  | done w _ _ _ _ _ _ hw h _ =>
    have e1 : v = w := h _ h1
    have e2 : v' = w := h _ h2
    subst e1 e2
    exact ⟨rfl, hw⟩

/-- C46: the payload is never used as an environment when it is a value or the other way round: neither by entry functions
nor when the thunk is dropped or synchronized. -/
theorem c46_no_fault_partial {results : V → Prop} {s : State T V} (h : Reachable results false s) : s.fault = false :=
  (inv_reachable h).base.fault

/-- C46: when the last handle is dropped the block is freed once, its environment is dropped once, and so is the stored
value if there is one; before that nothing is freed. -/
theorem c46_no_leak_partial {results : V → Prop} {s : State T V} (h : Reachable results false s) (hm : s.mode ≠ .static) :
    (s.handles = 0 → s.freed = 1 ∧ s.environmentDrops = 1 ∧ s.valueDrops = s.bodies) ∧
    (s.handles ≠ 0 → s.freed = 0 ∧ s.valueDrops = 0 ∧ s.environmentDrops ≤ s.bodies) := by
  have i := inv_reachable h
  have hf := i.base.freed
  constructor
  · intro h0
    simp only [hm, h0, ne_eq, not_false_eq_true, and_self, if_true] at hf
    cases i.phase with
    | fresh _ _ _ h4 _ h6 h7 _ => exact ⟨hf, by rw [h6, hf], by rw [h7, h4]⟩
    | busy t _ _ _ h4 _ =>
      have := i.base.held hm t (busyAt_not_idle h4)
      rw [h0] at this; simp at this
    | done v _ _ _ h4 h5 h6 _ _ _ => exact ⟨hf, h5, by rw [h6, hf, h4]⟩
  · intro h0
    simp only [h0, and_false, if_false] at hf
    cases i.phase with
    | fresh _ _ _ h4 _ h6 h7 _ => exact ⟨hf, h7, by rw [h6, hf]; omega⟩
    | busy t _ _ h3 h4 _ =>
      refine ⟨hf, h3, ?_⟩
      revert h4
      rcases s.pc t with _ | e | _ | _ | _ | _ | _ | _ | _ | _ | _ <;> simp only [busyAt] <;> intro h <;>
        first | exact h.elim | omega
    | done v _ _ _ h4 h5 h6 _ _ _ => exact ⟨hf, by rw [h6, hf], by omega⟩

/-! ### Progress -/

theorem drop_returned (s : State T V) (t : T) : (s.drop t).returned = s.returned := by
  unfold State.drop State.free State.needEnvironment State.needValue
  cases s with
  | mk mode entry payload metadata handles pc bodies returned ed vd freed fault =>
    cases mode <;> cases metadata <;> cases payload <;> by_cases h : handles.erase t = 0 <;> simp [h]

theorem drop_entry (s : State T V) (t : T) : (s.drop t).entry = s.entry := by
  unfold State.drop State.free State.needEnvironment State.needValue
  cases s with
  | mk mode entry payload metadata handles pc bodies returned ed vd freed fault =>
    cases mode <;> cases metadata <;> cases payload <;> by_cases h : handles.erase t = 0 <;> simp [h]

theorem drop_mode (s : State T V) (t : T) : (s.drop t).mode = s.mode := by
  unfold State.drop State.free State.needEnvironment State.needValue
  cases s with
  | mk mode entry payload metadata handles pc bodies returned ed vd freed fault =>
    cases mode <;> cases metadata <;> cases payload <;> by_cases h : handles.erase t = 0 <;> simp [h]

theorem drop_pc (s : State T V) (t : T) : (s.drop t).pc = s.pc := by
  unfold State.drop State.free State.needEnvironment State.needValue
  cases s with
  | mk mode entry payload metadata handles pc bodies returned ed vd freed fault =>
    cases mode <;> cases metadata <;> cases payload <;> by_cases h : handles.erase t = 0 <;> simp [h]

theorem clone_fields (s : State T V) (t : T) : (s.clone t).returned = s.returned ∧ (s.clone t).entry = s.entry ∧
    (s.clone t).mode = s.mode ∧ (s.clone t).pc = s.pc := by
  unfold State.clone; split <;> exact ⟨rfl, rfl, rfl, rfl⟩

theorem need_fields (s : State T V) : (s.needEnvironment.returned = s.returned ∧ s.needEnvironment.entry = s.entry ∧
    s.needEnvironment.mode = s.mode ∧ s.needEnvironment.pc = s.pc) ∧
    (s.needValue.returned = s.returned ∧ s.needValue.entry = s.entry ∧
    s.needValue.mode = s.mode ∧ s.needValue.pc = s.pc) := by
  unfold State.needEnvironment State.needValue
  cases s.payload <;> simp

theorem synchronize_fields (s : State T V) : s.synchronizeContent.returned = s.returned ∧
    s.synchronizeContent.entry = s.entry ∧ s.synchronizeContent.pc = s.pc := by
  unfold State.synchronizeContent
  have := need_fields s
  cases s.metadata
  · exact ⟨this.1.1, this.1.2.1, this.1.2.2.2⟩
  · exact ⟨this.2.1, this.2.2.1, this.2.2.2.2⟩

/-- Thread `t` gets a result in an execution from `s` to `s'`. -/
def Returns (t : T) (s s' : State T V) : Prop :=
  ∃ w rest, ((t, w) :: rest) <:+ s'.returned ∧ s.returned <:+ rest

/-- There is an execution in which thread `t` gets a result. -/
def CanReturn (results : V → Prop) (t : T) (s : State T V) : Prop :=
  ∃ ts s', Run results false s ts s' ∧ s'.pc t = .idle ∧ Returns t s s'

theorem CanReturn.of_step {results : V → Prop} {s s' : State T V} {t t' : T} (h : Step results false t' s s')
    (hr : s'.returned = s.returned) (hc : CanReturn results t s') : CanReturn results t s := by
  obtain ⟨ts, s'', h1, h2, w, rest, h3, h4⟩ := hc
  exact ⟨t' :: ts, s'', .cons h h1, h2, w, rest, h3, hr ▸ h4⟩

theorem can_finishing {results : V → Prop} {s : State T V} {t : T} {v : V} (h : s.pc t = .finishing v) :
    CanReturn results t s := by
  refine ⟨[t], _, .cons (.finishCall s t v h) (.nil _), ?_, v, s.returned, ?_, List.suffix_refl _⟩
  · simp [State.return_, State.setPc]
  · simp [State.return_, drop_returned]

theorem can_reading {results : V → Prop} {s : State T V} {t : T} {v : V} (h : s.pc t = .reading)
    (hp : s.payload = .value v) : CanReturn results t s :=
  .of_step (.read s t v h hp) rfl (can_finishing (setPc_self _ _ _))

theorem can_normal {results : V → Prop} {s : State T V} {t : T} {v : V} (h : s.pc t = .entering .normal)
    (hp : s.payload = .value v) : CanReturn results t s :=
  .of_step (.enterNormal s t h) rfl (can_reading (setPc_self _ _ _) hp)

theorem can_reloading {results : V → Prop} {s : State T V} {t : T} {v : V} (h : s.pc t = .reloading)
    (he : s.entry = .normal) (hp : s.payload = .value v) : CanReturn results t s :=
  .of_step (.reload s t h) rfl (can_normal (by rw [setPc_self, he]) hp)

theorem can_done {results : V → Prop} {s : State T V} (i : Inv results s) {t : T} (h : s.pc t ≠ .idle)
    (he : s.entry = .normal) : CanReturn results t s := by
  cases i.phase with
  | fresh g1 _ _ _ _ _ _ _ => rw [g1] at he; cases he
  | busy o g1 _ _ _ _ => rw [g1] at he; split at he <;> cases he
  | done v g1 g2 g3 g4 g5 g6 g7 g8 g9 =>
    have := g9 t
    rcases hp : s.pc t with _ | e | _ | _ | _ | _ | _ | _ | _ | _ | _ <;> rw [hp] at this
    case idle => exact absurd hp h
    case entering =>
      cases e with
      | initial =>
        by_cases hm : s.mode = .unsynchronized
        · have := i.loaded hm t _ hp
          rw [g1] at this; cases this
        · exact .of_step (.lockFails s t hp hm (by rw [g1]; simp)) rfl (can_reloading (setPc_self _ _ _) g1 g2)
      | locked => exact .of_step (.enterLocked s t hp) rfl (can_reloading (setPc_self _ _ _) g1 g2)
      | normal => exact can_normal hp g2
    case reloading => exact can_reloading hp g1 g2
    case reading => exact can_reading hp g2
    case finishing => exact can_finishing hp
    all_goals exact this.elim

/-- The thread `o` that evaluates can go on until the value is there. -/
theorem can_described {results : V → Prop} {s : State T V} (i : Inv results s) {t o : T} {v : V} (h : s.pc t ≠ .idle)
    (ho : s.pc o = .described v) : CanReturn results t s := by
  have st : Step results false o s _ := .publish s o v ho
  refine .of_step st rfl (can_done (inv_step i st) ?_ rfl)
  show (s.setPc o _).pc t ≠ .idle
  by_cases e : t = o
  · subst e; rw [setPc_self]; simp
  · rw [setPc_other _ _ e]; exact h

theorem setPc_not_idle {s : State T V} {t o : T} {p : Pc V} (h : s.pc t ≠ .idle) (hp : p ≠ .idle) :
    (s.setPc o p).pc t ≠ .idle := by
  by_cases e : t = o
  · subst e; rw [setPc_self]; exact hp
  · rw [setPc_other _ _ e]; exact h

theorem can_stored {results : V → Prop} {s : State T V} (i : Inv results s) {t o : T} {v : V} (h : s.pc t ≠ .idle)
    (ho : s.pc o = .stored v) : CanReturn results t s := by
  have st : Step results false o s _ := .storeMetadata s o v ho
  exact .of_step st rfl (can_described (v := v) (o := o) (inv_step i st) (setPc_not_idle h (by simp)) (setPc_self _ _ _))

theorem can_dropped {results : V → Prop} {s : State T V} (i : Inv results s) {t o : T} {v : V} (h : s.pc t ≠ .idle)
    (ho : s.pc o = .dropped v) : CanReturn results t s := by
  have st : Step results false o s _ := .storeValue s o v ho
  exact .of_step st rfl (can_stored (v := v) (o := o) (inv_step i st) (setPc_not_idle h (by simp)) (setPc_self _ _ _))

theorem can_evaluated {results : V → Prop} {s : State T V} (i : Inv results s) {t o : T} {v : V} (h : s.pc t ≠ .idle)
    (ho : s.pc o = .evaluated v) : CanReturn results t s := by
  have st : Step results false o s _ := .dropEnvironment s o v ho
  refine .of_step st (need_fields s).1.1 (can_dropped (v := v) (o := o) (inv_step i st) ?_ (setPc_self _ _ _))
  show (s.needEnvironment.setPc o _).pc t ≠ .idle
  exact setPc_not_idle (by rw [(need_fields s).1.2.2.2]; exact h) (by simp)

theorem can_evaluating {results : V → Prop} {s : State T V} (i : Inv results s) {t o : T} {v : V} (hv : results v)
    (h : s.pc t ≠ .idle) (ho : s.pc o = .evaluating) : CanReturn results t s := by
  have st : Step results false o s _ := .finish s o v ho hv
  refine .of_step st (drop_returned s o) (can_evaluated (v := v) (o := o) (inv_step i st) ?_ (setPc_self _ _ _))
  exact setPc_not_idle (by rw [drop_pc]; exact h) (by simp)

theorem can_starting {results : V → Prop} {s : State T V} (i : Inv results s) {t o : T} {v : V} (hv : results v)
    (h : s.pc t ≠ .idle) (ho : s.pc o = .starting) : CanReturn results t s := by
  have st : Step results false o s _ := .start s o ho
  have e1 := clone_fields s o
  have e2 := (need_fields (s.clone o)).1
  refine .of_step st (e2.1.trans e1.1) (can_evaluating (o := o) (inv_step i st) hv ?_ (setPc_self _ _ _))
  exact setPc_not_idle (by rw [e2.2.2.2, e1.2.2.2]; exact h) (by simp)

theorem can_initial {results : V → Prop} {s : State T V} (i : Inv results s) {t : T} {v : V} (hv : results v)
    (he : s.entry = .initial) (h : s.pc t = .entering .initial) : CanReturn results t s := by
  by_cases hm : s.mode = .unsynchronized
  · have st : Step results false t s _ := .enterUnsynchronized s t h hm
    exact .of_step st rfl (can_starting (inv_step i st) hv (by rw [setPc_self]; simp) (setPc_self _ _ _))
  · have st : Step results false t s _ := .lock s t h hm he
    refine .of_step st rfl (can_starting (o := t) (inv_step i st) hv ?_ (setPc_self _ _ _))
    show (s.setPc t _).pc t ≠ _
    rw [setPc_self]; simp

/-- C46: no call is lost: whatever has happened so far, a thread in a call can get its result if the body has one. In
particular threads that wait for another one to evaluate the thunk are not left waiting. -/
theorem c46_progress_partial {results : V → Prop} {s : State T V} (h : Reachable results false s) {t : T} {v : V}
    (hv : results v) (ht : s.pc t ≠ .idle) :
    ∃ ts s', Run results false s ts s' ∧ s'.pc t = .idle ∧ Returns t s s' := by
  show CanReturn results t s
  have i := inv_reachable h
  cases i.phase with
  | fresh g1 g2 g3 g4 g5 g6 g7 g8 =>
    have := g8 t
    have reload : ∀ s : State T V, Inv results s → s.entry = .initial → s.pc t = .reloading → CanReturn results t s := by
      intro s i g1 hp
      have st : Step results false t s _ := .reload s t hp
      exact .of_step st rfl (can_initial (inv_step i st) hv g1 (by rw [setPc_self, g1]))
    rcases hp : s.pc t with _ | e | _ | _ | _ | _ | _ | _ | _ | _ | _ <;> rw [hp] at this
    case idle => exact absurd hp ht
    case entering =>
      cases e with
      | initial => exact can_initial i hv g1 hp
      | locked =>
        have st : Step results false t s _ := .enterLocked s t hp
        exact .of_step st rfl (reload _ (inv_step i st) g1 (setPc_self _ _ _))
      | normal => exact this.elim
    case reloading => exact reload s i g1 hp
    all_goals exact this.elim
  | busy o g1 g2 g3 g4 g5 =>
    rcases hp : s.pc o with _ | e | _ | _ | _ | _ | _ | _ | _ | _ | _ <;> rw [hp] at g4
    case starting => exact can_starting i hv ht hp
    case evaluating => exact can_evaluating i hv ht hp
    case evaluated => exact can_evaluated i ht hp
    case dropped => exact can_dropped i ht hp
    case stored => exact can_stored i ht hp
    case described => exact can_described i ht hp
    all_goals exact g4.elim
  | done v g1 g2 g3 g4 g5 g6 g7 g8 g9 => exact can_done i ht g1

/-! ### Once there is a value -/

theorem step_other {results : V → Prop} {early : Bool} {s s' : State T V} {t t' : T} (h : Step results early t s s')
    (ht : t' ≠ t) : s'.pc t' = s.pc t' := by
  cases h
  case clone => rw [(clone_fields s t).2.2.2]
  case drop => rw [drop_pc]
  case send => rfl
  case synchronize => show s.synchronizeContent.pc t' = _; rw [(synchronize_fields s).2.2]
  case finish => rw [setPc_other _ _ ht, drop_pc]
  case returnEarly => show ((s.drop t).setPc t .idle).pc t' = _; rw [setPc_other _ _ ht, drop_pc]
  case finishCall => show ((s.drop t).setPc t .idle).pc t' = _; rw [setPc_other _ _ ht, drop_pc]
  case start =>
    show (((s.clone t).needEnvironment).setPc t .evaluating).pc t' = _
    rw [setPc_other _ _ ht, (need_fields _).1.2.2.2, (clone_fields s t).2.2.2]
  case dropEnvironment v _ =>
    show ((s.needEnvironment).setPc t (.dropped v)).pc t' = _
    rw [setPc_other _ _ ht, (need_fields _).1.2.2.2]
  case readFails => rfl
  case lock => exact setPc_other s _ ht
  case storeValue => exact setPc_other s _ ht
  case storeMetadata => exact setPc_other s _ ht
  case publish => exact setPc_other s _ ht
  all_goals rw [setPc_other _ _ ht]

theorem step_returned {results : V → Prop} {early : Bool} {s s' : State T V} {t : T} (h : Step results early t s s') :
    s.returned <:+ s'.returned := by
  cases h
  case clone => rw [(clone_fields s t).1]; exact List.suffix_refl _
  case drop => rw [drop_returned]; exact List.suffix_refl _
  case synchronize => show _ <:+ s.synchronizeContent.returned; rw [(synchronize_fields s).1]; exact List.suffix_refl _
  case finish => show _ <:+ (s.drop t).returned; rw [drop_returned]; exact List.suffix_refl _
  case returnEarly v _ _ _ =>
    show _ <:+ (t, v) :: (s.drop t).returned
    rw [drop_returned]; exact List.suffix_cons _ _
  case finishCall v _ =>
    show _ <:+ (t, v) :: (s.drop t).returned
    rw [drop_returned]; exact List.suffix_cons _ _
  case start =>
    show _ <:+ ((s.clone t).needEnvironment).returned
    rw [(need_fields _).1.1, (clone_fields s t).1]; exact List.suffix_refl _
  case dropEnvironment =>
    show _ <:+ s.needEnvironment.returned
    rw [(need_fields _).1.1]; exact List.suffix_refl _
  all_goals exact List.suffix_refl _

theorem step_normal {results : V → Prop} {early : Bool} {s s' : State T V} {t : T} (h : Step results early t s s')
    (he : s.entry = .normal) : s'.entry = .normal := by
  cases h
  case clone => rw [(clone_fields s t).2.1]; exact he
  case drop => rw [drop_entry]; exact he
  case synchronize => show s.synchronizeContent.entry = _; rw [(synchronize_fields s).2.1]; exact he
  case finish => show (s.drop t).entry = _; rw [drop_entry]; exact he
  case returnEarly => show (s.drop t).entry = _; rw [drop_entry]; exact he
  case finishCall => show (s.drop t).entry = _; rw [drop_entry]; exact he
  case start => show ((s.clone t).needEnvironment).entry = _; rw [(need_fields _).1.2.1, (clone_fields s t).2.1]; exact he
  case dropEnvironment => show s.needEnvironment.entry = _; rw [(need_fields _).1.2.1]; exact he
  case lock => exact absurd (he.symm.trans ‹s.entry = .initial›) (by simp)
  case publish => rfl
  all_goals exact he

theorem run_returned {results : V → Prop} {early : Bool} {s s' : State T V} {ts : List T} (h : Run results early s ts s') :
    s.returned <:+ s'.returned := by
  induction h with
  | nil => exact List.suffix_refl _
  | cons h _ ih => exact (step_returned h).trans ih

/-- How many steps a call takes at most once there is a value. -/
def rank : Pc V → Nat
  | .finishing _ => 1
  | .reading => 2
  | .entering .normal => 3
  | .reloading => 4
  | .entering _ => 5
  | _ => 0

theorem done_step {results : V → Prop} {s s' : State T V} (i : Inv results s) {t : T} (he : s.entry = .normal)
    (h : s.pc t ≠ .idle) (st : Step results false t s s') :
    Returns t s s' ∨ (s'.pc t ≠ .idle ∧ rank (s'.pc t) < rank (s.pc t)) := by
  cases i.phase with
  | fresh g1 _ _ _ _ _ _ _ => rw [g1] at he; cases he
  | busy o g1 _ _ _ _ => rw [g1] at he; split at he <;> cases he
  | done v g1 g2 g3 g4 g5 g6 g7 g8 g9 =>
    have hs := g9 t
    cases st with
    | clone _ _ h1 _ => exact absurd h1 h
    | drop _ _ h1 _ => exact absurd h1 h
    | send _ _ _ h1 _ _ => exact absurd h1 h
    | synchronize _ _ h1 _ _ => exact absurd h1 h
    | call _ _ h1 _ => exact absurd h1 h
    | enterUnsynchronized _ _ h1 hm =>
      have := i.loaded hm t _ h1
      rw [g1] at this; cases this
    | lock _ _ _ _ h2 => rw [g1] at h2; cases h2
    | lockFails _ _ h1 _ _ => right; rw [setPc_self, h1]; exact ⟨by simp, by simp [rank]⟩
    | reload _ _ h1 => right; rw [setPc_self, h1, g1]; exact ⟨by simp, by simp [rank]⟩
    | start _ _ h1 => rw [h1] at hs; exact hs.elim
    | finish _ _ _ h1 _ => rw [h1] at hs; exact hs.elim
    | returnEarly _ _ _ h _ _ => cases h
    | dropEnvironment _ _ _ h1 => rw [h1] at hs; exact hs.elim
    | storeValue _ _ _ h1 => rw [h1] at hs; exact hs.elim
    | storeMetadata _ _ _ h1 => rw [h1] at hs; exact hs.elim
    | publish _ _ _ h1 => rw [h1] at hs; exact hs.elim
    | finishCall _ _ v _ =>
      left
      refine ⟨v, s.returned, ?_, List.suffix_refl _⟩
      show _ <:+ (t, v) :: (s.drop t).returned
      rw [drop_returned]; exact List.suffix_refl _
    | enterNormal _ _ h1 => right; rw [setPc_self, h1]; exact ⟨by simp, by simp [rank]⟩
    | read _ _ _ h1 _ => right; rw [setPc_self, h1]; exact ⟨by simp, by simp [rank]⟩
    | readFails _ _ _ h2 => exact absurd g2 (h2 v)
    | enterLocked _ _ h1 => right; rw [setPc_self, h1]; exact ⟨by simp, by simp [rank]⟩

theorem run_rank {results : V → Prop} {t : T} {s s' : State T V} {ts : List T} (h : Run results false s ts s') :
    Inv results s → s.entry = .normal → s.pc t ≠ .idle → rank (s.pc t) ≤ ts.count t → Returns t s s' := by
  induction h with
  | nil s =>
    intro i he hp hr
    exfalso
    cases i.phase with
    | fresh g1 _ _ _ _ _ _ _ => rw [g1] at he; cases he
    | busy o g1 _ _ _ _ => rw [g1] at he; split at he <;> cases he
    | done v g1 g2 g3 g4 g5 g6 g7 g8 g9 =>
      have := g9 t
      rcases hq : s.pc t with _ | e | _ | _ | _ | _ | _ | _ | _ | _ | _ <;> rw [hq] at this hr hp
      case entering => cases e <;> simp [rank] at hr
      all_goals simp [rank, settled] at hr this hp
  | @cons s s1 s2 t' ts st run ih =>
    intro i he hp hr
    by_cases e : t' = t
    · subst e
      rcases done_step i he hp st with ⟨w, rest, h1, h2⟩ | ⟨h1, h2⟩
      · exact ⟨w, rest, h1.trans (run_returned run), h2⟩
      · rw [List.count_cons_self] at hr
        obtain ⟨w, rest, h3, h4⟩ := ih (inv_step i st) (step_normal st he) h1 (by omega)
        exact ⟨w, rest, h3, (step_returned st).trans h4⟩
    · rw [List.count_cons_of_ne e] at hr
      have ho := step_other st (t' := t) (Ne.symm e)
      obtain ⟨w, rest, h3, h4⟩ := ih (inv_step i st) (step_normal st he) (by rw [ho]; exact hp) (by rw [ho]; exact hr)
      exact ⟨w, rest, h3, (step_returned st).trans h4⟩

/-- C46: once one thread has returned a result, every call ends after at most five more steps of its own thread, whatever
the other threads do. -/
theorem c46_wait_free_partial {results : V → Prop} {s s' : State T V} (h : Reachable results false s) {t : T}
    {ts : List T} (hv : s.returned ≠ []) (ht : s.pc t ≠ .idle) (run : Run results false s ts s') (hc : 5 ≤ ts.count t) :
    Returns t s s' := by
  have i := inv_reachable h
  have he : s.entry = .normal := by
    cases i.phase with
    | fresh _ _ _ _ h _ _ _ => exact absurd h hv
    | busy t _ h _ _ _ => exact absurd h hv
    | done w h _ _ _ _ _ _ _ _ => exact h
  refine run_rank run i he ht (le_trans ?_ hc)
  rcases s.pc t with _ | e | _ | _ | _ | _ | _ | _ | _ | _ | _
  case entering => cases e <;> simp [rank]
  all_goals simp [rank]

/-! ### Early returns -/

/-- The thunk is locked and no thread evaluates it. -/
def Stuck (s : State T V) : Prop := s.entry = .locked ∧ s.mode = .static ∧ ∀ t, quiet (s.pc t)

theorem quiet_set {s : State T V} (h : ∀ t, quiet (s.pc t)) {t : T} {p : Pc V} (hp : quiet p) :
    ∀ t', quiet ((s.setPc t p).pc t') := by
  intro t'
  by_cases e : t' = t
  · subst e; rw [setPc_self]; exact hp
  · rw [setPc_other _ _ e]; exact h t'

theorem stuck_step {results : V → Prop} {early : Bool} {s s' : State T V} {t : T} (h : Stuck s)
    (st : Step results early t s s') : Stuck s' ∧ s'.returned = s.returned := by
  obtain ⟨h1, h2, h3⟩ := h
  have hq := h3 t
  cases st with
  | clone => simp only [State.clone, h2, if_true]; exact ⟨⟨h1, h2, h3⟩, trivial⟩
  | drop => rw [drop_static h2]; exact ⟨⟨h1, h2, h3⟩, rfl⟩
  | send _ _ _ _ _ h => rw [h2] at h; cases h
  | synchronize _ _ _ _ h => rw [h2] at h; cases h
  | call => exact ⟨⟨h1, h2, quiet_set h3 (by rw [h1]; trivial)⟩, rfl⟩
  | enterUnsynchronized _ _ _ h => rw [h2] at h; cases h
  | lock _ _ _ _ h => rw [h1] at h; cases h
  | lockFails => exact ⟨⟨h1, h2, quiet_set h3 trivial⟩, rfl⟩
  | reload => exact ⟨⟨h1, h2, quiet_set h3 (by rw [h1]; trivial)⟩, rfl⟩
  | enterLocked => exact ⟨⟨h1, h2, quiet_set h3 trivial⟩, rfl⟩
  | start _ _ hp => rw [hp] at hq; exact hq.elim
  | finish _ _ _ hp _ => rw [hp] at hq; exact hq.elim
  | returnEarly _ _ _ _ hp _ => rw [hp] at hq; exact hq.elim
  | dropEnvironment _ _ _ hp => rw [hp] at hq; exact hq.elim
  | storeValue _ _ _ hp => rw [hp] at hq; exact hq.elim
  | storeMetadata _ _ _ hp => rw [hp] at hq; exact hq.elim
  | publish _ _ _ hp => rw [hp] at hq; exact hq.elim
  | finishCall _ _ _ hp => rw [hp] at hq; exact hq.elim
  | enterNormal _ _ hp => rw [hp] at hq; exact hq.elim
  | read _ _ _ hp _ => rw [hp] at hq; exact hq.elim
  | readFails _ _ hp _ => rw [hp] at hq; exact hq.elim

theorem stuck_run {results : V → Prop} {early : Bool} {s s' : State T V} {ts : List T} (h : Run results early s ts s') :
    Stuck s → s'.returned = s.returned := by
  induction h with
  | nil => exact fun _ => rfl
  | cons st _ ih => exact fun hs => (ih (stuck_step hs st).1).trans (stuck_step hs st).2

/-- C46 fails for bodies that return early. A global function without arguments is a thunk; when it returns by a `?`
operator, its caller gets the error, but the entry function stays the locked one: from then on no call by any thread ever
returns. -/
theorem c46_early_return_hangs (results : V → Prop) (t : T) (v : V) (hv : results v) :
    ∃ ts, ∃ s : State T V, Run results true State.global ts s ∧ s.returned = [(t, v)] ∧ (∀ t', s.pc t' = .idle) ∧
      ∀ ts' s', Run results true s ts' s' → s'.returned = [(t, v)] := by
  have run := Run.cons (results := results) (early := true) (.call (State.global : State T V) t rfl (Or.inl rfl))
    (.cons (.lock _ t (setPc_self _ _ _) (by simp [State.setPc, State.global]) rfl)
      (.cons (.start _ t (setPc_self _ _ _)) (.cons (.returnEarly _ t v rfl (setPc_self _ _ _) hv) (.nil _))))
  refine ⟨_, _, run, ?_, ?_, ?_⟩
  · simp [State.return_, State.setPc, State.drop, State.clone, State.needEnvironment, State.global]
  · intro t'
    by_cases e : t' = t
    · subst e; simp [State.return_, State.setPc]
    · simp [State.return_, State.setPc, State.drop, State.clone, State.needEnvironment, State.global, e]
  · intro ts' s' h
    refine (stuck_run h ⟨?_, ?_, ?_⟩).trans ?_
    · simp [State.return_, State.setPc, State.drop, State.clone, State.needEnvironment, State.global]
    · simp [State.return_, State.setPc, State.drop, State.clone, State.needEnvironment, State.global]
    · intro t'
      by_cases e : t' = t
      · subst e; simp [State.return_, State.setPc, quiet]
      · simp [State.return_, State.setPc, State.drop, State.clone, State.needEnvironment, State.global, e, quiet]
    · simp [State.return_, State.setPc, State.drop, State.clone, State.needEnvironment, State.global]

/-- An execution: thread 0 makes a thunk, clones and synchronizes it and sends a handle to thread 1; both call it, thread 1
waits while thread 0 evaluates; both get the result and drop the last handles with their calls. -/
def exampleSteps : List Nat := [0, 0, 0, 0, 0, 0, 1, 0, 1, 0, 0, 0, 0, 0, 1, 1, 1, 1]

example : ∃ s : State Nat Nat, Run (· = 7) false (State.new 0) exampleSteps s ∧ s.returned = [(1, 7), (0, 7)] ∧
    s.bodies = 1 ∧ s.freed = 1 := by
  refine ⟨_,
    .cons (.clone _ 0 rfl (Or.inr (by decide)))
    (.cons (.synchronize _ 0 rfl (by decide) rfl)
    (.cons (.send _ 0 1 rfl (by decide) rfl)
    (.cons (.call _ 0 rfl (Or.inr (by decide)))
    (.cons (.lock _ 0 rfl (by decide) rfl)
    (.cons (.start _ 0 rfl)
    (.cons (.call _ 1 rfl (Or.inr (by decide)))
    (.cons (.finish _ 0 7 rfl rfl)
    (.cons (.enterLocked _ 1 rfl)
    (.cons (.dropEnvironment _ 0 7 rfl)
    (.cons (.storeValue _ 0 7 rfl)
    (.cons (.storeMetadata _ 0 7 rfl)
    (.cons (.publish _ 0 7 rfl)
    (.cons (.finishCall _ 0 7 rfl)
    (.cons (.reload _ 1 rfl)
    (.cons (.enterNormal _ 1 rfl)
    (.cons (.read _ 1 7 rfl rfl)
    (.cons (.finishCall _ 1 7 rfl) (.nil _)))))))))))))))))), ?_, ?_, ?_⟩ <;> rfl

end Verif.Runtime.Thunk
