import Verif.Runtime.AsyncStack

/-!
# C34: the protocol of asynchronous stacks
-/
namespace Verif.Runtime.AsyncStack

variable {V P : Type}

/-- A stack of frames that ends in the executor's continuation. -/
inductive Frames : Cont → List (Cell V P) → Prop
  | nil : Frames .resolve []
  | cons {f : V → P} {k : Cont} {st : List (Cell V P)} : Frames k st → Frames .returnPoint (.frame f k :: st)

/-- The invariant. -/
def Inv (m : Machine V P) : Prop :=
  match m.control with
  | .idle none => m.async = Async.new
  | .idle (some (.resumeFuture, k)) => m.async.resolved = none ∧ m.async.actions = [.restore, .suspend] ∧
      ∃ f st, m.async.stack = .future f :: st ∧ Frames k st
  | .idle (some (.trampoline, k)) => m.async.resolved = none ∧ m.async.actions = [.suspend] ∧
      ∃ v st, m.async.stack = .value v :: st ∧ Frames k st
  | .enter _ k | .continue k _ | .poll _ k =>
      m.async.resolved = none ∧ m.async.actions = [.suspend] ∧ m.async.context = true ∧ Frames k m.async.stack
  | .returned =>
      (∃ v, m.async.resolved = some v ∧ m.async.actions = [.suspend] ∧ m.async.stack = []) ∨
      (m.async.resolved = none ∧
        ((∃ k f st, m.async.actions = [.resume, .restore, .suspend] ∧
            m.async.stack = .cont k :: .step .resumeFuture :: .future f :: st ∧ Frames k st) ∨
         (∃ k v st, m.async.actions = [.resume, .suspend] ∧
            m.async.stack = .cont k :: .step .trampoline :: .value v :: st ∧ Frames k st)))
  | .done _ => m.async = Async.new
  | .failed _ => False

theorem inv_new : Inv (Machine.new : Machine V P) := rfl

theorem inv_step (code : P → Instr V P) (main : P) {m : Machine V P} (h : Inv m) : Inv (m.step code main) := by
  obtain ⟨c, ⟨st, ctx, acts, res⟩, log⟩ := m
  cases c with
  | idle t =>
    rcases t with _ | ⟨s, k⟩
    · simp only [Inv, Async.new, Async.mk.injEq] at h
      obtain ⟨rfl, rfl, rfl, rfl⟩ := h
      exact ⟨rfl, rfl, rfl, .nil⟩
    · cases s with
      | resumeFuture =>
        simp only [Inv] at h
        obtain ⟨rfl, rfl, f, st, rfl, hf⟩ := h
        exact ⟨rfl, rfl, rfl, hf⟩
      | trampoline =>
        simp only [Inv] at h
        obtain ⟨rfl, rfl, f, st, rfl, hf⟩ := h
        exact ⟨rfl, rfl, rfl, hf⟩
  | enter p k =>
    simp only [Inv] at h
    obtain ⟨rfl, rfl, rfl, hf⟩ := h
    simp only [Machine.step]
    cases code p with
    | ret v => exact ⟨rfl, rfl, rfl, hf⟩
    | call q f => exact ⟨rfl, rfl, rfl, .cons hf⟩
    | jump q => exact ⟨rfl, rfl, rfl, hf⟩
    | await f => exact ⟨rfl, rfl, rfl, hf⟩
  | «continue» k v =>
    simp only [Inv] at h
    obtain ⟨rfl, rfl, rfl, hf⟩ := h
    cases hf with
    | nil => exact Or.inl ⟨v, rfl, rfl, rfl⟩
    | cons hf => exact ⟨rfl, rfl, rfl, hf⟩
  | poll f k =>
    simp only [Inv] at h
    obtain ⟨rfl, rfl, rfl, hf⟩ := h
    obtain ⟨name, n, v⟩ := f
    cases n with
    | zero => exact Or.inr ⟨rfl, Or.inr ⟨k, v, _, rfl, rfl, hf⟩⟩
    | succ n => exact Or.inr ⟨rfl, Or.inl ⟨k, _, _, rfl, rfl, hf⟩⟩
  | returned =>
    simp only [Inv] at h
    rcases h with ⟨v, rfl, rfl, rfl⟩ | ⟨rfl, ⟨k, f, st, rfl, rfl, hf⟩ | ⟨k, f, st, rfl, rfl, hf⟩⟩
    · rfl
    · exact ⟨rfl, rfl, f, st, rfl, hf⟩
    · exact ⟨rfl, rfl, f, st, rfl, hf⟩
  | done v => exact h
  | failed e => exact h

theorem inv_run (code : P → Instr V P) (main : P) (n : Nat) {m : Machine V P} (h : Inv m) : Inv (m.run code main n) := by
  induction n generalizing m with
  | zero => exact h
  | succ n ih => exact ih (inv_step code main h)

theorem run_add (code : P → Instr V P) (main : P) (a b : Nat) (m : Machine V P) :
    m.run code main (a + b) = (m.run code main a).run code main b := by
  induction a generalizing m with
  | zero => simp [Machine.run]
  | succ a ih => rw [Nat.succ_add]; exact ih _

/-- **C34**, safety: however the program goes on and however long its futures are pending, the executor never meets an
unexpected stack action, a missing context or a value of another type. -/
theorem c34_never_fails (code : P → Instr V P) (main : P) (n : Nat) (e : Error) :
    ((Machine.new : Machine V P).run code main n).control ≠ .failed e := by
  intro h
  have hi := inv_run code main n (inv_new (V := V) (P := P))
  unfold Inv at hi
  rw [h] at hi
  exact hi

/-! ### Results -/

/-- A machine running with the stack `st`, nothing resolved. -/
def at' (c : Control V P) (st : List (Cell V P)) (log : List Nat) : Machine V P :=
  ⟨c, ⟨st, true, [.suspend], none⟩, log⟩

/-- Polling a future until it is ready: three steps a poll. -/
theorem run_poll (code : P → Instr V P) (main : P) (name : Nat) (v : V) (n : Nat) (k : Cont) (st : List (Cell V P))
    (log : List Nat) :
    ∃ j, (at' (.poll ⟨name, n, v⟩ k) st log).run code main j =
      at' (.continue k v) st (List.replicate (n + 1) name ++ log) := by
  induction n generalizing log with
  | zero => exact ⟨3, rfl⟩
  | succ n ih =>
    obtain ⟨j, hj⟩ := ih (name :: log)
    refine ⟨3 + j, ?_⟩
    rw [run_add]
    have : (at' (.poll ⟨name, n + 1, v⟩ k) st log).run code main 3 = at' (.poll ⟨name, n, v⟩ k) st (name :: log) := rfl
    rw [this, hj]
    congr 1
    rw [List.replicate_succ' (n := n + 1), List.append_assoc]
    rfl

/-- Evaluating `p` under a continuation calls the continuation with the result and the stack unchanged. -/
theorem run_eval (code : P → Instr V P) (main : P) {p : P} {v : V} {l : List Nat} (h : Eval code p v l) (k : Cont)
    (st : List (Cell V P)) (log : List Nat) :
    ∃ j, (at' (.enter p k) st log).run code main j = at' (.continue k v) st (l.reverse ++ log) := by
  induction h generalizing k st log with
  | ret hc => exact ⟨1, by simp [Machine.run, Machine.step, at', hc]⟩
  | @call p q f v w l l' hc _ _ ih1 ih2 =>
    obtain ⟨j1, h1⟩ := ih1 .returnPoint (.frame f k :: st) log
    obtain ⟨j2, h2⟩ := ih2 k st (l.reverse ++ log)
    refine ⟨1 + (j1 + (1 + j2)), ?_⟩
    have e1 : (at' (.enter p k) st log).run code main 1 = at' (.enter q .returnPoint) (.frame f k :: st) log := by
      simp [Machine.run, Machine.step, at', hc, Async.push]
    rw [run_add, e1, run_add, h1, run_add]
    have e2 : (at' (.continue .returnPoint v) (.frame f k :: st) (l.reverse ++ log)).run code main 1 =
        at' (.enter (f v) k) st (l.reverse ++ log) := rfl
    rw [e2, h2]
    simp
  | @jump p q v l hc _ ih =>
    obtain ⟨j, hj⟩ := ih k st log
    refine ⟨1 + j, ?_⟩
    have e1 : (at' (.enter p k) st log).run code main 1 = at' (.enter q k) st log := by
      simp [Machine.run, Machine.step, at', hc]
    rw [run_add, e1, hj]
  | @await p f hc =>
    obtain ⟨j, hj⟩ := run_poll code main f.name f.value f.pending k st log
    refine ⟨1 + j, ?_⟩
    have e1 : (at' (.enter p k) st log).run code main 1 = at' (.poll f k) st log := by
      simp [Machine.run, Machine.step, at', hc]
    rw [run_add, e1, hj, List.reverse_replicate]

/-- What the rest of a stack of frames makes of a value. -/
inductive EvalFrames (code : P → Instr V P) : Cont → List (Cell V P) → V → V → List Nat → Prop
  | nil {v : V} : EvalFrames code .resolve [] v v []
  | cons {f : V → P} {k : Cont} {st : List (Cell V P)} {v w u : V} {l l' : List Nat} :
      Eval code (f v) w l → EvalFrames code k st w u l' → EvalFrames code .returnPoint (.frame f k :: st) v u (l ++ l')

/-- The result of a machine according to the specification: a value and the futures yet to be polled. -/
def Result (code : P → Instr V P) (main : P) (m : Machine V P) (u : V) (l : List Nat) : Prop :=
  match m.control, m.async.stack with
  | .idle none, _ => Eval code main u l
  | .idle (some (.resumeFuture, k)), .future f :: st =>
      ∃ l', EvalFrames code k st f.value u l' ∧ l = List.replicate (f.pending + 1) f.name ++ l'
  | .idle (some (.trampoline, k)), .value v :: st => EvalFrames code k st v u l
  | .enter p k, st => ∃ v l1 l2, Eval code p v l1 ∧ EvalFrames code k st v u l2 ∧ l = l1 ++ l2
  | .continue k v, st => EvalFrames code k st v u l
  | .poll f k, st => ∃ l', EvalFrames code k st f.value u l' ∧ l = List.replicate (f.pending + 1) f.name ++ l'
  | .returned, .cont k :: .step .resumeFuture :: .future f :: st =>
      ∃ l', EvalFrames code k st f.value u l' ∧ l = List.replicate (f.pending + 1) f.name ++ l'
  | .returned, .cont k :: .step .trampoline :: .value v :: st => EvalFrames code k st v u l
  | .returned, _ => m.async.resolved = some u ∧ l = []
  | .done v, _ => v = u ∧ l = []
  | _, _ => False

theorem result_step (code : P → Instr V P) (main : P) {m : Machine V P} {u : V} {l : List Nat} (hi : Inv m)
    (h : Result code main (m.step code main) u l) :
    ∃ l', Result code main m u l' ∧ l'.reverse ++ m.log = l.reverse ++ (m.step code main).log := by
  obtain ⟨c, ⟨st, ctx, acts, res⟩, log⟩ := m
  cases c with
  | idle t =>
    rcases t with _ | ⟨s, k⟩
    · simp only [Inv, Async.new, Async.mk.injEq] at hi
      obtain ⟨rfl, rfl, rfl, rfl⟩ := hi
      obtain ⟨v, l1, l2, h1, h2, rfl⟩ := h
      cases h2
      exact ⟨_, h1, by simp [Machine.step]⟩
    · cases s with
      | resumeFuture =>
        simp only [Inv] at hi
        obtain ⟨rfl, rfl, f, st, rfl, hf⟩ := hi
        exact ⟨l, h, rfl⟩
      | trampoline =>
        simp only [Inv] at hi
        obtain ⟨rfl, rfl, f, st, rfl, hf⟩ := hi
        exact ⟨l, h, rfl⟩
  | enter p k =>
    simp only [Inv] at hi
    obtain ⟨rfl, rfl, rfl, hf⟩ := hi
    simp only [Machine.step] at h ⊢
    cases hc : code p with
    | ret v => 
      rw [hc] at h
      exact ⟨l, ⟨v, [], l, .ret hc, h, rfl⟩, rfl⟩
    | call q f =>
      rw [hc] at h
      obtain ⟨v, l1, l2, h1, h2, rfl⟩ := h
      cases h2 with
      | cons h3 h4 =>
        exact ⟨_, ⟨_, _, _, .call hc h1 h3, h4, rfl⟩, by simp⟩
    | jump q =>
      rw [hc] at h
      obtain ⟨v, l1, l2, h1, h2, rfl⟩ := h
      exact ⟨_, ⟨_, _, _, .jump hc h1, h2, rfl⟩, rfl⟩
    | await f =>
      rw [hc] at h
      obtain ⟨l', h1, rfl⟩ := h
      exact ⟨_, ⟨_, _, _, .await hc, h1, rfl⟩, rfl⟩
  | «continue» k v =>
    simp only [Inv] at hi
    obtain ⟨rfl, rfl, rfl, hf⟩ := hi
    cases hf with
    | nil =>
      obtain ⟨h1, rfl⟩ := h
      cases h1
      exact ⟨[], .nil, rfl⟩
    | cons hf =>
      obtain ⟨v, l1, l2, h1, h2, rfl⟩ := h
      exact ⟨_, .cons h1 h2, rfl⟩
  | poll f k =>
    simp only [Inv] at hi
    obtain ⟨rfl, rfl, rfl, hf⟩ := hi
    obtain ⟨name, n, v⟩ := f
    cases n with
    | zero =>
      exact ⟨name :: l, ⟨l, h, rfl⟩, by simp [Machine.step, Async.trampoline, Async.validate, Async.pushActions, Async.push]⟩
    | succ n =>
      obtain ⟨l', h1, rfl⟩ := h
      refine ⟨_, ⟨l', h1, rfl⟩, ?_⟩
      simp only [Machine.step, if_true, Async.suspend, Async.validate, List.head?_cons, Except.map]
      rw [List.replicate_succ (n := n + 1)]
      simp [List.reverse_append]
  | returned =>
    simp only [Inv] at hi
    rcases hi with ⟨v, rfl, rfl, rfl⟩ | ⟨rfl, ⟨k, f, st, rfl, rfl, hf⟩ | ⟨k, f, st, rfl, rfl, hf⟩⟩
    · obtain ⟨rfl, rfl⟩ := h
      exact ⟨[], ⟨rfl, rfl⟩, rfl⟩
    · exact ⟨l, h, rfl⟩
    · exact ⟨l, h, rfl⟩
  | done v => exact ⟨l, h, rfl⟩
  | failed e => cases h

theorem result_run (code : P → Instr V P) (main : P) (n : Nat) {m : Machine V P} {u : V} {l : List Nat} (hi : Inv m)
    (h : Result code main (m.run code main n) u l) :
    ∃ l', Result code main m u l' ∧ l'.reverse ++ m.log = l.reverse ++ (m.run code main n).log := by
  induction n generalizing m with
  | zero => exact ⟨l, h, rfl⟩
  | succ n ih =>
    obtain ⟨l1, h1, h2⟩ := ih (inv_step code main hi) h
    obtain ⟨l2, h3, h4⟩ := result_step code main hi h1
    exact ⟨l2, h3, h4.trans h2⟩

/-- **C34**: the executor completes with a value iff direct-style evaluation gives that value, and then each
future has been polled until it was ready and not again, in the order of direct-style evaluation; the stack
is as it was at the start. -/
theorem c34_result_iff (code : P → Instr V P) (main : P) (v : V) (l : List Nat) :
    Eval code main v l ↔ ∃ n m, (Machine.new : Machine V P).run code main n = m ∧
      m.control = .done v ∧ m.log = l.reverse ∧ m.async = Async.new := by
  constructor
  · intro h
    obtain ⟨j, hj⟩ := run_eval code main h .resolve [] []
    refine ⟨1 + (j + 2), _, rfl, ?_⟩
    rw [run_add, run_add]
    have e1 : (Machine.new : Machine V P).run code main 1 = at' (.enter main .resolve) [] [] := rfl
    rw [e1, hj]
    exact ⟨rfl, by simp [Machine.run, Machine.step, at'], rfl⟩
  · rintro ⟨n, m, hn, hc, hl, _⟩
    have hr : Result code main ((Machine.new : Machine V P).run code main n) v [] := by
      rw [hn]
      unfold Result
      rw [hc]
      exact ⟨rfl, rfl⟩
    obtain ⟨l', h1, h2⟩ := result_run code main n inv_new hr
    have : l'.reverse = l.reverse := by
      rw [hn, hl] at h2
      simpa [Machine.new] using h2
    rw [List.reverse_inj] at this
    exact this ▸ h1

/-- A program that calls a function awaiting a future twice pending, and then awaits another. -/
example : Eval (V := Nat) (P := Nat)
    (fun | 0 => .call 1 (fun v => v + 40) | 1 => .await ⟨7, 2, 2⟩ | 42 => .await ⟨8, 0, 5⟩ | n => .ret n)
    0 5 [7, 7, 7, 8] :=
  .call (q := 1) (f := fun v => v + 40) (v := 2) (l := [7, 7, 7]) (l' := [8]) rfl (.await (f := ⟨7, 2, 2⟩) rfl)
    (.await (f := ⟨8, 0, 5⟩) rfl)

/-- Without a context `trampoline` fails (and leaves the value and the functions on the stack). -/
example : ∃ e, (Async.new : Async Nat Nat).trampoline .resolve 1 = .error e ∧ e = .missingContext := ⟨_, rfl, rfl⟩

end Verif.Runtime.AsyncStack
