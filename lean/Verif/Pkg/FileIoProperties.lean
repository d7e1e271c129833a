import Verif.Pkg.FileIo
/-
C79: reading and writing files.
-/
namespace Verif.Pkg.FileIo

/-! ### Specification -/

/-- What was read by operations that succeeded. -/
def gotten : List (Result Bytes) → Bytes
  | [] => []
  | .ok bytes :: rs => bytes ++ gotten rs
  | _ :: rs => gotten rs

/-- No call fails. -/
def NoFailure (outcomes : List Outcome) : Prop := Outcome.failed ∉ outcomes

instance (outcomes : List Outcome) : Decidable (NoFailure outcomes) := by unfold NoFailure; infer_instance

/-! ### Reading -/

theorem readToEnd_spec {outcomes : List Outcome} {buffer rest : Bytes} {r : Result Bytes} {left : Bytes}
    {more : List Outcome} (h : readToEnd outcomes buffer rest = some (r, left, more)) :
    more <:+ outcomes ∧ (r = .ok (buffer ++ rest) ∧ left = [] ∨ r = .failed ∧ .failed ∈ outcomes ∧ left <:+ rest) := by
  induction outcomes generalizing buffer rest with
  | nil => simp [readToEnd] at h
  | cons o outcomes ih =>
    cases o with
    | interrupted =>
      obtain ⟨h1, h2⟩ := ih h
      refine ⟨h1.trans (List.suffix_cons _ _), ?_⟩
      rcases h2 with h2 | ⟨h2, h3, h4⟩
      · exact .inl h2
      · exact .inr ⟨h2, List.mem_cons_of_mem _ h3, h4⟩
    | failed =>
      simp only [readToEnd, Option.some.injEq, Prod.mk.injEq] at h
      obtain ⟨rfl, rfl, rfl⟩ := h
      exact ⟨List.suffix_cons _ _, .inr ⟨rfl, List.mem_cons_self .., List.suffix_rfl⟩⟩
    | transfer count =>
      simp only [readToEnd, sysRead, Nat.min_self] at h
      split at h
      · rename_i rest' he
        simp only [Prod.mk.injEq, Result.ok.injEq] at he
        simp only [Option.some.injEq, Prod.mk.injEq] at h
        obtain ⟨rfl, rfl, rfl⟩ := h
        have : rest = [] := by
          cases rest with
          | nil => rfl
          | cons b rest => simp at he
        subst this
        exact ⟨List.suffix_cons _ _, .inl ⟨by simp, by simpa using he.2.symm⟩⟩
      · rename_i bytes rest' hne he
        simp only [Prod.mk.injEq, Result.ok.injEq] at he
        obtain ⟨rfl, rfl⟩ := he
        obtain ⟨h1, h2⟩ := ih h
        refine ⟨h1.trans (List.suffix_cons _ _), ?_⟩
        rcases h2 with ⟨h2, h3⟩ | ⟨h2, h3, h4⟩
        · exact .inl ⟨by rw [h2, List.append_assoc, List.take_append_drop], h3⟩
        · exact .inr ⟨h2, List.mem_cons_of_mem _ h3, h4.trans (List.drop_suffix _ _)⟩
      · rename_i x1 x2 h1 h2 he
        simp only [Prod.mk.injEq] at he
        exact absurd he.1.symm (h2 _)

/-- Reading a file gives all that is left of it, if no call fails, however the operating system splits it up or
interrupts it. -/
theorem c79_read {outcomes : List Outcome} {rest : Bytes} {r : Result Bytes} {left : Bytes} {more : List Outcome}
    (hn : NoFailure outcomes) (h : read outcomes rest = some (r, left, more)) : r = .ok rest ∧ left = [] := by
  rcases (readToEnd_spec h).2 with h | h
  · exact h
  · exact absurd h.2.1 hn

/-- Reading ends: at the latest after one call for every byte and one more, besides those that are interrupted. -/
theorem c79_read_ends {outcomes : List Outcome} {rest : Bytes}
    (h : rest.length < (outcomes.filter (· ≠ .interrupted)).length) : (read outcomes rest).isSome = true := by
  unfold read
  generalize ([] : Bytes) = buffer
  induction outcomes generalizing rest buffer with
  | nil => simp at h
  | cons o outcomes ih =>
    cases o with
    | interrupted => exact ih (by simpa using h) buffer
    | failed => rfl
    | transfer count =>
      have h' : rest.length < (outcomes.filter (· ≠ .interrupted)).length + 1 := by simpa using h
      simp only [readToEnd, sysRead, Nat.min_self]
      split
      · rfl
      · rename_i bytes rest' hne he
        simp only [Prod.mk.injEq, Result.ok.injEq] at he
        obtain ⟨rfl, rfl⟩ := he
        refine ih ?_ _
        cases rest with
        | nil => exact (hne (by simp)).elim
        | cons b rest =>
          simp only [List.drop_succ_cons, List.length_drop, List.length_cons] at h' ⊢
          omega
      · rfl

/-- Reading until a limit gives at most as many bytes, the next ones; it gives none only at the end or for the limit 0. -/
theorem c79_read_limit {outcome : Outcome} {limit : Nat} {rest bytes left : Bytes}
    (h : readLimit outcome limit rest = (.ok bytes, left)) :
    bytes ++ left = rest ∧ bytes.length ≤ limit ∧ (bytes = [] → rest = [] ∨ limit = 0) := by
  cases outcome with
  | interrupted => simp [readLimit, sysRead] at h
  | failed => simp [readLimit, sysRead] at h
  | transfer count =>
    simp only [readLimit, sysRead, Prod.mk.injEq, Result.ok.injEq, List.take_left'] at h
    obtain ⟨rfl, rfl⟩ := h
    refine ⟨List.take_append_drop _ _, ?_, fun h => ?_⟩
    · rw [List.length_take]; omega
    · have := congrArg List.length h
      rw [List.length_take, List.length_nil] at this
      cases rest with
      | nil => exact .inl rfl
      | cons b rest => right; simp only [List.length_cons] at this; omega

theorem readLimit_failed {outcome : Outcome} {limit : Nat} {rest left : Bytes} {r : Result Bytes}
    (h : readLimit outcome limit rest = (r, left)) (hr : ∀ bytes, r ≠ .ok bytes) : left = rest := by
  cases outcome with
  | interrupted => simp only [readLimit, sysRead, Prod.mk.injEq] at h; exact h.2.symm
  | failed => simp only [readLimit, sysRead, Prod.mk.injEq] at h; exact h.2.symm
  | transfer count =>
    simp only [readLimit, sysRead, Prod.mk.injEq] at h
    exact absurd h.1.symm (hr _)

/-- What is read by any sequence of operations is the contents of the file in order: nothing is lost or read twice, if no
call fails. -/
theorem c79_readings {operations : List Reading} {outcomes : List Outcome} {rest left : Bytes}
    {results : List (Result Bytes)} (hn : NoFailure outcomes)
    (h : readings operations outcomes rest = some (results, left)) : gotten results ++ left = rest := by
  induction operations generalizing outcomes rest results with
  | nil =>
    simp only [readings, Option.some.injEq, Prod.mk.injEq] at h
    obtain ⟨rfl, rfl⟩ := h
    rfl
  | cons o operations ih =>
    cases o with
    | all =>
      simp only [readings, Option.bind_eq_some_iff, Option.map_eq_some_iff] at h
      obtain ⟨⟨r, rest', more⟩, h1, ⟨rs, left'⟩, h2, h3⟩ := h
      simp only [Prod.mk.injEq] at h3
      obtain ⟨rfl, rfl⟩ := h3
      obtain ⟨rfl, rfl⟩ := c79_read hn h1
      have hs := (readToEnd_spec h1).1
      have := ih (fun hf => hn (hs.subset hf)) h2
      rw [gotten, List.append_assoc, this, List.append_nil]
    | limit count =>
      cases outcomes with
      | nil => simp [readings] at h
      | cons outcome outcomes =>
        simp only [readings, Option.map_eq_some_iff] at h
        obtain ⟨⟨rs, left'⟩, h2, h3⟩ := h
        simp only [Prod.mk.injEq] at h3
        obtain ⟨rfl, rfl⟩ := h3
        have := ih (fun hf => hn (List.mem_cons_of_mem _ hf)) h2
        rcases hr : readLimit outcome count rest with ⟨r, rest'⟩
        rw [hr] at this
        cases r with
        | ok bytes =>
          rw [gotten, List.append_assoc, this, (c79_read_limit hr).1]
        | interrupted =>
          rw [gotten, this, readLimit_failed hr (by simp)]
          simp
        | failed =>
          rw [gotten, this, readLimit_failed hr (by simp)]
          simp

/-! ### Writing -/

/-- What is written is the beginning of the data, as long as the result says, and at least one byte if there is one. -/
theorem c79_write {outcome : Outcome} {data contents contents' : Bytes} {r : Result Nat}
    (h : write outcome data contents = (r, contents')) :
    (∀ count, r = .ok count → contents' = contents ++ data.take count ∧ count ≤ data.length ∧ (data ≠ [] → 0 < count)) ∧
    ((∀ count, r ≠ .ok count) → contents' = contents) := by
  cases outcome with
  | transfer n =>
    simp only [write, sysWrite, Prod.mk.injEq] at h
    obtain ⟨rfl, rfl⟩ := h
    refine ⟨fun count hc => ?_, fun hc => absurd rfl (hc _)⟩
    simp only [Result.ok.injEq] at hc
    subst hc
    refine ⟨rfl, Nat.min_le_right _ _, fun hd => ?_⟩
    have := List.length_pos_iff.mpr hd
    omega
  | interrupted => simp only [write, sysWrite, Prod.mk.injEq] at h; obtain ⟨rfl, rfl⟩ := h; simp
  | failed => simp only [write, sysWrite, Prod.mk.injEq] at h; obtain ⟨rfl, rfl⟩ := h; simp

/-- A program that writes the rest again until nothing is left writes the data, once. -/
theorem c79_write_all {outcomes : List Outcome} {data contents contents' : Bytes}
    (h : writeAll outcomes data contents = some contents') : contents' = contents ++ data := by
  induction outcomes generalizing data contents with
  | nil =>
    cases data with
    | nil => simp only [writeAll, Option.some.injEq] at h; simp [h]
    | cons b data => simp [writeAll] at h
  | cons o outcomes ih =>
    cases data with
    | nil => simp only [writeAll, Option.some.injEq] at h; simp [h]
    | cons b data =>
      unfold writeAll at h
      rcases hw : write o (b :: data) contents with ⟨r, c⟩
      rw [hw] at h
      cases r with
      | ok count =>
        obtain ⟨h1, _, _⟩ := (c79_write hw).1 count rfl
        rw [ih h, h1, List.append_assoc, List.take_append_drop]
      | interrupted => rw [ih h, (c79_write hw).2 (by simp)]
      | failed => simp at h

/-! ### Opening -/

/-- A file that is opened for reading exists, is not changed, and cannot be written. -/
theorem c79_open (file : Option Bytes) :
    openFile openForReading file = file.map fun contents => (⟨true, false, false⟩, contents) := by
  cases file <;> rfl

/-- A file that has to be new is never one that exists; a file that exists keeps its contents unless it is to be truncated;
one that does not is made, empty, if it is to be created; accesses are those of the options, and no options that change a
file are accepted without access to write. -/
theorem c79_options {o : Options} {file : Option Bytes} {access : Access} {contents : Bytes}
    (h : openFile o file = some (access, contents)) :
    (o.createNew = true → file = none) ∧
    (∀ old, file = some old → contents = if o.truncate then [] else old) ∧
    (file = none → contents = [] ∧ (o.create = true ∨ o.createNew = true)) ∧
    access = ⟨o.read, o.write || o.append, o.append⟩ ∧
    (access.read = true ∨ access.write = true) ∧
    (access.write = false → file = some contents) := by
  obtain ⟨a, c, n, r, t, w⟩ := o
  unfold openFile at h
  cases file with
  | none =>
    cases a <;> cases c <;> cases n <;> cases r <;> cases t <;> cases w <;>
      simp_all <;> (obtain ⟨rfl, rfl⟩ := h; simp)
  | some old =>
    cases a <;> cases c <;> cases n <;> cases r <;> cases t <;> cases w <;>
      simp_all <;> (obtain ⟨rfl, rfl⟩ := h; simp)

/-! ### Counterexamples and examples -/

/-- Writing data may write only some of it. -/
theorem c79_partial_writes : write (.transfer 1) [1, 2, 3] [] = (.ok 2, [1, 2]) := by decide +kernel

/-- What was read before a call failed is lost: the program gets an error, and the rest afterwards. -/
theorem c79_failed_reads_lose :
    readings [.all, .all] [.transfer 1, .failed, .transfer 5, .transfer 5] [1, 2, 3] = some ([.failed, .ok [3]], []) := by
  decide +kernel

/-- A file opened to be appended to and truncated is refused. -/
theorem c79_append_and_truncate (file : Option Bytes) :
    openFile ⟨true, true, false, false, true, true⟩ file = none := by cases file <;> rfl

example : readings [.limit 2, .limit 5, .all] [.transfer 7, .interrupted, .transfer 0, .interrupted, .transfer 9, .transfer 0]
    [1, 2, 3, 4] = some ([.ok [1, 2], .interrupted, .ok [3, 4]], []) := by decide +kernel

example : NoFailure [.transfer 7, .interrupted, .transfer 0] := by decide +kernel

example : writeAll [.transfer 1, .interrupted, .transfer 8] [1, 2, 3] [0] = some [0, 1, 2, 3] := by decide +kernel

end Verif.Pkg.FileIo
