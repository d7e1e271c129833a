import Verif.Pkg.Flag
/-!
# C42: command-line flags

Specification: a list of named flags is written as `-key value …`; the arguments are such a list,
followed by `--` and the positional arguments, or by positional arguments whose first does not start
with `-`.
-/
namespace Verif.Pkg.Flag

/-- The arguments that spell a list of named flags. -/
def spell (fs : List (Bytes × Bytes)) : List Bytes := fs.flatMap (fun f => [45 :: f.1, f.2])

/-- No flag is spelled like the separator. -/
def Keys (fs : List (Bytes × Bytes)) : Prop := ∀ f ∈ fs, f.1 ≠ [45]

/-- The last value of a key. -/
def last (fs : List (Bytes × Bytes)) (k : Bytes) : Option Bytes :=
  (fs.reverse.find? (fun f => f.1 == k)).map (·.2)

/-- Arguments after the named flags that are all positional. -/
def Ends (rest pos : List Bytes) : Prop :=
  rest = [45, 45] :: pos ∨ (rest = pos ∧ ∀ s, pos.head? = some s → ¬ [45] <+: s)

/-- Strings have sizes a computer can represent. -/
def Sized (ss : List Bytes) : Prop := ∀ s ∈ ss, s.length < Num.usizeMax

theorem key_slice (s : Bytes) (h : s.length < Num.usizeMax) :
    byteSlice s ((byteLength dash).add (.nat 1)) .posInf = some (s.drop 1) := by
  have e : (byteLength dash).add (.nat 1) = .fin 2 := by decide +kernel
  rw [e, c43_slice s h 2 (by decide) .posInf (by simp)]
  have e2 : (2 : Rat).floor.toNat = 2 := by decide +kernel
  rw [e2, Num.position, between_eq, List.take_of_length_le]
  simp

theorem starts_dash (s : Bytes) : startsWith s dash = true ↔ ∃ k, s = 45 :: k := by
  rw [c43_starts_with]
  constructor
  · rintro ⟨k, h⟩; exact ⟨k, h.symm⟩
  · rintro ⟨k, h⟩; exact ⟨k, h.symm⟩

/-- Named flags are added to the map one after another. -/
def addAll (m : Bytes → Option Bytes) (fs : List (Bytes × Bytes)) : Bytes → Option Bytes :=
  fs.foldl (fun m f => insert m f.1 f.2) m

theorem addAll_get (fs : List (Bytes × Bytes)) (m : Bytes → Option Bytes) (k : Bytes) :
    addAll m fs k = (last fs k).or (m k) := by
  induction fs generalizing m with
  | nil => simp [addAll, last]
  | cons f fs ih =>
    have : addAll m (f :: fs) = addAll (insert m f.1 f.2) fs := rfl
    rw [this, ih]
    unfold last insert
    rw [List.reverse_cons, List.find?_append]
    by_cases h : k = f.1
    · subst h
      cases hl : List.find? (fun g => g.1 == f.1) fs.reverse <;> simp
    · cases hl : List.find? (fun g => g.1 == k) fs.reverse <;> simp [h, show ¬ f.1 = k from fun e => h e.symm]

theorem parse_spell (fs : List (Bytes × Bytes)) (rest : List Bytes) (m : Bytes → Option Bytes) (hk : Keys fs)
    (hs : Sized (spell fs)) : parse (spell fs ++ rest) m = parse rest (addAll m fs) := by
  induction fs generalizing m with
  | nil => rfl
  | cons f fs ih =>
    obtain ⟨k, v⟩ := f
    have e : spell ((k, v) :: fs) ++ rest = (45 :: k) :: v :: (spell fs ++ rest) := by simp [spell]
    rw [e, parse, if_neg (by intro h; exact hk (k, v) (by simp) (List.cons.inj h).2),
      if_pos ((starts_dash _).mpr ⟨k, rfl⟩)]
    rw [key_slice _ (hs _ (by simp [spell]))]
    simp only [List.drop_one, List.tail_cons]
    rw [ih _ (fun f hf => hk f (by simp [hf])) (fun s h => hs s (by simp only [spell] at h ⊢; rw [List.flatMap_cons]; simp [h]))]
    rfl

/-- How every list of arguments is divided. -/
theorem divide (n : Nat) : ∀ ss : List Bytes, ss.length ≤ n → ∃ fs, Keys fs ∧
    ((∃ rest pos, ss = spell fs ++ rest ∧ Ends rest pos) ∨ (∃ k, k ≠ [45] ∧ ss = spell fs ++ [45 :: k])) := by
  induction n with
  | zero =>
    intro ss h
    rw [List.length_eq_zero_iff.mp (Nat.le_zero.mp h)]
    exact ⟨[], by simp [Keys], Or.inl ⟨[], [], rfl, Or.inr ⟨rfl, by simp⟩⟩⟩
  | succ n ih =>
    intro ss h
    cases ss with
    | nil => exact ⟨[], by simp [Keys], Or.inl ⟨[], [], rfl, Or.inr ⟨rfl, by simp⟩⟩⟩
    | cons s ss =>
      by_cases h1 : s = [45, 45]
      · exact ⟨[], by simp [Keys], Or.inl ⟨s :: ss, ss, rfl, Or.inl (by rw [h1])⟩⟩
      · by_cases h2 : ∃ k, s = 45 :: k
        · obtain ⟨k, rfl⟩ := h2
          have hk : k ≠ [45] := fun e => h1 (by rw [e])
          cases ss with
          | nil => exact ⟨[], by simp [Keys], Or.inr ⟨k, hk, rfl⟩⟩
          | cons v ss =>
            obtain ⟨fs, hf, h⟩ := ih ss (by simp only [List.length_cons] at h; omega)
            refine ⟨(k, v) :: fs, ?_, ?_⟩
            · intro f hm
              rcases List.mem_cons.mp hm with rfl | hm
              · exact hk
              · exact hf f hm
            · rcases h with ⟨rest, pos, e, he⟩ | ⟨k', hk', e⟩
              · exact Or.inl ⟨rest, pos, by rw [e]; simp [spell], he⟩
              · exact Or.inr ⟨k', hk', by rw [e]; simp [spell]⟩
        · refine ⟨[], by simp [Keys], Or.inl ⟨s :: ss, s :: ss, rfl, Or.inr ⟨rfl, ?_⟩⟩⟩
          rintro s' hs' ⟨k, hp⟩
          cases hs'
          exact h2 ⟨k, hp.symm⟩

theorem parse_ends (rest pos : List Bytes) (m : Bytes → Option Bytes) (h : Ends rest pos) :
    parse rest m = .set { named := m, positional := pos } := by
  rcases h with rfl | ⟨rfl, h⟩
  · rw [parse.eq_def]; simp only; rw [if_pos (by rfl)]
  · cases rest with
    | nil => rw [parse]
    | cons s ss =>
      have hs := h s rfl
      rw [parse.eq_def]; simp only; rw [if_neg, if_neg]
      · rw [starts_dash]; rintro ⟨k, rfl⟩; exact hs ⟨k, rfl⟩
      · rintro rfl; exact hs ⟨[45], rfl⟩

theorem spell_unique (fs fs' : List (Bytes × Bytes)) (rest rest' pos pos' : List Bytes) (hk : Keys fs) (hk' : Keys fs')
    (h : Ends rest pos) (h' : Ends rest' pos') (e : spell fs ++ rest = spell fs' ++ rest') : fs = fs' ∧ pos = pos' := by
  have no : ∀ {k : Bytes} {x rest pos : List Bytes}, k ≠ [45] → Ends rest pos → rest ≠ (45 :: k) :: x := by
    intro k x rest pos hk h e
    rcases h with h | ⟨rfl, h⟩
    · rw [h] at e; cases e; exact hk rfl
    · rw [e] at h; exact h _ rfl ⟨k, rfl⟩
  induction fs generalizing fs' with
  | nil =>
    cases fs' with
    | nil =>
      simp only [spell, List.flatMap_nil, List.nil_append] at e
      subst e
      refine ⟨rfl, ?_⟩
      rcases h with h | ⟨rfl, h⟩ <;> rcases h' with h' | ⟨rfl, h'⟩
      · rw [h] at h'; exact (List.cons.inj h').2
      · rw [h] at h'; exact absurd ⟨[45], rfl⟩ (h' _ rfl)
      · rw [h'] at h; exact absurd ⟨[45], rfl⟩ (h _ rfl)
      · rfl
    | cons f fs' =>
      exfalso
      exact no (hk' f (by simp)) h (x := f.2 :: (spell fs' ++ rest')) (by simpa [spell] using e)
  | cons f fs ih =>
    cases fs' with
    | nil =>
      exfalso
      exact no (hk f (by simp)) h' (x := f.2 :: (spell fs ++ rest)) (by simpa [spell] using e.symm)
    | cons f' fs' =>
      have e' : (45 :: f.1) :: f.2 :: (spell fs ++ rest) = (45 :: f'.1) :: f'.2 :: (spell fs' ++ rest') := by
        simpa [spell] using e
      simp only [List.cons.injEq, true_and] at e'
      obtain ⟨e1, e2, e3⟩ := e'
      obtain ⟨h1, h2⟩ := ih fs' (fun f hf => hk f (by simp [hf])) (fun f hf => hk' f (by simp [hf])) e3
      exact ⟨by rw [h1]; congr 1; exact Prod.ext e1 e2, h2⟩

theorem error_unique (fs fs' : List (Bytes × Bytes)) (rest pos : List Bytes) (k : Bytes) (hk : Keys fs) (hk' : Keys fs')
    (h : Ends rest pos) (hk2 : k ≠ [45]) (e : spell fs ++ rest = spell fs' ++ [45 :: k]) : False := by
  have no : ∀ {k : Bytes} {x rest pos : List Bytes}, k ≠ [45] → Ends rest pos → rest ≠ (45 :: k) :: x := by
    intro k x rest pos hk h e
    rcases h with h | ⟨rfl, h⟩
    · rw [h] at e; cases e; exact hk rfl
    · rw [e] at h; exact h _ rfl ⟨k, rfl⟩
  induction fs generalizing fs' with
  | nil =>
    cases fs' with
    | nil => exact no hk2 h (x := []) (by simpa [spell] using e)
    | cons f fs' => exact no (hk' f (by simp)) h (x := f.2 :: (spell fs' ++ [45 :: k])) (by simpa [spell] using e)
  | cons f fs ih =>
    cases fs' with
    | nil =>
      have e' : (45 :: f.1) :: f.2 :: (spell fs ++ rest) = [45 :: k] := by simpa [spell] using e
      simp at e'
    | cons f' fs' =>
      have e' : (45 :: f.1) :: f.2 :: (spell fs ++ rest) = (45 :: f'.1) :: f'.2 :: (spell fs' ++ [45 :: k]) := by
        simpa [spell] using e
      simp only [List.cons.injEq, true_and] at e'
      exact ih fs' (fun f hf => hk f (by simp [hf])) (fun f hf => hk' f (by simp [hf])) e'.2.2

theorem sized_left {a b : List Bytes} (h : Sized (a ++ b)) : Sized a := fun s hs => h s (by simp [hs])

/-- C42: parsing returns a set exactly when the arguments are named flags followed by positional
arguments; the set has the last value of every named flag and the positional arguments in order. -/
theorem c42_parse_iff (ss : List Bytes) (hs : Sized ss) (r : FlagSet) :
    Parse ss = .set r ↔ ∃ fs rest, Keys fs ∧ ss = spell fs ++ rest ∧ Ends rest r.positional ∧ r.named = last fs := by
  constructor
  · intro h
    obtain ⟨fs, hk, ⟨rest, pos, rfl, he⟩ | ⟨k, hk', rfl⟩⟩ := divide _ ss (Nat.le_refl _)
    · rw [Parse, parse_spell _ _ _ hk (sized_left hs), parse_ends _ _ _ he] at h
      cases h
      refine ⟨fs, rest, hk, rfl, he, ?_⟩
      funext k; simp only [addAll_get]; simp
    · rw [Parse, parse_spell _ _ _ hk (sized_left hs), parse, if_neg, if_pos ((starts_dash _).mpr ⟨k, rfl⟩)] at h
      · simp at h
      · intro e; exact hk' (List.cons.inj e).2
  · rintro ⟨fs, rest, hk, rfl, he, hn⟩
    rw [Parse, parse_spell _ _ _ hk (sized_left hs), parse_ends _ _ _ he]
    congr 1
    have : addAll (fun _ => none) fs = r.named := by funext k; rw [addAll_get, hn]; simp
    rw [this]

/-- C42: parsing fails exactly when the arguments end with a named flag without a value. -/
theorem c42_error_iff (ss : List Bytes) (hs : Sized ss) :
    Parse ss = .error ↔ ∃ fs k, Keys fs ∧ k ≠ [45] ∧ ss = spell fs ++ [45 :: k] := by
  constructor
  · intro h
    obtain ⟨fs, hk, ⟨rest, pos, rfl, he⟩ | ⟨k, hk', rfl⟩⟩ := divide _ ss (Nat.le_refl _)
    · rw [Parse, parse_spell _ _ _ hk (sized_left hs), parse_ends _ _ _ he] at h
      cases h
    · exact ⟨fs, k, hk, hk', rfl⟩
  · rintro ⟨fs, k, hk, hk', rfl⟩
    rw [Parse, parse_spell _ _ _ hk (sized_left hs), parse, if_neg, if_pos ((starts_dash _).mpr ⟨k, rfl⟩)]
    intro e; exact hk' (List.cons.inj e).2

/-- C42: parsing never panics. -/
theorem c42_no_panic (ss : List Bytes) (hs : Sized ss) : Parse ss ≠ .panic := by
  obtain ⟨fs, hk, ⟨rest, pos, rfl, he⟩ | ⟨k, hk', rfl⟩⟩ := divide _ ss (Nat.le_refl _)
  · rw [Parse, parse_spell _ _ _ hk (sized_left hs), parse_ends _ _ _ he]; simp
  · rw [(c42_error_iff _ hs).mpr ⟨fs, k, hk, hk', rfl⟩]; simp

/-- C42: the division into named flags and positional arguments is unique, so the statement of
`c42_parse_iff` determines the result. -/
theorem c42_unique (fs fs' : List (Bytes × Bytes)) (rest rest' pos pos' : List Bytes) (hk : Keys fs) (hk' : Keys fs')
    (h : Ends rest pos) (h' : Ends rest' pos') (e : spell fs ++ rest = spell fs' ++ rest') : fs = fs' ∧ pos = pos' :=
  spell_unique fs fs' rest rest' pos pos' hk hk' h h' e

/-- `-a 1 -a 2 -b -- x -c`: the value of `b` is `--`, `a` is `2`, and `x`, `-c` are positional. -/
example : ∃ r, Parse [[45, 97], [49], [45, 97], [50], [45, 98], [45, 45], [120], [45, 99]] = .set r ∧
    r.named [97] = some [50] ∧ r.named [98] = some [45, 45] ∧ r.positional = [[120], [45, 99]] := by
  refine ⟨{ named := last [([97], [49]), ([97], [50]), ([98], [45, 45])], positional := [[120], [45, 99]] }, ?_, ?_⟩
  · refine (c42_parse_iff _ ?_ _).mpr ⟨[([97], [49]), ([97], [50]), ([98], [45, 45])], [[120], [45, 99]], ?_, rfl, ?_, rfl⟩
    · intro s hs
      simp only [List.mem_cons, List.not_mem_nil, or_false] at hs
      rcases hs with rfl | rfl | rfl | rfl | rfl | rfl | rfl | rfl <;> decide
    · unfold Keys; decide
    · exact Or.inr ⟨rfl, by rintro s hs ⟨k, hp⟩; cases hs; cases hp⟩
  · decide

example : Parse [[45, 97]] = .error := by
  refine (c42_error_iff _ ?_).mpr ⟨[], [97], by simp [Keys], by decide, rfl⟩
  intro s hs
  simp only [List.mem_cons, List.not_mem_nil, or_false] at hs
  subst hs; decide

end Verif.Pkg.Flag
