import Verif.Hir.HashTheorem
import Verif.Hir.EqualityProperties

/-!
# C56: keys that are the same have the same hash

The specification is `Same` of `Hir/EqualitySpec.lean`, which C52 shows `==` to be.
-/

namespace Verif.Hir

open Verif.Res

section
variable {K : HashNames} {a n : Nat} {external : String → Bool} {m m' : Module} {W : World} {c : Ty} {v w : Val}

/-- The functions that hash keys of maps and elements of lists, which collections keep as values of the type `any`, result in
a number for every value of the type, and in the same number for values that are the same, whenever they are called.
Nothing else happens but calls of other functions that calculate hashes. Values without lists, maps, functions and errors,
and modules in which no field of a record is of a type written as a union that denotes a type that is not a union. -/
theorem c56_same_values_have_the_same_hash_partial (hm : addHashFunctions K a external m = .ok m') (hk : HashNamesOk K)
    (hnames : ∀ x fs, m.ctx.records x = some fs → (fs.map (·.name)).Nodup)
    (hcan : ∀ x fs, m.ctx.records x = some fs → ∀ f ∈ fs, ∃ c, Canon m.ctx.types f.type c)
    (hdeg : ∀ x fs, m.ctx.records x = some fs → ∀ f ∈ fs, ¬ Degenerate m.ctx.types f.type)
    (hfresh : ∀ x, ∀ d ∈ m.definitions, d.name ≠ hashFunctionName x)
    (himp : Imported m K.numberHash ∧ Imported m K.stringHash ∧ Imported m K.combine)
    (hW : HashesExternals W m.ctx K external)
    (hc : canonicalize a m.ctx.types c = .ok c) {d : Definition}
    (hd : elementHashDefinition K a m.ctx.types m.ctx.records c = .ok d)
    (hv : Tagged m.ctx v c) (hw : Tagged m.ctx w c) (fv : FlatValue v) (fw : FlatValue w)
    (hn : sizeOf v ≤ n) (hn' : sizeOf w ≤ n) (log log' : Log) :
    ∃ h h' log₁ log₁',
      (evaluator W m' a (n + 2)).apply (.closure (fun _ => none) (d.params.map (·.1)) d.body) [v] log = .val (.number h) log₁ ∧
      (evaluator W m' a (n + 2)).apply (.closure (fun _ => none) (d.params.map (·.1)) d.body) [w] log' =
        .val (.number h') log₁' ∧
      (Same W m.ctx v w → h = h') ∧ OnlyHashes K external log log₁ ∧ OnlyHashes K external log' log₁' := by
  have ha : a ≠ 0 := by rintro rfl; cases hc
  have hctx := addHashFunctions_ctx hm
  have hcan' := (Canon.of_ok hc).self
  unfold elementHashDefinition at hd
  obtain ⟨e, h1, hd⟩ := bind_eq_ok.mp hd
  cases hd
  have hany : c ≠ .any := by
    rintro rfl
    obtain ⟨b, rfl⟩ := Nat.exists_eq_succ_of_ne_zero ha
    cases h1
  have hnd : ¬ Degenerate m.ctx.types c := by
    intro h
    cases h with
    | union g1 g2 => exact g2 _ _ (hcan'.det g1).symm
    | reference _ _ => cases hcan'.noReference
  cases hv with
  | @mk tag p _ hp1 hp2 hp3 hp4 =>
  cases hw with
  | @mk tag' p' _ hq1 hq2 hq3 hq4 =>
  have hp1 := hp1.resolve_left hany
  have hq1 := hq1.resolve_left hany
  have fp : FlatValue p := by cases fv; assumption
  have fp' : FlatValue p' := by cases fw; assumption
  have rep : ∀ tag p, tag ∈ unionMembers c → tag ≠ .any → NotUnion tag → Represents m.ctx p tag → FlatValue p →
      Represents m.ctx (alternativeValue c tag p) c ∧ FlatValue (alternativeValue c tag p) ∧
        sizeOf (alternativeValue c tag p) ≤ sizeOf (Val.variant tag p) := by
    intro tag p h1 h2 h3 h4 h5
    by_cases hu : ∃ t u, c = .union t u
    · obtain ⟨t, u, rfl⟩ := hu
      exact ⟨.union (.mk (Or.inr h1) h2 h3 h4), .variant h5, Nat.le_refl _⟩
    · have hnu : NotUnion c := fun t u h => hu ⟨t, u, h⟩
      rw [unionMembers_of_notUnion hnu, List.mem_singleton] at h1
      subst h1
      have : alternativeValue tag tag p = p := by
        unfold alternativeValue
        split
        · exact absurd rfl (hnu _ _)
        · rfl
      rw [this]
      exact ⟨h4, h5, by simp⟩
  have same : Same W m.ctx (.variant tag p) (.variant tag' p') →
      Same W m.ctx (alternativeValue c tag p) (alternativeValue c tag' p') := by
    intro h
    by_cases hu : ∃ t u, c = .union t u
    · obtain ⟨t, u, rfl⟩ := hu
      exact h
    · have hnu : NotUnion c := fun t u h => hu ⟨t, u, h⟩
      have : ∀ tag p, alternativeValue c tag p = p := by
        intro tag p
        unfold alternativeValue
        split
        · exact absurd rfl (hnu _ _)
        · rfl
      rw [this, this]
      cases h
      assumption
  obtain ⟨r1, r2, r3⟩ := rep tag p hp1 hp2 hp3 hp4 fp
  obtain ⟨r1', r2', r3'⟩ := rep tag' p' hq1 hq2 hq3 hq4 fp'
  have hempty : HashEnv K (fun _ => none) := ⟨rfl, rfl, rfl, fun _ => rfl⟩
  obtain ⟨h, h', log₁, log₁', g1, g2, g3, g4, g5⟩ := hashes hm ha hk hnames hcan hdeg hfresh himp hW n
    (alternativeValue c tag p) (alternativeValue c tag' p') (by omega) (by omega) n (Nat.le_refl n) a c c (.variable "$x") e
    ((Env.insert (fun _ => none) "$x" (.variant tag p)).insert "$x" (alternativeValue c tag p))
    ((Env.insert (fun _ => none) "$x" (.variant tag' p')).insert "$x" (alternativeValue c tag' p'))
    hcan' hnd r1 r1' r2 r2' h1 ((hempty.insert hk (Or.inl rfl)).insert hk (Or.inl rfl))
    ((hempty.insert hk (Or.inl rfl)).insert hk (Or.inl rfl))
    (fun log => eval_variable (by simp [Env.insert])) (fun log => eval_variable (by simp [Env.insert])) log log'
  refine ⟨h, h', log₁, log₁', ?_, ?_, fun h => g3 (same h), g4, g5⟩
  · have he : (evaluator W m' a (n + 1)).eval (Env.insert (fun _ => none) "$x" (.variant tag p))
        (.ifType "$x" (.variable "$x") [(c, e)] none) log = .val (.number h) log₁ := by
      rw [eval_ifType (eval_variable (v := .variant tag p) (by simp [Env.insert])),
        alternatives_match (by rw [hctx]; exact hc) hp1]
      exact g1
    rw [apply_closure (by simp)]
    show Out.absorb ((evaluator W m' a (n + 1)).eval (Env.insert (fun _ => none) "$x" (.variant tag p))
        (.ifType "$x" (.variable "$x") [(c, e)] none)) log = _
    unfold Out.absorb
    rw [he]
  · have he : (evaluator W m' a (n + 1)).eval (Env.insert (fun _ => none) "$x" (.variant tag' p'))
        (.ifType "$x" (.variable "$x") [(c, e)] none) log' = .val (.number h') log₁' := by
      rw [eval_ifType (eval_variable (v := .variant tag' p') (by simp [Env.insert])),
        alternatives_match (by rw [hctx]; exact hc) hq1]
      exact g2
    rw [apply_closure (by simp)]
    show Out.absorb ((evaluator W m' a (n + 1)).eval (Env.insert (fun _ => none) "$x" (.variant tag' p'))
        (.ifType "$x" (.variable "$x") [(c, e)] none)) log' = _
    unfold Out.absorb
    rw [he]

end

/-! ## A program the property applies to -/

/-- Some names. -/
def exampleHashNames : HashNames :=
  ⟨"_list", "_hash_list", "_map", "_context", "_hash_map", "_hash_number", "_hash_string", "_combine", fun _ => "hir:hash",
    fun _ _ => "hir:context", fun _ => 42, 0, 1, 2⟩

/-- The module of C52 with functions of the prelude. -/
def hashing : Module where
  types := comparing.types
  declarations := [("_hash_number", ([.number], .number)), ("_hash_string", ([.string], .number)),
    ("_combine", ([.number, .number], .number))]
  definitions := []

/-- Hash functions of the prelude and of the other module. -/
def hashingCall (x : String) (vs : List Val) : Val :=
  if x = "_hash_number" then
    match vs with
    | [.number i] => .number (i + 1)
    | _ => .none
  else if x = "_hash_string" then
    match vs with
    | [.string s] => .number s.length.toUInt64
    | _ => .none
  else if x = "_combine" then
    match vs with
    | [.number i, .number j] => .number (31 * i + j)
    | _ => .none
  else if x = "q.$hash" then
    match vs with
    | [.record _ fs] =>
      match lookupField fs "c" with
      | some (.string s) => .number s.length.toUInt64
      | _ => .none
    | _ => .none
  else .none

/-- A world with them. -/
def hashingWorld : World := { exampleWorld with call := fun _ x vs => hashingCall x vs }

/-- The module with the functions of `lib/hir-mir/src/transformation/record_hash_function.rs`. -/
def hashing' : Module :=
  match addHashFunctions exampleHashNames 10 qIsExternal hashing with
  | .ok m => m
  | _ => hashing

theorem hashing_ok : addHashFunctions exampleHashNames 10 qIsExternal hashing = .ok hashing' := by
  have h : (match addHashFunctions exampleHashNames 10 qIsExternal hashing with
    | .ok _ => true
    | _ => false) = true := by decide +kernel
  unfold hashing'
  split at h
  · rename_i h'; rw [h']
  · cases h

theorem exampleHashNames_ok : HashNamesOk exampleHashNames := by
  refine ⟨fun x hx => ?_⟩
  simp only [exampleHashNames, List.mem_cons, List.not_mem_nil, or_false] at hx
  have h : ∀ n, x.toList.getLast? ≠ some 'h' ∨ ¬ ('$' ∈ x.toList) → x ≠ hashFunctionName n := by
    rintro n h rfl
    simp [hashFunctionName, String.toList_append] at h
  rcases hx with rfl | rfl | rfl <;> exact ⟨by decide, by decide, fun n => h n (by decide)⟩

theorem hashing_ctx : hashing.ctx = comparing.ctx := rfl

theorem hashingWorld_hashes : HashesExternals hashingWorld comparing.ctx exampleHashNames qIsExternal where
  number := by
    refine ⟨fun i => i + 1, ?_, fun _ _ => rfl⟩
    intro i j h
    have : i = j := by simpa [hashingWorld, exampleWorld] using h
    rw [this]
  string := ⟨fun s => s.length.toUInt64, fun _ _ => rfl⟩
  combine := ⟨fun i j => 31 * i + j, fun _ _ _ => rfl⟩
  record := by
    intro x hx log log' v w hv hw fv fw
    have hx : x = "q" := by simpa [qIsExternal] using hx
    subst hx
    have hc : FieldTy comparing.ctx "q" "c" .string := ⟨[⟨"c", .string⟩], .string, by decide +kernel, rfl, canon_string⟩
    cases hv with
    | @record _ vs a1 a2 =>
    cases hw with
    | @record _ ws b1 b2 =>
    obtain ⟨v, hv⟩ := Option.isSome_iff_exists.mp (a1 _ _ hc)
    obtain ⟨w, hw⟩ := Option.isSome_iff_exists.mp (b1 _ _ hc)
    have rv := a2 _ _ _ hc hv
    have rw' := b2 _ _ _ hc hw
    cases rv with
    | string s =>
    cases rw' with
    | string s' =>
    refine ⟨s.length.toUInt64, s'.length.toUInt64, ?_, ?_, ?_⟩
    · simp [hashingWorld, hashingCall, hashFunctionName, hv]
    · simp [hashingWorld, hashingCall, hashFunctionName, hw]
    · intro h
      cases h with
      | record _ _ h =>
        cases h "c" _ _ _ hc hv hw
        rfl

/-- Keys of the type `p | none`. -/
example (i j : UInt64) (s t : List UInt8) (log log' : Log) :
    ∃ d h h' log₁ log₁', elementHashDefinition exampleHashNames 10 hashing.ctx.types hashing.ctx.records
        (.union .none (.record "p")) = .ok d ∧
      (evaluator hashingWorld hashing' 10 (max (sizeOf (Val.variant (.record "p") (valueP i s)))
          (sizeOf (Val.variant (.record "p") (valueP j t))) + 2)).apply
        (.closure (fun _ => none) (d.params.map (·.1)) d.body) [.variant (.record "p") (valueP i s)] log =
          .val (.number h) log₁ ∧
      (evaluator hashingWorld hashing' 10 (max (sizeOf (Val.variant (.record "p") (valueP i s)))
          (sizeOf (Val.variant (.record "p") (valueP j t))) + 2)).apply
        (.closure (fun _ => none) (d.params.map (·.1)) d.body) [.variant (.record "p") (valueP j t)] log' =
          .val (.number h') log₁' := by
  have tagged : ∀ i s, Tagged hashing.ctx (.variant (.record "p") (valueP i s)) (.union .none (.record "p")) := fun i s =>
    .mk (Or.inr (by simp [unionMembers])) (by simp) (fun _ _ h => by cases h) (hashing_ctx ▸ valueP_represents i s)
  obtain ⟨h, h', log₁, log₁', h1, h2, _⟩ := c56_same_values_have_the_same_hash_partial (W := hashingWorld) (c := .union .none (.record "p"))
    (n := max (sizeOf (Val.variant (.record "p") (valueP i s))) (sizeOf (Val.variant (.record "p") (valueP j t))))
    hashing_ok exampleHashNames_ok
    (by
      intro x fs h
      rcases comparing_records (hashing_ctx ▸ h) with ⟨_, rfl⟩ | ⟨_, rfl⟩ <;> decide)
    (by
      intro x fs h f hf
      rcases comparing_records (hashing_ctx ▸ h) with ⟨_, rfl⟩ | ⟨_, rfl⟩
      · simp only [List.mem_singleton] at hf
        subst hf
        exact ⟨_, canon_string⟩
      · simp only [List.mem_cons, List.not_mem_nil, or_false] at hf
        rcases hf with rfl | rfl
        · exact ⟨.union .none .number, Canon.of_ok (n := 10) (by decide +kernel)⟩
        · exact ⟨_, canon_record _⟩)
    (by
      intro x fs h f hf hd
      rcases comparing_records (hashing_ctx ▸ h) with ⟨_, rfl⟩ | ⟨_, rfl⟩
      · simp only [List.mem_singleton] at hf
        subst hf
        cases hd
      · simp only [List.mem_cons, List.not_mem_nil, or_false] at hf
        rcases hf with rfl | rfl
        · cases hd with
          | union h1 h2 =>
            have := h1.det (Canon.of_ok (n := 10) (c := .union .none .number) (by decide +kernel))
            exact h2 _ _ this
        · cases hd)
    (by intro x d hd; cases hd)
    (by refine ⟨⟨?_, ?_⟩, ⟨?_, ?_⟩, ⟨?_, ?_⟩⟩ <;> simp [hashing, exampleHashNames])
    hashingWorld_hashes (by decide +kernel) (hd := rfl) (tagged i s) (tagged j t) (.variant (valueP_flat i s)) (.variant (valueP_flat j t))
    (Nat.le_max_left _ _) (Nat.le_max_right _ _) log log'
  exact ⟨_, h, h', log₁, log₁', rfl, h1, h2⟩

/-! ## What is wrong -/

/-- `type r { x number | number }`. -/
def degenerateField : Module where
  types := ⟨[("r", [⟨"x", .union .number .number⟩])], []⟩
  declarations := hashing.declarations
  definitions := []

/-- The restriction of fields is needed: the types of fields are not canonicalized before code is generated for them
(`lib/hir-mir/src/transformation/record_hash_function.rs:141`), unlike where records are compared
(`lib/hir-mir/src/transformation/equal_operation/operation.rs:27-33`). A number is taken to be a variant in the function that
hashes `r`, although `r` is comparable. -/
theorem c56_degenerate_field_goes_wrong (i : UInt64) : ∃ m', addHashFunctions exampleHashNames 10 qIsExternal degenerateField = .ok m' ∧
    comparableCheck 10 degenerateField.ctx.types degenerateField.ctx.records (.record "r") = .ok true ∧
    Represents degenerateField.ctx (.record "r" [("x", .number i)]) (.record "r") ∧
    callFunction hashingWorld m' 10 10 "r.$hash" [.record "r" [("x", .number i)]] [] = .stuck := by
  refine ⟨_, rfl, by decide +kernel, ?_, rfl⟩
  have key : ∀ x c, FieldTy degenerateField.ctx "r" x c → x = "x" ∧ c = .number := by
    rintro x c ⟨fs, t, h1, h2, h3⟩
    have h1 : lastLookup degenerateField.types.records "r" = some fs := h1
    simp [degenerateField, lastLookup] at h1
    subst h1
    obtain ⟨f, hf, rfl, rfl⟩ := fieldType_ok h2
    simp only [List.mem_singleton] at hf
    subst hf
    exact ⟨rfl, h3.det (Canon.of_ok (n := 10) (by decide +kernel))⟩
  refine .record (fun x c h => ?_) fun x c v h hv => ?_
  · obtain ⟨rfl, rfl⟩ := key x c h
    rfl
  · obtain ⟨rfl, rfl⟩ := key x c h
    simp [lookupField] at hv
    subst hv
    exact .number i

end Verif.Hir
