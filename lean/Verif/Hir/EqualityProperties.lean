import Verif.Hir.EqualityTheorem

/-!
# C52: `==` and `!=` compare values structurally

The specification is `Same` of `Hir/EqualitySpec.lean`.
-/

namespace Verif.Hir

open Verif.Res

section
variable {K : EqualNames} {a n : Nat} {external : String → Bool} {m m' : Module} {W : World} {t c : Ty} {l r e : Expr}
variable {env : Env} {log log₁ log₂ : Log} {v w : Val}

/-- What an expression evaluates to does not depend on the variable `$lhs`, which programs cannot mention. -/
def IgnoresLeft (W : World) (m : Module) (a n : Nat) (env : Env) (e : Expr) (log : Log) (v : Val) (log' : Log) : Prop :=
  ∀ env' : Env, (∀ x, x ≠ "$lhs" → env' x = env x) → (evaluator W m a n).eval env' e log = .val v log'

/-- The code `==` and `!=` are compiled to results in whether the values of the operands are the same. Both operands are
evaluated, once and from the left to the right, and nothing else happens but calls of functions that compare records of
other modules; but see `c52_operands_of_none_are_not_evaluated`. Operands without lists, maps, functions and errors. -/
theorem c52_comparison_is_structural_partial (hm : addEqualFunctions K a external m = .ok m')
    (hnames : ∀ x fs, m.ctx.records x = some fs → (fs.map (·.name)).Nodup)
    (hfresh : ∀ x, ∀ d ∈ m.definitions, d.name ≠ equalFunctionName x)
    (hW : ComparesExternals W m.ctx external)
    (hc : canonicalize a m.ctx.types t = .ok c) {op : EqOp}
    (he : lowerEquality K a m.ctx.types m.ctx.records (some t) op l r = .ok e)
    (hv : Represents m.ctx v c) (hw : Represents m.ctx w c) (fv : FlatValue v) (fw : FlatValue w)
    (hn : sizeOf v ≤ n) (henv : ∀ x, env (equalFunctionName x) = none)
    (hl : (evaluator W m' a n).eval env l log = .val v log₁) (hr : IgnoresLeft W m' a n env r log₁ w log₂) :
    ∃ q log', (evaluator W m' a n).eval env e log = .val (.boolean q) log' ∧
      (q = true ↔ match op with | .equal => Same W m.ctx v w | .notEqual => ¬ Same W m.ctx v w) ∧
      OnlyCompares external (if c = .none then log else log₂) log' := by
  have ha : a ≠ 0 := by rintro rfl; cases hc
  unfold lowerEquality at he
  simp only at he
  obtain ⟨e', h1, h2⟩ := bind_eq_ok.mp he
  unfold equalOperation at h1
  obtain ⟨c', hc', h1⟩ := bind_eq_ok.mp h1
  rw [hc] at hc'
  cases hc'
  obtain ⟨q, log', g1, g2, g3⟩ := compares hm ha hnames hfresh hW n v hn n (Nat.le_refl n) a c w l r e' env log log₁ log₂
    (Canon.of_ok hc).self hv hw fv fw h1 henv hl hr
  cases op with
  | equal =>
    cases h2
    exact ⟨q, log', g1, g2, g3⟩
  | notEqual =>
    cases h2
    refine ⟨!q, log', ?_, ?_, g3⟩
    · rw [eval_if g1]
      cases q <;> simp [eval_boolean]
    · simp only
      rw [← g2]
      cases q <;> simp

/-- The functions that compare keys and values of maps and elements of lists, which collections keep as values of the type
`any`, result in whether they are the same. -/
theorem c52_element_comparison_partial (hm : addEqualFunctions K a external m = .ok m')
    (hnames : ∀ x fs, m.ctx.records x = some fs → (fs.map (·.name)).Nodup)
    (hfresh : ∀ x, ∀ d ∈ m.definitions, d.name ≠ equalFunctionName x)
    (hW : ComparesExternals W m.ctx external) {t : Ty} (hc : canonicalize a m.ctx.types t = .ok c)
    (hcc : canonicalize a m.ctx.types c = .ok c) {d : Definition}
    (hd : elementEqualDefinition K a m.ctx.types m.ctx.records c = .ok d)
    (hv : Tagged m.ctx v c) (hw : Tagged m.ctx w c) (fv : FlatValue v) (fw : FlatValue w) (hn : sizeOf v ≤ n) :
    ∃ q log', (evaluator W m' a (n + 1)).apply (.closure (fun _ => none) (d.params.map (·.1)) d.body) [v, w] log =
        .val (.boolean q) log' ∧ (q = true ↔ Same W m.ctx v w) ∧ OnlyCompares external log log' := by
  have ha : a ≠ 0 := by rintro rfl; cases hc
  have hctx := addEqualFunctions_ctx hm
  have hcan := (Canon.of_ok hc).self
  unfold elementEqualDefinition at hd
  obtain ⟨e, h1, hd⟩ := bind_eq_ok.mp hd
  cases hd
  unfold equalOperation at h1
  obtain ⟨c', hc', h1⟩ := bind_eq_ok.mp h1
  rw [hcc] at hc'
  cases hc'
  have hany : c ≠ .any := by
    rintro rfl
    obtain ⟨b, rfl⟩ := Nat.exists_eq_succ_of_ne_zero ha
    cases h1
  cases hv with
  | @mk tag p _ hp1 hp2 hp3 hp4 =>
  cases hw with
  | @mk tag' p' _ hq1 hq2 hq3 hq4 =>
  have hp1 := hp1.resolve_left hany
  have hq1 := hq1.resolve_left hany
  have fp : FlatValue p := by cases fv; assumption
  have fp' : FlatValue p' := by cases fw; assumption
  rw [apply_closure (by simp)]
  have key : ∃ q log', (evaluator W m' a n).eval
      (((Env.insertAll (fun _ => none) (["$lhs", "$rhs"].zip [.variant tag p, .variant tag' p'])).insert "$lhs"
        (alternativeValue c tag p)).insert "$rhs" (alternativeValue c tag' p')) e log = .val (.boolean q) log' ∧
      (q = true ↔ Same W m.ctx (.variant tag p) (.variant tag' p')) ∧ OnlyCompares external log log' := by
    have rep : ∀ tag p, tag ∈ unionMembers c → tag ≠ .any → NotUnion tag → Represents m.ctx p tag → FlatValue p →
        Represents m.ctx (alternativeValue c tag p) c ∧ FlatValue (alternativeValue c tag p) ∧
          sizeOf (alternativeValue c tag p) ≤ sizeOf (Val.variant tag p) := by
      intro tag p h1 h2 h3 h4 h5
      by_cases hu : ∃ t u, c = .union t u
      · obtain ⟨t, u, rfl⟩ := hu
        exact ⟨.union (.mk (Or.inr h1) h2 h3 h4), .variant h5, Nat.le_refl _⟩
      · have hnu : NotUnion c := fun t u h => hu ⟨t, u, h⟩
        rw [unionMembers_of_notUnion hnu, List.mem_singleton] at h1
        subst h1
        have : alternativeValue tag tag p = p := by
          unfold alternativeValue
          split
          · exact absurd rfl (hnu _ _)
          · rfl
        rw [this]
        exact ⟨h4, h5, by simp⟩
    have same : Same W m.ctx (alternativeValue c tag p) (alternativeValue c tag' p') ↔
        Same W m.ctx (.variant tag p) (.variant tag' p') := by
      by_cases hu : ∃ t u, c = .union t u
      · obtain ⟨t, u, rfl⟩ := hu
        exact Iff.rfl
      · have hnu : NotUnion c := fun t u h => hu ⟨t, u, h⟩
        rw [unionMembers_of_notUnion hnu, List.mem_singleton] at hp1 hq1
        subst hp1
        subst hq1
        have : ∀ p, alternativeValue tag' tag' p = p := by
          intro p
          unfold alternativeValue
          split
          · exact absurd rfl (hnu _ _)
          · rfl
        rw [this, this]
        exact ⟨.variant, fun h => by cases h; assumption⟩
    obtain ⟨r1, r2, r3⟩ := rep tag p hp1 hp2 hp3 hp4 fp
    obtain ⟨r1', r2', _⟩ := rep tag' p' hq1 hq2 hq3 hq4 fp'
    obtain ⟨q, log', g1, g2, g3⟩ := compares hm ha hnames hfresh hW n (alternativeValue c tag p) (by omega) n (Nat.le_refl n) a c
      (alternativeValue c tag' p') (.variable "$lhs") (.variable "$rhs") e
      (((Env.insertAll (fun _ => none) (["$lhs", "$rhs"].zip [.variant tag p, .variant tag' p'])).insert "$lhs"
        (alternativeValue c tag p)).insert "$rhs" (alternativeValue c tag' p')) log log log
      hcan r1 r1' r2 r2' h1
      (by intro x; simp [Env.insertAll, Env.insert, equalFunctionName_ne_lhs, equalFunctionName_ne_rhs])
      (eval_variable (by simp [Env.insert]))
      (fun env' h => eval_variable (by rw [h "$rhs" (by decide)]; simp [Env.insert]))
    refine ⟨q, log', g1, g2.trans same, ?_⟩
    split at g3 <;> exact g3
  obtain ⟨q, log', g1, g2, g3⟩ := key
  refine ⟨q, log', ?_, g2, g3⟩
  have he : (evaluator W m' a n).eval
      (Env.insertAll (fun _ => none) (["$lhs", "$rhs"].zip [.variant tag p, .variant tag' p']))
      (.ifType "$lhs" (.variable "$lhs") [(c, .ifType "$rhs" (.variable "$rhs") [(c, e)] none)] none) log =
        .val (.boolean q) log' := by
    rw [eval_ifType (eval_variable (v := .variant tag p) (by simp [Env.insertAll, Env.insert])),
      alternatives_match (by rw [hctx]; exact hcc) hp1,
      eval_ifType (eval_variable (v := .variant tag' p') (by simp [Env.insertAll, Env.insert])),
      alternatives_match (by rw [hctx]; exact hcc) hq1]
    exact g1
  unfold Out.absorb
  have he' : (evaluator W m' a n).eval (Env.insertAll (fun _ => none)
      (([("$lhs", Ty.any), ("$rhs", Ty.any)].map (·.1)).zip [.variant tag p, .variant tag' p']))
      (.ifType "$lhs" (.variable "$lhs") [(c, .ifType "$rhs" (.variable "$rhs") [(c, e)] none)] none) log =
        .val (.boolean q) log' := he
  rw [he']

/-- The lowered comparison means what the comparison means in the source: if the semantics of `==` is structural equality
(`W.equal`), the generated code evaluates to the same boolean as the comparison itself. -/
theorem c52_lowering_preserves_comparisons_partial (hm : addEqualFunctions K a external m = .ok m')
    (hnames : ∀ x fs, m.ctx.records x = some fs → (fs.map (·.name)).Nodup)
    (hfresh : ∀ x, ∀ d ∈ m.definitions, d.name ≠ equalFunctionName x)
    (hW : ComparesExternals W m.ctx external)
    (hsame : ∀ v w c, Represents m.ctx v c → Represents m.ctx w c → FlatValue v → FlatValue w →
      (W.equal v w = true ↔ Same W m.ctx v w))
    (hc : canonicalize a m.ctx.types t = .ok c) {op : EqOp}
    (he : lowerEquality K a m.ctx.types m.ctx.records (some t) op l r = .ok e)
    (hv : Represents m.ctx v c) (hw : Represents m.ctx w c) (fv : FlatValue v) (fw : FlatValue w)
    (hn : sizeOf v ≤ n) (henv : ∀ x, env (equalFunctionName x) = none)
    (hl : (evaluator W m' a n).eval env l log = .val v log₁) (hr : IgnoresLeft W m' a n env r log₁ w log₂) :
    ∃ q log' log'', (evaluator W m' a n).eval env e log = .val (.boolean q) log' ∧
      (evaluator W m' a n).eval env (.equality (some t) op l r) log = .val (.boolean q) log'' := by
  obtain ⟨q, log', g1, g2, _⟩ := c52_comparison_is_structural_partial hm hnames hfresh hW hc he hv hw fv fw hn henv hl hr
  have hr0 := hr env fun _ _ => rfl
  have hctx := addEqualFunctions_ctx hm
  have key : ∃ q', stepEqual W m' (evaluator W m' a n) env t l r log = .val q' log₂ ∧ (q' = true ↔ Same W m.ctx v w) := by
    unfold stepEqual
    rw [eval_types, hctx, out_bind_val (ofRes_ok hc)]
    by_cases h1 : c = .number
    · subst h1
      cases hv; cases hw
      rename_i i j
      refine ⟨W.equalNumbers i j, ?_, ⟨.number, fun h => by cases h; assumption⟩⟩
      simp only
      rw [out_bind_val hl, out_bind_val (x := Val.asNumber (.number i)) (v := i) (log₁ := log₁) rfl, out_bind_val hr0,
        out_bind_val (x := Val.asNumber (.number j)) (v := j) (log₁ := log₂) rfl]
      rfl
    · by_cases h2 : c = .string
      · subst h2
        cases hv; cases hw
        rename_i i j
        refine ⟨i == j, ?_, ?_⟩
        · simp only
          rw [out_bind_val hl, out_bind_val hr0, out_bind_val (x := Val.asString (.string i)) (v := i) (log₁ := log₂) rfl,
            out_bind_val (x := Val.asString (.string j)) (v := j) (log₁ := log₂) rfl]
          rfl
        · simp only [beq_iff_eq]
          exact ⟨fun h => by subst h; exact .string _, fun h => by cases h; rfl⟩
      · refine ⟨W.equal v w, ?_, hsame v w c hv hw fv fw⟩
        split
        · exact absurd rfl h1
        · exact absurd rfl h2
        · rw [out_bind_val hl, out_bind_val hr0]
          rfl
  obtain ⟨q', k1, k2⟩ := key
  refine ⟨q, log', log₂, g1, ?_⟩
  rw [evaluator_eval]
  simp only [stepEval]
  rw [out_bind_val k1]
  cases op with
  | equal =>
    have : q = q' := by
      rw [Bool.eq_iff_iff, g2, k2]
    rw [this]; rfl
  | notEqual =>
    have : q = !q' := by
      simp only at g2
      rw [← k2] at g2
      rw [Bool.eq_iff_iff, g2]
      simp
    rw [this]; rfl

/-- Values that cannot be compared are rejected: every type the operands may have at run time can be compared. (What lists
and maps contain is not checked here, `c52_lists_of_anything_are_accepted`.) -/
theorem c52_incomparable_operands_are_rejected {A : Aliases} {R : Records} (hc : canonicalize a A t = .ok c) {op : EqOp}
    (he : lowerEquality K a A R (some t) op l r = .ok e) :
    ∀ x ∈ unionMembers c, x ≠ .any ∧ x ≠ .error ∧ (∀ as r, x ≠ .function as r) ∧
      ∀ n, x = .record n → comparableCheck a A R (.record n) = .ok true := by
  unfold lowerEquality at he
  simp only at he
  obtain ⟨e', h1, h2⟩ := bind_eq_ok.mp he
  unfold equalOperation at h1
  obtain ⟨c', hc', h1⟩ := bind_eq_ok.mp h1
  rw [hc] at hc'
  cases hc'
  have atom : ∀ k x l r e, NotUnion x → (∀ y, x ≠ .reference y) → equalCanonicalType K a A R k x l r = .ok e → x ≠ .any ∧ x ≠ .error ∧
      (∀ as r, x ≠ .function as r) ∧ ∀ n, x = .record n → comparableCheck a A R (.record n) = .ok true := by
    intro k x l r e hx hy h
    cases k with
    | zero => cases h
    | succ k =>
      cases x with
      | any => cases h
      | error => cases h
      | function _ _ => cases h
      | union _ _ => exact absurd rfl (hx _ _)
      | reference y => exact absurd rfl (hy y)
      | record n =>
        simp only [equalCanonicalType] at h
        obtain ⟨b, hb, h⟩ := bind_eq_ok.mp h
        cases b with
        | false => cases h
        | true => exact ⟨by simp, by simp, by simp, by rintro n ⟨⟩; exact hb⟩
      | _ => simp
  have hcan := Canon.of_ok hc
  have noref : ∀ x ∈ unionMembers c, ∀ y, x ≠ .reference y := by
    intro x hx y h
    subst h
    cases (hcan.member hx).1.noReference
  intro x hx
  by_cases hu : ∃ t u, c = .union t u
  · obtain ⟨t, u, rfl⟩ := hu
    cases a with
    | zero => cases hc
    | succ k =>
    simp only [equalCanonicalType] at h1
    obtain ⟨ms, g1, h1⟩ := bind_eq_ok.mp h1
    obtain ⟨bs, g2, h1⟩ := bind_eq_ok.mp h1
    unfold unionMemberSet at g1
    obtain ⟨c', g3, g1⟩ := bind_eq_ok.mp g1
    cases g1
    have := hcan.self.ok_eq g3
    subst this
    obtain ⟨b, _, hb⟩ := mapList_mem_left g2 ((mem_btreeSet _ _).mpr hx)
    obtain ⟨e, hb, _⟩ := bind_eq_ok.mp hb
    exact atom k x _ _ e (hcan.member hx).2 (noref x hx) hb
  · have hnu : NotUnion c := fun t u h => hu ⟨t, u, h⟩
    rw [unionMembers_of_notUnion hnu] at hx
    rw [List.mem_singleton] at hx
    subst hx
    exact atom a x l r e' hnu (noref x (by rw [unionMembers_of_notUnion hnu]; simp)) h1

end

/-! ## A program the property applies to -/

/-- Some names. -/
def exampleNames : EqualNames :=
  ⟨"_list", "_equal_lists", "_map", "_context", "_equal_maps", fun _ => "hir:equal", fun _ _ => "hir:context"⟩

/-- ```
import 'B { q }  # type q { c string }

type p {
  a number | none
  b q
}
``` -/
def comparing : Module where
  types := ⟨[("p", [⟨"a", .union .number .none⟩, ⟨"b", .record "q"⟩]), ("q", [⟨"c", .string⟩])], []⟩
  declarations := []
  definitions := []

/-- `q` is of another module. -/
def qIsExternal (x : String) : Bool := x == "q"

/-- The function of the other module that compares its records. -/
def compareQ : List Val → Bool
  | [.record _ fs, .record _ gs] =>
    match lookupField fs "c", lookupField gs "c" with
    | some (.string s), some (.string t) => s == t
    | _, _ => false
  | _ => false

/-- A world with the other module. -/
def comparingWorld : World := { exampleWorld with call := fun _ _ vs => .boolean (compareQ vs) }

/-- The module with the functions of `lib/hir-mir/src/transformation/record_equal_function.rs`. -/
def comparing' : Module :=
  match addEqualFunctions exampleNames 10 qIsExternal comparing with
  | .ok m => m
  | _ => comparing

theorem comparing_ok : addEqualFunctions exampleNames 10 qIsExternal comparing = .ok comparing' := by
  have h : (match addEqualFunctions exampleNames 10 qIsExternal comparing with
    | .ok _ => true
    | _ => false) = true := by decide +kernel
  unfold comparing'
  split at h
  · rename_i h'; rw [h']
  · cases h

theorem comparing_records {x : String} {fs : List RecordField} (h : comparing.ctx.records x = some fs) :
    (x = "q" ∧ fs = [⟨"c", .string⟩]) ∨ (x = "p" ∧ fs = [⟨"a", .union .number .none⟩, ⟨"b", .record "q"⟩]) := by
  have h : lastLookup comparing.types.records x = some fs := h
  simp only [comparing] at h
  rw [lastLookup_cons, lastLookup_cons] at h
  by_cases h1 : "q" = x
  · subst h1
    simp [lastLookup] at h
    exact Or.inl ⟨rfl, h.symm⟩
  · by_cases h2 : "p" = x
    · subst h2
      simp [lastLookup] at h
      exact Or.inr ⟨rfl, h.symm⟩
    · simp [lastLookup, h1, h2] at h

theorem comparing_field {x y : String} {c : Ty} (h : FieldTy comparing.ctx x y c) :
    (x = "q" ∧ y = "c" ∧ c = .string) ∨ (x = "p" ∧ y = "a" ∧ c = .union .none .number) ∨
      (x = "p" ∧ y = "b" ∧ c = .record "q") := by
  obtain ⟨fs, t, h1, h2, h3⟩ := h
  obtain ⟨f, hf, rfl, rfl⟩ := fieldType_ok h2
  rcases comparing_records h1 with ⟨rfl, rfl⟩ | ⟨rfl, rfl⟩
  · simp only [List.mem_singleton] at hf
    subst hf
    exact Or.inl ⟨rfl, rfl, h3.det canon_string⟩
  · simp only [List.mem_cons, List.not_mem_nil, or_false] at hf
    rcases hf with rfl | rfl
    · refine Or.inr (Or.inl ⟨rfl, rfl, h3.det (Canon.of_ok (n := 10) (by decide +kernel))⟩)
    · exact Or.inr (Or.inr ⟨rfl, rfl, h3.det (canon_record _)⟩)

/-- A record of the type `q`. -/
def valueQ (s : List UInt8) : Val := .record "q" [("c", .string s)]

/-- A record of the type `p`. -/
def valueP (i : UInt64) (s : List UInt8) : Val := .record "p" [("a", .variant .number (.number i)), ("b", valueQ s)]

theorem valueQ_represents (s : List UInt8) : Represents comparing.ctx (valueQ s) (.record "q") := by
  refine .record (fun x c h => ?_) fun x c v h hv => ?_
  · rcases comparing_field h with ⟨_, rfl, _⟩ | ⟨h, _⟩ | ⟨h, _⟩
    · rfl
    · simp at h
    · simp at h
  · rcases comparing_field h with ⟨_, rfl, rfl⟩ | ⟨h, _⟩ | ⟨h, _⟩
    · simp [lookupField] at hv
      subst hv
      exact .string _
    · simp at h
    · simp at h

theorem valueP_represents (i : UInt64) (s : List UInt8) : Represents comparing.ctx (valueP i s) (.record "p") := by
  refine .record (fun x c h => ?_) fun x c v h hv => ?_
  · rcases comparing_field h with ⟨h, _⟩ | ⟨_, rfl, rfl⟩ | ⟨_, rfl, rfl⟩
    · simp at h
    · rfl
    · rfl
  · rcases comparing_field h with ⟨h, _⟩ | ⟨_, rfl, rfl⟩ | ⟨_, rfl, rfl⟩
    · simp at h
    · simp [lookupField] at hv
      subst hv
      exact .union (.mk (Or.inr (by simp [unionMembers])) (by simp) (fun _ _ h => by cases h) (.number i))
    · simp [lookupField] at hv
      subst hv
      exact valueQ_represents s

theorem valueQ_flat (s : List UInt8) : FlatValue (valueQ s) := by
  refine .record fun x v h => ?_
  simp only [lookupField, List.find?_cons] at h
  split at h
  · cases h; exact .string _
  · simp at h

theorem valueP_flat (i : UInt64) (s : List UInt8) : FlatValue (valueP i s) := by
  refine .record fun x v h => ?_
  simp only [lookupField, List.find?_cons] at h
  split at h
  · cases h; exact .variant (.number _)
  · split at h
    · cases h; exact valueQ_flat s
    · simp at h

theorem comparingWorld_compares : ComparesExternals comparingWorld comparing.ctx qIsExternal := by
  intro x hx log v w hv hw fv fw
  have hx : x = "q" := by simpa [qIsExternal] using hx
  subst hx
  have hc : FieldTy comparing.ctx "q" "c" .string :=
    ⟨[⟨"c", .string⟩], .string, by decide +kernel, rfl, canon_string⟩
  cases hv with
  | @record _ vs a1 a2 =>
  cases hw with
  | @record _ ws b1 b2 =>
  obtain ⟨v, hv⟩ := Option.isSome_iff_exists.mp (a1 _ _ hc)
  obtain ⟨w, hw⟩ := Option.isSome_iff_exists.mp (b1 _ _ hc)
  have rv := a2 _ _ _ hc hv
  have rw' := b2 _ _ _ hc hw
  cases rv with
  | string s =>
  cases rw' with
  | string s' =>
  refine ⟨_, rfl, ?_⟩
  simp only [compareQ, hv, hw, beq_iff_eq]
  constructor
  · rintro rfl
    refine .record (fun y c hy => Option.isSome_iff_exists.mp (a1 y c hy))
      (fun y c hy => Option.isSome_iff_exists.mp (b1 y c hy)) fun y c v w hy hv' hw' => ?_
    rcases comparing_field hy with ⟨_, rfl, rfl⟩ | ⟨h, _⟩ | ⟨h, _⟩
    · rw [hv] at hv'; rw [hw] at hw'
      cases hv'; cases hw'
      exact .string _
    · simp at h
    · simp at h
  · intro h
    cases h with
    | record _ _ h =>
      cases h "c" _ _ _ hc hv hw
      rfl

/-- Variables `x` and `y` with records. -/
def comparingEnv (i : UInt64) (s : List UInt8) (j : UInt64) (t : List UInt8) : Env :=
  Env.insertAll (fun _ => none) [("x", valueP i s), ("y", valueP j t)]

theorem comparingEnv_none {i j : UInt64} {s t : List UInt8} (x : String) :
    comparingEnv i s j t (equalFunctionName x) = none := by
  have h1 : equalFunctionName x ≠ "x" := by
    intro h
    have h2 := congrArg (fun s => s.toList.length) h
    simp [equalFunctionName, String.toList_append] at h2
  have h2 : equalFunctionName x ≠ "y" := by
    intro h
    have h2 := congrArg (fun s => s.toList.length) h
    simp [equalFunctionName, String.toList_append] at h2
  simp [comparingEnv, Env.insertAll, Env.insert, h1, h2]

/-- `x == y` for all records of the type `p`, which have an optional number and a record of another module. -/
example (i j : UInt64) (s t : List UInt8) :
    ∃ e q log', lowerEquality exampleNames 10 comparing.ctx.types comparing.ctx.records (some (.record "p")) .equal
        (.variable "x") (.variable "y") = .ok e ∧
      (evaluator comparingWorld comparing' 10 (sizeOf (valueP i s))).eval (comparingEnv i s j t) e [] =
        .val (.boolean q) log' ∧
      (q = true ↔ Same comparingWorld comparing.ctx (valueP i s) (valueP j t)) := by
  obtain ⟨q, log', h1, h2, _⟩ := c52_comparison_is_structural_partial (log := []) (log₁ := []) (log₂ := []) (op := .equal)
    (l := .variable "x") (r := .variable "y") (t := .record "p") (c := .record "p")
    (env := comparingEnv i s j t) (n := sizeOf (valueP i s)) (W := comparingWorld) comparing_ok
    (by
      intro x fs h
      rcases comparing_records h with ⟨_, rfl⟩ | ⟨_, rfl⟩ <;> decide)
    (by intro x d hd; cases hd) comparingWorld_compares (by decide +kernel) (he := rfl)
    (valueP_represents i s) (valueP_represents j t) (valueP_flat i s) (valueP_flat j t) (Nat.le_refl _)
    comparingEnv_none (eval_variable (by simp [comparingEnv, Env.insertAll, Env.insert]))
    (fun env' h => eval_variable (by rw [h "y" (by decide)]; simp [comparingEnv, Env.insertAll, Env.insert]))
  exact ⟨_, q, log', rfl, h1, h2⟩

/-- Elements of lists of the type `[p | none]`. -/
example (i j : UInt64) (s t : List UInt8) :
    ∃ d q log', elementEqualDefinition exampleNames 10 comparing.ctx.types comparing.ctx.records
        (.union .none (.record "p")) = .ok d ∧
      (evaluator comparingWorld comparing' 10 (sizeOf (Val.variant (.record "p") (valueP i s)) + 1)).apply (.closure (fun _ => none) (d.params.map (·.1)) d.body)
        [.variant (.record "p") (valueP i s), .variant .none .none] [] = .val (.boolean q) log' ∧
      (q = true ↔ Same comparingWorld comparing.ctx (.variant (.record "p") (valueP i s)) (.variant .none .none)) := by
  obtain ⟨q, log', h1, h2, _⟩ := c52_element_comparison_partial (log := []) (t := .union .none (.record "p"))
    (c := .union .none (.record "p")) (W := comparingWorld)
    (n := sizeOf (Val.variant (.record "p") (valueP i s))) (v := .variant (.record "p") (valueP i s)) (w := .variant .none .none) comparing_ok
    (by
      intro x fs h
      rcases comparing_records h with ⟨_, rfl⟩ | ⟨_, rfl⟩ <;> decide)
    (by intro x d hd; cases hd) comparingWorld_compares (by decide +kernel) (by decide +kernel) (hd := rfl)
    (.mk (Or.inr (by simp [unionMembers])) (by simp) (fun _ _ h => by cases h) (valueP_represents i s))
    (.mk (Or.inr (by simp [unionMembers])) (by simp) (fun _ _ h => by cases h) .none)
    (.variant (valueP_flat i s)) (.variant .none)
    (Nat.le_refl _)
  exact ⟨_, q, log', rfl, h1, h2⟩

/-- Records that differ in the record of the other module only are not the same. -/
example (i : UInt64) : ¬ Same comparingWorld comparing.ctx (valueP i [1]) (valueP i [2]) := by
  intro h
  cases h with
  | record _ _ h =>
    have h2 := h "b" (.record "q") _ _
      ⟨_, .record "q", rfl, rfl, canon_record _⟩ rfl rfl
    cases h2 with
    | record _ _ h =>
      have h3 := h "c" .string _ _ ⟨[⟨"c", .string⟩], .string, by decide +kernel, rfl, canon_string⟩ rfl rfl
      cases h3

/-! ## What is wrong -/

/-- Operands of the type `none` are not evaluated: the code of `f() == f()` does not call `f`
(`lib/hir-mir/src/transformation/equal_operation/operation.rs:88`). -/
theorem c52_operands_of_none_are_not_evaluated (K : EqualNames) (a : Nat) (A : Aliases) (R : Records) (l r : Expr) :
    lowerEquality K (a + 1) A R (some .none) .equal l r = .ok (.boolean true) := rfl

/-- Lists of anything can be compared as far as this transformation goes, although their elements cannot. (The function
that compares the elements is not generated, and so the compiler fails later with an internal error.) -/
theorem c52_lists_of_anything_are_accepted (K : EqualNames) (A : Aliases) (R : Records) (l r : Expr) :
    comparableCheck 10 A R (.list .any) = .ok false ∧
      ∃ e, lowerEquality K 10 A R (some (.list .any)) .equal l r = .ok e := ⟨rfl, _, rfl⟩

end Verif.Hir
