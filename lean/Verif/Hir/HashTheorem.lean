import Verif.Hir.HashSpec
import Verif.Hir.EqualityTheorem

/-!
# Hashes of values: values that are the same have the same hash
-/

namespace Verif.Hir

open Verif.Res

/-! ## The generated functions -/

theorem hashFunctionName_inj {x y : String} (h : hashFunctionName x = hashFunctionName y) : x = y := by
  have h2 := congrArg String.toList h
  simp only [hashFunctionName, String.toList_append] at h2
  exact String.toList_injective (List.append_cancel_right h2)

theorem lastLookup_generated {g : String → List RecordField → Res Err Definition} {nm : String → String}
    (hinj : ∀ x y, nm x = nm y → x = y) (hname : ∀ x fs d, g x fs = .ok d → d.name = nm x) {n : String} :
    ∀ {xs : List (String × List RecordField)} {ds : List Definition},
    Res.mapList (fun d : String × List RecordField => g d.1 d.2) xs = .ok ds →
    (∀ fs, lastLookup xs n = some fs → ∃ d, g n fs = .ok d ∧ lastLookup (ds.map fun d => (d.name, d)) (nm n) = some d) ∧
      (lastLookup xs n = none → lastLookup (ds.map fun d => (d.name, d)) (nm n) = none)
  | [], ds, h => by cases h; simp [lastLookup]
  | p :: xs, ds, h => by
    simp only [Res.mapList, bind_eq_ok] at h
    obtain ⟨d, hd, ds', hds, he⟩ := h
    cases he
    obtain ⟨ih1, ih2⟩ := lastLookup_generated (g := g) hinj hname (n := n) hds
    rw [List.map_cons, lastLookup_cons, lastLookup_cons, hname _ _ _ hd]
    constructor
    · intro fs hf
      cases hl : lastLookup xs n with
      | some gs =>
        rw [hl] at hf
        cases hf
        obtain ⟨d', h1, h2⟩ := ih1 fs hl
        exact ⟨d', h1, by rw [h2]; rfl⟩
      | none =>
        rw [hl] at hf
        simp only [Option.none_or] at hf
        split at hf
        · rename_i hp
          cases hf
          refine ⟨d, hp ▸ hd, ?_⟩
          rw [ih2 hl, if_pos (by rw [hp])]
          rfl
        · cases hf
    · intro hf
      simp only [Option.or_eq_none_iff, ite_eq_right_iff] at hf
      rw [ih2 hf.1, if_neg]
      · rfl
      · intro h
        cases hf.2 (hinj _ _ h)

variable {K : HashNames} {a : Nat} {external : String → Bool} {m m' : Module} {W : World}

theorem hashDefinition_name {A : Aliases} {R : Records} {x : String} {fs : List RecordField} {d : Definition}
    (h : hashDefinition K a A R x fs = .ok d) : d.name = hashFunctionName x := by
  unfold hashDefinition at h
  obtain ⟨e, _, he⟩ := bind_eq_ok.mp h
  cases he
  rfl

theorem addHashFunctions_ctx (h : addHashFunctions K a external m = .ok m') : m'.ctx = m.ctx := by
  unfold addHashFunctions at h
  obtain ⟨rs, _, h⟩ := bind_eq_ok.mp h
  obtain ⟨ds, _, h⟩ := bind_eq_ok.mp h
  cases h
  rfl

/-- The function that hashes records of a type of the module. -/
theorem addHashFunctions_internal (h : addHashFunctions K a external m = .ok m') {n : String}
    (hn : external n = false) (hc : comparableCheck a m.ctx.types m.ctx.records (.record n) = .ok true)
    {fs : List RecordField} (hf : m.ctx.records n = some fs) :
    ∃ e, hashFields K a m.ctx.types m.ctx.records n fs = .ok e ∧
      lastLookup (m'.definitions.map fun d => (d.name, d)) (hashFunctionName n) =
        some ⟨hashFunctionName n, [("$record", .record n)], .number, e⟩ := by
  unfold addHashFunctions at h
  obtain ⟨rs, h1, h⟩ := bind_eq_ok.mp h
  obtain ⟨ds, h2, h⟩ := bind_eq_ok.mp h
  cases h
  simp only at h2 ⊢
  rw [filter_comparable (f := fun n => comparableCheck a m.ctx.types m.ctx.records (.record n)) h1] at h2
  obtain ⟨d, h3, h4⟩ := (lastLookup_generated (g := hashDefinition K a m.ctx.types m.ctx.records)
    (fun _ _ => hashFunctionName_inj) (fun _ _ _ => hashDefinition_name) (n := n) h2).1 fs (by
    rw [lastLookup_filter (fun n => !external n) (by simp [hn]),
      lastLookup_filter (fun n => comparableCheck a m.ctx.types m.ctx.records (.record n) == .ok true) (by simp [hc])]
    exact hf)
  unfold hashDefinition at h3
  obtain ⟨e, h5, he⟩ := bind_eq_ok.mp h3
  cases he
  refine ⟨e, h5, ?_⟩
  rw [List.map_append, lastLookup_append, h4]
  rfl

/-- What is defined in the module with the generated functions. -/
theorem addHashFunctions_defined (h : addHashFunctions K a external m = .ok m') {d : Definition} (hd : d ∈ m'.definitions) :
    d ∈ m.definitions ∨ ∃ n, external n = false ∧ d.name = hashFunctionName n := by
  unfold addHashFunctions at h
  obtain ⟨rs, h1, h⟩ := bind_eq_ok.mp h
  obtain ⟨ds, h2, h⟩ := bind_eq_ok.mp h
  cases h
  rcases List.mem_append.mp hd with hd | hd
  · exact Or.inl hd
  · obtain ⟨q, hq, hq'⟩ := mapList_mem h2 hd
    refine Or.inr ⟨q.1, ?_, hashDefinition_name hq'⟩
    simp only [List.mem_filter] at hq
    simpa using hq.2

/-- The function that hashes records of a type of another module. -/
theorem addHashFunctions_external (h : addHashFunctions K a external m = .ok m') {n : String}
    (hn : external n = true) (hc : comparableCheck a m.ctx.types m.ctx.records (.record n) = .ok true)
    {fs : List RecordField} (hf : m.ctx.records n = some fs) (hd : ∀ d ∈ m.definitions, d.name ≠ hashFunctionName n) :
    Imported m' (hashFunctionName n) := by
  refine ⟨?_, ?_⟩
  · unfold addHashFunctions at h
    obtain ⟨rs, h1, h⟩ := bind_eq_ok.mp h
    obtain ⟨ds, h2, h⟩ := bind_eq_ok.mp h
    cases h
    simp only at h2 ⊢
    rw [filter_comparable (f := fun n => comparableCheck a m.ctx.types m.ctx.records (.record n)) h1] at h2 ⊢
    have : lastLookup m.types.records n = some fs := hf
    unfold lastLookup at this
    simp only [Option.map_eq_some_iff] at this
    obtain ⟨p, h3, h4⟩ := this
    have h5 := List.mem_of_find?_eq_some h3
    have h6 := List.find?_some h3
    simp only [List.mem_reverse, beq_iff_eq] at h5 h6
    simp only [List.map_append, List.mem_append, List.map_map]
    right
    simp only [List.mem_map, List.mem_filter]
    exact ⟨p, ⟨⟨h5, by simp [h6, hc]⟩, by simp [h6, hn]⟩, by simp [h6]⟩
  · intro d hd' he
    rcases addHashFunctions_defined h hd' with hd' | ⟨x, hx, hd'⟩
    · exact hd d hd' he
    · rw [he] at hd'
      rw [← hashFunctionName_inj hd', hn] at hx
      cases hx

theorem addHashFunctions_declared (h : addHashFunctions K a external m = .ok m') {x : String} (hi : Imported m x)
    (hx : ∀ n, external n = false → x ≠ hashFunctionName n) : Imported m' x := by
  refine ⟨?_, ?_⟩
  · unfold addHashFunctions at h
    obtain ⟨rs, h1, h⟩ := bind_eq_ok.mp h
    obtain ⟨ds, h2, h⟩ := bind_eq_ok.mp h
    cases h
    simp only [List.map_append, List.mem_append]
    exact Or.inl hi.1
  · intro d hd he
    rcases addHashFunctions_defined h hd with hd | ⟨n, hn, hd⟩
    · exact hi.2 d hd he
    · exact hx n hn (he ▸ hd)

/-! ## Calls -/

variable {n : Nat} {env env' : Env} {log log₁ log₂ : Log}

theorem eval_imported {m : Module} {x : String} (hi : Imported m x) (he : env x = none) :
    (evaluator W m a n).eval env (.variable x) log = .val (.foreign x) log := by
  rw [evaluator_eval]
  have h : lastLookup (m.definitions.map fun d => (d.name, d)) x = none := by
    unfold lastLookup
    simp only [Option.map_eq_none_iff, List.find?_eq_none, List.mem_reverse, List.mem_map, beq_iff_eq]
    rintro p ⟨d, hd, rfl⟩ he
    exact hi.2 d hd he
  simp only [stepEval, lookup, he, h]
  rw [if_pos (by simpa using hi.1)]
  rfl

theorem eval_call1 {m : Module} {t : Option Ty} {f l : Expr} {g v : Val}
    (hf : (evaluator W m a n).eval env f log = .val g log)
    (hl : (evaluator W m a n).eval env l log = .val v log₁) :
    (evaluator W m a n).eval env (.call t f [l]) log = ((evaluator W m a n).apply g [v]).noReturn log₁ := by
  rw [evaluator_eval]
  simp only [stepEval]
  rw [out_bind_val hf]
  have : Out.mapList ((evaluator W m a n).eval env) [l] log = .val [v] log₁ := by
    simp only [Out.mapList]
    rw [out_bind_val hl]
    rfl
  rw [out_bind_val this]

theorem eval_foreign1 {m : Module} {t : Option Ty} {x : String} {l : Expr} {v u : Val} (hi : Imported m x)
    (he : env x = none) (hl : (evaluator W m a (n + 1)).eval env l log = .val v log₁) (hc : W.call log₁ x [v] = u) :
    (evaluator W m a (n + 1)).eval env (.call t (.variable x) [l]) log = .val u (⟨x, [v], u⟩ :: log₁) := by
  rw [eval_call1 (eval_imported hi he) hl]
  unfold Out.noReturn
  rw [apply_foreign, hc]

theorem eval_foreign2 {m : Module} {t : Option Ty} {x : String} {l r : Expr} {v w u : Val} (hi : Imported m x)
    (he : env x = none) (hl : (evaluator W m a (n + 1)).eval env l log = .val v log₁)
    (hr : (evaluator W m a (n + 1)).eval env r log₁ = .val w log₂) (hc : W.call log₂ x [v, w] = u) :
    (evaluator W m a (n + 1)).eval env (.call t (.variable x) [l, r]) log = .val u (⟨x, [v, w], u⟩ :: log₂) := by
  rw [eval_call2 (eval_imported hi he) hl hr]
  unfold Out.noReturn
  rw [apply_foreign, hc]

theorem eval_number {m : Module} (i : UInt64) : (evaluator W m a n).eval env (.number i) log = .val (.number i) log := by
  rw [evaluator_eval]; rfl

theorem OnlyHashes.refl (log : Log) : OnlyHashes K external log log := ⟨[], rfl, by simp⟩

theorem OnlyHashes.trans (h : OnlyHashes K external log log₁) (h' : OnlyHashes K external log₁ log₂) :
    OnlyHashes K external log log₂ := by
  obtain ⟨es, rfl, h1⟩ := h
  obtain ⟨fs, rfl, h2⟩ := h'
  refine ⟨fs ++ es, by simp, fun e he => ?_⟩
  rcases List.mem_append.mp he with h | h
  · exact h2 e h
  · exact h1 e h

theorem OnlyHashes.one {x : String} {vs : List Val} {u : Val} (h : IsHashFunction K external x) :
    OnlyHashes K external log (⟨x, vs, u⟩ :: log) :=
  ⟨[_], rfl, by simp only [List.mem_singleton]; rintro e rfl; exact h⟩

theorem noReturn_absorb {o : Out Val} {v : Val} (h : o log = .val v log₁) : o.absorb.noReturn log = .val v log₁ := by
  unfold Out.noReturn Out.absorb
  rw [h]

/-! ## Hashes -/

/-- Names of functions that hash code calls are not those of local variables. -/
def HashEnv (K : HashNames) (env : Env) : Prop :=
  env K.numberHash = none ∧ env K.stringHash = none ∧ env K.combine = none ∧ ∀ x, env (hashFunctionName x) = none

/-- What names hash functions must not have. -/
structure HashNamesOk (K : HashNames) : Prop where
  ne : ∀ x ∈ [K.numberHash, K.stringHash, K.combine], x ≠ "$x" ∧ x ≠ "$record" ∧ ∀ n, x ≠ hashFunctionName n

theorem hashFunctionName_ne_x (x : String) : hashFunctionName x ≠ "$x" := by
  intro h
  have h2 := congrArg (fun s => s.toList.length) h
  simp [hashFunctionName, String.toList_append] at h2

theorem hashFunctionName_ne_record (x : String) : hashFunctionName x ≠ "$record" := by
  intro h
  have h2 := congrArg String.toList h
  simp only [hashFunctionName, String.toList_append] at h2
  have h3 := congrArg (fun l => l.getLast?) h2
  simp at h3

theorem HashEnv.insert {x : String} {v : Val} (h : HashEnv K env) (hk : HashNamesOk K) (hx : x = "$x" ∨ x = "$record") :
    HashEnv K (env.insert x v) := by
  obtain ⟨h1, h2, h3, h4⟩ := h
  have k1 := hk.ne K.numberHash (by simp)
  have k2 := hk.ne K.stringHash (by simp)
  have k3 := hk.ne K.combine (by simp)
  refine ⟨?_, ?_, ?_, fun y => ?_⟩ <;> unfold Env.insert <;> rw [if_neg]
  · exact h1
  · rcases hx with rfl | rfl
    · exact k1.1
    · exact k1.2.1
  · exact h2
  · rcases hx with rfl | rfl
    · exact k2.1
    · exact k2.2.1
  · exact h3
  · rcases hx with rfl | rfl
    · exact k3.1
    · exact k3.2.1
  · exact h4 y
  · rcases hx with rfl | rfl
    · exact hashFunctionName_ne_x y
    · exact hashFunctionName_ne_record y

/-- What hashing `v` and `w` by generated code does. -/
def HashesAlike (K : HashNames) (a : Nat) (external : String → Bool) (m m' : Module) (W : World) (n : Nat) (v w : Val) :
    Prop :=
  ∀ k t c l e env env', Canon m.ctx.types t c → ¬ Degenerate m.ctx.types t → Represents m.ctx v c →
    Represents m.ctx w c → FlatValue v → FlatValue w → hashExpression K a m.ctx.types m.ctx.records k t l = .ok e →
    HashEnv K env → HashEnv K env' →
    (∀ log, (evaluator W m' a n).eval env l log = .val v log) →
    (∀ log, (evaluator W m' a n).eval env' l log = .val w log) →
    ∀ log log', ∃ h h' log₁ log₁', (evaluator W m' a n).eval env e log = .val (.number h) log₁ ∧
      (evaluator W m' a n).eval env' e log' = .val (.number h') log₁' ∧ (Same W m.ctx v w → h = h') ∧
      OnlyHashes K external log log₁ ∧ OnlyHashes K external log' log₁'

/-- Hashes of the fields of records. -/
theorem hashes_fields (ha : a ≠ 0) {x : String} {all : List RecordField}
    (hall : m.ctx.records x = some all) (hnd : (all.map (·.name)).Nodup)
    (hcan : ∀ f ∈ all, ∃ c, Canon m.ctx.types f.type c) (hdeg : ∀ f ∈ all, ¬ Degenerate m.ctx.types f.type)
    {vs ws : List (String × Val)} {n : Nat}
    (hv : Represents m.ctx (.record x vs) (.record x)) (hw : Represents m.ctx (.record x ws) (.record x))
    (fv : FlatValue (.record x vs)) (fw : FlatValue (.record x ws)) (hW : HashesExternals W m.ctx K external)
    (hi : Imported m' K.combine)
    (ih : ∀ y v w, lookupField vs y = some v → lookupField ws y = some w → HashesAlike K a external m m' W (n + 1) v w)
    {env env' : Env} (he : HashEnv K env) (he' : HashEnv K env') (hl : env "$record" = some (.record x vs))
    (hr : env' "$record" = some (.record x ws)) :
    ∀ (fs : List RecordField), (∀ f ∈ fs, f ∈ all) → ∀ e, hashFields K a m.ctx.types m.ctx.records x fs = .ok e →
      ∀ log log', ∃ h h' log₁ log₁', (evaluator W m' a (n + 1)).eval env e log = .val (.number h) log₁ ∧
        (evaluator W m' a (n + 1)).eval env' e log' = .val (.number h') log₁' ∧
        (Same W m.ctx (.record x vs) (.record x ws) → h = h') ∧
        OnlyHashes K external log log₁ ∧ OnlyHashes K external log' log₁'
  | [], _, e, h => by
    cases h
    intro log log'
    exact ⟨_, _, log, log', eval_number _, eval_number _, fun _ => rfl, .refl _, .refl _⟩
  | f :: fs, hfs, e, h => by
    intro log log'
    unfold hashFields at h
    obtain ⟨e', h1, h⟩ := bind_eq_ok.mp h
    unfold hashField at h
    obtain ⟨q', h3, h⟩ := bind_eq_ok.mp h
    cases h
    obtain ⟨c, hc⟩ := hcan f (hfs f (by simp))
    have hft : FieldTy m.ctx x f.name c := ⟨all, f.type, hall, fieldType_of_mem hnd (hfs f (by simp)), hc⟩
    obtain ⟨v, w, lv, lw, rv, rw'⟩ : ∃ v w, lookupField vs f.name = some v ∧ lookupField ws f.name = some w ∧
        Represents m.ctx v c ∧ Represents m.ctx w c := by
      cases hv with
      | record a1 a2 =>
        cases hw with
        | record b1 b2 =>
          obtain ⟨v, hv⟩ := Option.isSome_iff_exists.mp (a1 _ _ hft)
          obtain ⟨w, hw⟩ := Option.isSome_iff_exists.mp (b1 _ _ hft)
          exact ⟨v, w, hv, hw, a2 _ _ _ hft hv, b2 _ _ _ hft hw⟩
    have fv' : FlatValue v := by cases fv with | record h => exact h _ _ lv
    have fw' : FlatValue w := by cases fw with | record h => exact h _ _ lw
    have hrec : canonicalize a m'.ctx.types (.record x) = .ok (.record x) := by
      obtain ⟨b, rfl⟩ := Nat.exists_eq_succ_of_ne_zero ha
      rfl
    obtain ⟨h₁, h₁', log₁, log₁', k1, k2, k3, k4, k5⟩ := hashes_fields ha hall hnd hcan hdeg hv hw fv fw hW hi ih he he' hl hr
      fs (fun g hg => hfs g (by simp [hg])) e' h1 log log'
    obtain ⟨h₂, h₂', log₂, log₂', g1, g2, g3, g4, g5⟩ := ih _ _ _ lv lw a f.type c _ q' env env' hc
      (hdeg f (hfs f (by simp))) rv rw' fv' fw' h3 he he'
      (fun log => eval_deconstruct (eval_variable hl) hrec lv)
      (fun log => eval_deconstruct (eval_variable hr) hrec lw) log₁ log₁'
    obtain ⟨g, hg⟩ := hW.combine
    have hs : IsHashFunction K external K.combine := Or.inr (Or.inr (Or.inl rfl))
    refine ⟨_, _, _, _, eval_foreign2 hi he.2.2.1 k1 g1 (hg _ _ _), eval_foreign2 hi he'.2.2.1 k2 g2 (hg _ _ _), ?_,
      (k4.trans g4).trans (.one hs), (k5.trans g5).trans (.one hs)⟩
    intro h
    rw [k3 h, g3]
    cases h with
    | record _ _ h => exact h _ _ _ _ hft lv lw

/-- Values that are the same have the same hash. -/
theorem hashes (hm : addHashFunctions K a external m = .ok m') (ha : a ≠ 0) (hk : HashNamesOk K)
    (hnames : ∀ x fs, m.ctx.records x = some fs → (fs.map (·.name)).Nodup)
    (hcan : ∀ x fs, m.ctx.records x = some fs → ∀ f ∈ fs, ∃ c, Canon m.ctx.types f.type c)
    (hdeg : ∀ x fs, m.ctx.records x = some fs → ∀ f ∈ fs, ¬ Degenerate m.ctx.types f.type)
    (hfresh : ∀ x, ∀ d ∈ m.definitions, d.name ≠ hashFunctionName x)
    (himp : Imported m K.numberHash ∧ Imported m K.stringHash ∧ Imported m K.combine)
    (hW : HashesExternals W m.ctx K external) :
    ∀ (s : Nat) (v w : Val), sizeOf v ≤ s → sizeOf w ≤ s → ∀ n, s ≤ n → HashesAlike K a external m m' W (n + 1) v w := by
  have hctx := addHashFunctions_ctx hm
  have i1 := addHashFunctions_declared hm himp.1 fun n _ => (hk.ne _ (by simp)).2.2 n
  have i2 := addHashFunctions_declared hm himp.2.1 fun n _ => (hk.ne _ (by simp)).2.2 n
  have i3 := addHashFunctions_declared hm himp.2.2 fun n _ => (hk.ne _ (by simp)).2.2 n
  intro s
  induction s with
  | zero => intro v w hv; cases v <;> simp at hv
  | succ s ihs =>
    intro v w hv hsw n hn k
    induction k with
    | zero => intro t c l e env env' _ _ _ _ _ _ ht; cases ht
    | succ k ihk =>
    intro t c l e env env' hc hdg rv rw' fv fw ht he he' hl hr log log'
    obtain ⟨n, rfl⟩ : ∃ b, n = b + 1 := ⟨n - 1, by omega⟩
    cases t with
    | any => cases ht
    | error => cases ht
    | function _ _ => cases ht
    | list _ => obtain ⟨d, rfl, _⟩ := canon_list_inv hc; cases rv; cases fv
    | map _ _ => obtain ⟨d, d', rfl, _⟩ := canon_map_inv hc; cases rv; cases fv
    | none =>
      cases ht
      exact ⟨_, _, log, log', eval_number _, eval_number _, fun _ => rfl, .refl _, .refl _⟩
    | boolean =>
      cases ht
      rw [hc.det canon_boolean] at rv rw'
      cases rv with
      | boolean p =>
      cases rw' with
      | boolean q =>
      refine ⟨if p then K.trueHash else K.falseHash, if q then K.trueHash else K.falseHash, log, log', ?_, ?_, ?_, .refl _,
        .refl _⟩
      · rw [eval_if (hl log)]
        cases p <;> exact eval_number _
      · rw [eval_if (hr log')]
        cases q <;> exact eval_number _
      · intro h; cases h; rfl
    | number =>
      cases ht
      rw [hc.det canon_number] at rv rw'
      cases rv with
      | number i =>
      cases rw' with
      | number j =>
      obtain ⟨f, hf, hf'⟩ := hW.number
      exact ⟨f i, f j, _, _, eval_foreign1 i1 he.1 (hl log) (hf' _ _), eval_foreign1 i1 he'.1 (hr log') (hf' _ _),
        fun h => by cases h; exact hf _ _ (by assumption), .one (Or.inl rfl), .one (Or.inl rfl)⟩
    | string =>
      cases ht
      rw [hc.det canon_string] at rv rw'
      cases rv with
      | string i =>
      cases rw' with
      | string j =>
      obtain ⟨f, hf'⟩ := hW.string
      exact ⟨f i, f j, _, _, eval_foreign1 i2 he.2.1 (hl log) (hf' _ _), eval_foreign1 i2 he'.2.1 (hr log') (hf' _ _),
        fun h => by cases h; rfl, .one (Or.inr (Or.inl rfl)), .one (Or.inr (Or.inl rfl))⟩
    | record x =>
      rw [hc.det (canon_record x)] at rv rw'
      simp only [hashExpression] at ht
      obtain ⟨b, hb, ht⟩ := bind_eq_ok.mp ht
      cases b with
      | false => cases ht
      | true =>
      cases ht
      obtain ⟨all, hall⟩ : ∃ all, m.ctx.records x = some all := by
        unfold comparableCheck at hb
        cases a with
        | zero => exact absurd rfl ha
        | succ a =>
          simp only [comparableWithCache, List.not_mem_nil, if_false] at hb
          obtain ⟨fs, hf, _⟩ := bind_eq_ok.mp hb
          unfold resolveRecord at hf
          split at hf
          · exact ⟨_, by assumption⟩
          · cases hf
      cases hx : external x with
      | true =>
        have hi := addHashFunctions_external hm hx hb hall (hfresh x)
        obtain ⟨h, h', q1, q2, q3⟩ := hW.record x hx log log' _ _ rv rw' fv fw
        have hs : IsHashFunction K external (hashFunctionName x) := Or.inr (Or.inr (Or.inr ⟨x, hx, rfl⟩))
        exact ⟨h, h', _, _, eval_foreign1 hi (he.2.2.2 x) (hl log) q1, eval_foreign1 hi (he'.2.2.2 x) (hr log') q2, q3,
          .one hs, .one hs⟩
      | false =>
        obtain ⟨body, h1, h2⟩ := addHashFunctions_internal hm hx hb hall
        have hf : ∀ (env : Env), HashEnv K env → ∀ log,
            (evaluator W m' a (n + 1 + 1)).eval env (.variable (hashFunctionName x)) log =
            .val (.closure (fun _ => none) ["$record"] body) log := by
          intro env he log
          rw [evaluator_eval]
          simp only [stepEval, lookup, he.2.2.2 x, h2]
          rfl
        have hempty : HashEnv K (fun _ => none) := ⟨rfl, rfl, rfl, fun _ => rfl⟩
        cases rv with
        | @record _ vs a1 a2 =>
        cases rw' with
        | @record _ ws b1 b2 =>
        obtain ⟨h, h', log₁, log₁', g1, g2, g3, g4, g5⟩ := hashes_fields (K := K) (external := external) (W := W)
          (m := m) (m' := m') (n := n)
          (env := Env.insert (fun _ => none) "$record" (.record x vs))
          (env' := Env.insert (fun _ => none) "$record" (.record x ws))
          ha hall (hnames x all hall) (hcan x all hall) (hdeg x all hall) (.record a1 a2) (.record b1 b2) fv fw hW i3
          (fun y v w hy hy' => ihs v w (by have := lookupField_size hy x; omega) (by have := lookupField_size hy' x; omega) n
            (by omega))
          (hempty.insert hk (Or.inr rfl)) (hempty.insert hk (Or.inr rfl)) (by simp [Env.insert]) (by simp [Env.insert])
          all (fun f hf => hf) body h1 log log'
        refine ⟨h, h', log₁, log₁', ?_, ?_, g3, g4, g5⟩
        · unfold hashCall
          rw [eval_call1 (hf env he log) (hl log), apply_closure (by simp)]
          exact noReturn_absorb g1
        · unfold hashCall
          rw [eval_call1 (hf env' he' log') (hr log'), apply_closure (by simp)]
          exact noReturn_absorb g2
    | reference y =>
      simp only [hashExpression] at ht
      obtain ⟨t', h1, ht⟩ := bind_eq_ok.mp ht
      have hA : m.ctx.types y = some t' := by
        unfold resolve at h1
        split at h1
        · cases h1; assumption
        · cases h1
      have hc' : Canon m.ctx.types t' c := by
        obtain ⟨u, hu, rfl⟩ := hc
        cases hu with
        | reference h2 h3 =>
          rw [hA] at h2
          cases h2
          exact ⟨u, h3, rfl⟩
      exact ihk t' c l e env env' hc' (fun h => hdg (.reference hA h)) rv rw' fv fw ht he he' hl hr log log'
    | union t u =>
      simp only [hashExpression] at ht
      obtain ⟨ms, h1, ht⟩ := bind_eq_ok.mp ht
      obtain ⟨bs, h2, ht⟩ := bind_eq_ok.mp ht
      cases ht
      unfold unionMemberSet at h1
      obtain ⟨c', h3, h1⟩ := bind_eq_ok.mp h1
      cases h1
      have := hc.ok_eq h3
      subst this
      obtain ⟨t', u', rfl⟩ : ∃ t' u', c' = .union t' u' := by
        by_contra hne
        exact hdg (.union hc fun t' u' h => hne ⟨t', u', h⟩)
      have hms : ∀ x ∈ btreeSet (unionMembers (Ty.union t' u')), Canon m.ctx.types x x ∧ NotUnion x := fun x hx =>
        hc.member ((mem_btreeSet _ _).mp hx)
      have hbs : ∀ b ∈ bs, canonicalize a m'.ctx.types b.1 = .ok b.1 ∧ NotUnion b.1 := by
        intro b hb
        obtain ⟨y, hy, hy'⟩ := mapList_mem h2 hb
        obtain ⟨e, _, hy'⟩ := bind_eq_ok.mp hy'
        obtain ⟨d, hd, hy'⟩ := bind_eq_ok.mp hy'
        cases hy'
        rw [hctx]
        refine ⟨?_, (hms y hy).2⟩
        simp only
        rw [hd, (hms y hy).1.ok_eq hd]
      have single : ∀ (v : Val) (env : Env) (log : Log), HashEnv K env → Represents m.ctx v (.union t' u') → FlatValue v →
          (∀ log, (evaluator W m' a (n + 1 + 1)).eval env l log = .val v log) →
          ∃ tag p e', v = .variant tag p ∧ NotUnion tag ∧ Represents m.ctx p tag ∧ FlatValue p ∧
            Canon m.ctx.types tag tag ∧ (tag, e') ∈ bs ∧
            (evaluator W m' a (n + 1 + 1)).eval env (.ifType "$x" l bs none) log =
              (evaluator W m' a (n + 1 + 1)).eval (env.insert "$x" p) e' log := by
        intro v env log he rv fv hl
        cases rv with
        | union rv =>
        cases rv with
        | @mk tag p _ hp1 hp2 hp3 hp4 =>
        have htag : tag ∈ btreeSet (unionMembers (Ty.union t' u')) := (mem_btreeSet _ _).mpr (hp1.resolve_left (by simp))
        obtain ⟨e', he', hs⟩ := alternatives_members (m := m') (W := W) (n := n + 1 + 1) (a := a) (env := env) (x := "$x")
          (log := log) (tag := tag) (p := p) (o := none) (bs := bs) hbs
          (by
            obtain ⟨b, hb, hb'⟩ := mapList_mem_left h2 htag
            obtain ⟨e, _, hb'⟩ := bind_eq_ok.mp hb'
            obtain ⟨o, ho, hb'⟩ := bind_eq_ok.mp hb'
            cases hb'
            exact List.mem_map.mpr ⟨_, hb, rfl⟩)
        refine ⟨tag, p, e', rfl, hp3, hp4, by cases fv; assumption, (hms tag htag).1, he', ?_⟩
        rw [eval_ifType (hl log), hs]
      have code : ∀ tag e', (tag, e') ∈ bs → hashExpression K a m.ctx.types m.ctx.records k tag (.variable "$x") = .ok e' := by
        intro tag e' h
        obtain ⟨y, hy, hy'⟩ := mapList_mem h2 h
        obtain ⟨e, h4, hy'⟩ := bind_eq_ok.mp hy'
        obtain ⟨d, hd, hy'⟩ := bind_eq_ok.mp hy'
        cases hy'
        exact h4
      have nodeg : ∀ tag, NotUnion tag → Canon m.ctx.types tag tag → ¬ Degenerate m.ctx.types tag := by
        intro tag h1 h2 h3
        cases h3 with
        | union _ _ => exact absurd rfl (h1 _ _)
        | reference _ _ => cases h2.noReference
      obtain ⟨tag, p, e₁, rfl, p2, p3, p4, p5, p6, p7⟩ := single v env log he rv fv hl
      obtain ⟨tag', q, e₂, rfl, q2, q3, q4, q5, q6, q7⟩ := single w env' log' he' rw' fw hr
      rw [p7, q7]
      have hp : sizeOf p ≤ s := by simp at hv; omega
      have hq : sizeOf q ≤ s := by simp at hsw; omega
      by_cases htt : tag = tag'
      · subst htt
        have : e₁ = e₂ := by
          have h1 := code _ _ p6
          rw [code _ _ q6] at h1
          cases h1; rfl
        subst this
        obtain ⟨h, h', log₁, log₁', g1, g2, g3, g4, g5⟩ := ihs p q hp hq (n + 1) (by omega) k tag tag (.variable "$x") e₁
          (env.insert "$x" p) (env'.insert "$x" q) p5 (nodeg tag p2 p5) p3 q3 p4 q4 (code _ _ p6)
          (he.insert hk (Or.inl rfl)) (he'.insert hk (Or.inl rfl)) (fun log => eval_variable (by simp [Env.insert]))
          (fun log => eval_variable (by simp [Env.insert])) log log'
        exact ⟨h, h', log₁, log₁', g1, g2, fun h => g3 (by cases h; assumption), g4, g5⟩
      · obtain ⟨h, _, log₁, _, g1, _, _, g4, _⟩ := ihs p p hp hp (n + 1) (by omega) k tag tag (.variable "$x") e₁
          (env.insert "$x" p) (env.insert "$x" p) p5 (nodeg tag p2 p5) p3 p3 p4 p4 (code _ _ p6)
          (he.insert hk (Or.inl rfl)) (he.insert hk (Or.inl rfl)) (fun log => eval_variable (by simp [Env.insert]))
          (fun log => eval_variable (by simp [Env.insert])) log log
        obtain ⟨h', _, log₁', _, g1', _, _, g4', _⟩ := ihs q q hq hq (n + 1) (by omega) k tag' tag' (.variable "$x") e₂
          (env'.insert "$x" q) (env'.insert "$x" q) q5 (nodeg tag' q2 q5) q3 q3 q4 q4 (code _ _ q6)
          (he'.insert hk (Or.inl rfl)) (he'.insert hk (Or.inl rfl)) (fun log => eval_variable (by simp [Env.insert]))
          (fun log => eval_variable (by simp [Env.insert])) log' log'
        exact ⟨h, h', log₁, log₁', g1, g1', fun h => by cases h; exact absurd rfl htt, g4, g4'⟩

end Verif.Hir
