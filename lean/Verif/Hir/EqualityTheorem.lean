import Verif.Hir.EqualityCorrectness

/-!
# Comparison of values: by induction on the size of values
-/

namespace Verif.Hir

open Verif.Res

theorem equalFunctionName_ne_lhs (x : String) : equalFunctionName x ≠ "$lhs" := by
  intro h
  have h2 := congrArg (fun s => s.toList.length) h
  simp [equalFunctionName, String.toList_append] at h2

theorem equalFunctionName_ne_rhs (x : String) : equalFunctionName x ≠ "$rhs" := by
  intro h
  have h2 := congrArg (fun s => s.toList.length) h
  simp [equalFunctionName, String.toList_append] at h2

theorem fieldType_of_mem {fs : List RecordField} (hn : (fs.map (·.name)).Nodup) {f : RecordField} (hf : f ∈ fs) :
    fieldType fs f.name = .ok f.type := by
  unfold fieldType
  induction fs with
  | nil => cases hf
  | cons g gs ih =>
    simp only [List.map_cons, List.nodup_cons] at hn
    rcases List.mem_cons.mp hf with rfl | hf
    · simp
    · rw [List.find?_cons_of_neg]
      · exact ih hn.2 hf
      · simp only [beq_iff_eq]
        intro h
        exact hn.1 (List.mem_map.mpr ⟨f, hf, h.symm⟩)

theorem fieldType_ok {fs : List RecordField} {x : String} {t : Ty} (h : fieldType fs x = .ok t) :
    ∃ f ∈ fs, f.name = x ∧ f.type = t := by
  unfold fieldType at h
  split at h
  · rename_i f hf
    cases h
    exact ⟨f, List.mem_of_find?_eq_some hf, by simpa using List.find?_some hf, rfl⟩
  · cases h

section
variable {K : EqualNames} {a : Nat} {external : String → Bool} {m m' : Module} {W : World}

/-- What comparing `v` with any value by generated code does. -/
def Compares (K : EqualNames) (a : Nat) (external : String → Bool) (m m' : Module) (W : World) (n : Nat) (v : Val) : Prop :=
  ∀ k c w l r e env log log₁ log₂, Canon m.ctx.types c c → Represents m.ctx v c → Represents m.ctx w c →
    FlatValue v → FlatValue w → equalCanonicalType K a m.ctx.types m.ctx.records k c l r = .ok e →
    (∀ x, env (equalFunctionName x) = none) →
    (evaluator W m' a n).eval env l log = .val v log₁ →
    (∀ env' : Env, (∀ x, x ≠ "$lhs" → env' x = env x) → (evaluator W m' a n).eval env' r log₁ = .val w log₂) →
    ∃ q log', (evaluator W m' a n).eval env e log = .val (.boolean q) log' ∧ (q = true ↔ Same W m.ctx v w) ∧
      OnlyCompares external (if c = .none then log else log₂) log'

/-- Comparison of the fields of records. -/
theorem compares_fields (hctx : m'.ctx = m.ctx) (ha : a ≠ 0) {x : String} {all : List RecordField}
    (hall : m.ctx.records x = some all) (hnd : (all.map (·.name)).Nodup) {vs ws : List (String × Val)} {n : Nat}
    (hv : Represents m.ctx (.record x vs) (.record x)) (hw : Represents m.ctx (.record x ws) (.record x))
    (fv : FlatValue (.record x vs)) (fw : FlatValue (.record x ws))
    (ih : ∀ y v, lookupField vs y = some v → Compares K a external m m' W n v)
    {env : Env} (he : ∀ y, env (equalFunctionName y) = none) (hl : env "$lhs" = some (.record x vs))
    (hr : env "$rhs" = some (.record x ws)) :
    ∀ (fs : List RecordField), (∀ f ∈ fs, f ∈ all) → ∀ e log, equalFields K a m.ctx.types m.ctx.records x fs = .ok e →
      ∃ q log', (evaluator W m' a n).eval env e log = .val (.boolean q) log' ∧
        (q = true ↔ ∀ f ∈ fs, ∀ v w, lookupField vs f.name = some v → lookupField ws f.name = some w → Same W m.ctx v w) ∧
        OnlyCompares external log log'
  | [], _, e, log, h => by
    cases h
    exact ⟨true, log, eval_boolean true, by simp, .refl _ _⟩
  | f :: fs, hfs, e, log, h => by
    unfold equalFields at h
    obtain ⟨e', h1, h⟩ := bind_eq_ok.mp h
    unfold equalField at h
    obtain ⟨q', h2, h⟩ := bind_eq_ok.mp h
    cases h
    unfold equalOperation at h2
    obtain ⟨c, hc, h3⟩ := bind_eq_ok.mp h2
    have hft : FieldTy m.ctx x f.name c :=
      ⟨all, f.type, hall, fieldType_of_mem hnd (hfs f (by simp)), .of_ok hc⟩
    obtain ⟨v, w, lv, lw, rv, rw'⟩ : ∃ v w, lookupField vs f.name = some v ∧ lookupField ws f.name = some w ∧
        Represents m.ctx v c ∧ Represents m.ctx w c := by
      cases hv with
      | record a1 a2 =>
        cases hw with
        | record b1 b2 =>
          obtain ⟨v, hv⟩ := Option.isSome_iff_exists.mp (a1 _ _ hft)
          obtain ⟨w, hw⟩ := Option.isSome_iff_exists.mp (b1 _ _ hft)
          exact ⟨v, w, hv, hw, a2 _ _ _ hft hv, b2 _ _ _ hft hw⟩
    have fv' : FlatValue v := by cases fv with | record h => exact h _ _ lv
    have fw' : FlatValue w := by cases fw with | record h => exact h _ _ lw
    have hrec : canonicalize a m'.ctx.types (.record x) = .ok (.record x) := by
      obtain ⟨b, rfl⟩ := Nat.exists_eq_succ_of_ne_zero ha
      rfl
    obtain ⟨q, log₁, g1, g2, g3⟩ := ih _ _ lv a c w _ _ q' env log log log (Canon.of_ok hc).self rv rw' fv' fw' h3 he
      (eval_deconstruct (eval_variable hl) hrec lv)
      (fun env' h' => eval_deconstruct (eval_variable (by rw [h' "$rhs" (by decide)]; exact hr)) hrec lw)
    obtain ⟨q₂, log₂, k1, k2, k3⟩ := compares_fields hctx ha hall hnd hv hw fv fw ih he hl hr fs
      (fun g hg => hfs g (by simp [hg])) e' log₁ h1
    have g3' : OnlyCompares external log log₁ := by split at g3 <;> exact g3
    rw [eval_if g1]
    cases q with
    | true =>
      refine ⟨q₂, log₂, k1, ?_, g3'.trans k3⟩
      rw [k2]
      simp only [List.forall_mem_cons]
      constructor
      · intro h
        refine ⟨fun v' w' h1 h2 => ?_, h⟩
        rw [lv] at h1; rw [lw] at h2
        cases h1; cases h2
        exact g2.mp rfl
      · exact fun h => h.2
    | false =>
      refine ⟨false, log₁, eval_boolean false, ?_, g3'⟩
      simp only [Bool.false_eq_true, false_iff, List.forall_mem_cons, not_and_or]
      left
      intro h
      exact absurd (g2.mpr (h v w lv lw)) (by simp)

end

/-- The generated code compares values. -/
theorem compares {K : EqualNames} {a : Nat} {external : String → Bool} {m m' : Module} {W : World}
    (hm : addEqualFunctions K a external m = .ok m') (ha : a ≠ 0)
    (hnames : ∀ x fs, m.ctx.records x = some fs → (fs.map (·.name)).Nodup)
    (hfresh : ∀ x, ∀ d ∈ m.definitions, d.name ≠ equalFunctionName x)
    (hW : ComparesExternals W m.ctx external) :
    ∀ (s : Nat) (v : Val), sizeOf v ≤ s → ∀ n, s ≤ n → Compares K a external m m' W n v := by
  have hctx := addEqualFunctions_ctx hm
  intro s
  induction s with
  | zero => intro v hv; cases v <;> simp at hv
  | succ s ihs =>
    intro v hv n hn
    obtain ⟨n, rfl⟩ : ∃ b, n = b + 1 := ⟨n - 1, by omega⟩
    intro k c w l r e env log log₁ log₂ hc rv rw' fv fw ht henv hl hr
    cases k with
    | zero => cases ht
    | succ k =>
    have hr0 := hr env fun _ _ => rfl
    cases c with
    | any => cases ht
    | error => cases ht
    | function _ _ => cases ht
    | reference x => cases hc.noReference
    | list _ => cases rv; cases fv
    | map _ _ => cases rv; cases fv
    | none =>
      cases ht
      cases rv; cases rw'
      exact ⟨true, log, eval_boolean true, by simp [Same.none], by simpa using OnlyCompares.refl external log⟩
    | boolean =>
      cases ht
      cases rv with
      | boolean p =>
      cases rw' with
      | boolean q =>
      rw [eval_if hl]
      cases p with
      | true =>
        refine ⟨q, log₂, by simpa using hr0, ?_, by simpa using OnlyCompares.refl external log₂⟩
        constructor
        · rintro rfl; exact .boolean _
        · intro h; cases h; rfl
      | false =>
        rw [if_neg (by simp), eval_if hr0]
        refine ⟨!q, log₂, ?_, ?_, by simpa using OnlyCompares.refl external log₂⟩
        · cases q <;> simp [eval_boolean]
        · constructor
          · intro h
            have : q = false := by simpa using h
            subst this; exact .boolean _
          · intro h; cases h; rfl
    | number =>
      cases ht
      cases rv with
      | number i =>
      cases rw' with
      | number j =>
      refine ⟨_, log₂, eval_equal_number hl hr0 ha, ?_, by simpa using OnlyCompares.refl external log₂⟩
      exact ⟨fun h => .number h, fun h => by cases h; assumption⟩
    | string =>
      cases ht
      cases rv with
      | string i =>
      cases rw' with
      | string j =>
      refine ⟨_, log₂, eval_equal_string hl hr0 ha, ?_, by simpa using OnlyCompares.refl external log₂⟩
      simp only [beq_iff_eq]
      exact ⟨fun h => by subst h; exact .string _, fun h => by cases h; rfl⟩
    | record x =>
      unfold equalCanonicalType at ht
      obtain ⟨b, hb, ht⟩ := bind_eq_ok.mp ht
      cases b with
      | false => cases ht
      | true =>
      cases ht
      obtain ⟨all, hall⟩ : ∃ all, m.ctx.records x = some all := by
        unfold comparableCheck at hb
        cases a with
        | zero => exact absurd rfl ha
        | succ a =>
          simp only [comparableWithCache, List.not_mem_nil, if_false] at hb
          obtain ⟨fs, hf, _⟩ := bind_eq_ok.mp hb
          unfold resolveRecord at hf
          split at hf
          · exact ⟨_, by assumption⟩
          · cases hf
      cases rv with
      | @record _ vs a1 a2 =>
      cases rw' with
      | @record _ ws b1 b2 =>
      have hrv : Represents m.ctx (.record x vs) (.record x) := .record a1 a2
      have hrw : Represents m.ctx (.record x ws) (.record x) := .record b1 b2
      cases hx : external x with
      | true =>
        obtain ⟨h1, h2⟩ := addEqualFunctions_external hm hx hb hall (hfresh x)
        have hf : (evaluator W m' a (n + 1)).eval env (.variable (equalFunctionName x)) log =
            .val (.foreign (equalFunctionName x)) log := by
          rw [evaluator_eval]
          simp only [stepEval, lookup, henv x, h1]
          rw [if_pos (by simpa using h2)]
          rfl
        rw [eval_call2 hf hl hr0]
        obtain ⟨q, hq, hs⟩ := hW x hx log₂ _ _ hrv hrw fv fw
        refine ⟨q, ⟨equalFunctionName x, [.record x vs, .record x ws], .boolean q⟩ :: log₂, ?_, hs, ?_⟩
        · show Out.noReturn _ log₂ = _
          unfold Out.noReturn
          rw [apply_foreign, hq]
        · rw [if_neg (by simp)]
          exact ⟨[_], rfl, by simp only [List.mem_singleton]; rintro e rfl; exact ⟨x, hx, rfl⟩⟩
      | false =>
        obtain ⟨body, h1, h2⟩ := addEqualFunctions_internal hm hx hb hall
        have hf : (evaluator W m' a (n + 1)).eval env (.variable (equalFunctionName x)) log =
            .val (.closure (fun _ => none) ["$lhs", "$rhs"] body) log := by
          rw [evaluator_eval]
          simp only [stepEval, lookup, henv x, h2]
          rfl
        rw [eval_call2 hf hl hr0, apply_closure (by simp)]
        obtain ⟨q, log', g1, g2, g3⟩ := compares_fields (K := K) (external := external) (W := W) (n := n)
          (env := Env.insertAll (fun _ => none) (["$lhs", "$rhs"].zip [.record x vs, .record x ws]))
          hctx ha hall (hnames x all hall) hrv hrw fv fw
          (fun y v hy => ihs v (by have := lookupField_size hy x; omega) n (by omega))
          (by
            intro y
            simp [Env.insertAll, Env.insert, equalFunctionName_ne_lhs, equalFunctionName_ne_rhs])
          (by simp [Env.insertAll, Env.insert]) (by simp [Env.insertAll, Env.insert]) all (fun f hf => hf) body log₂ h1
        refine ⟨q, log', ?_, ?_, by simpa using g3⟩
        · unfold Out.noReturn Out.absorb
          rw [g1]
        · rw [g2]
          constructor
          · intro h
            refine .record (fun y c hy => Option.isSome_iff_exists.mp (a1 y c hy))
              (fun y c hy => Option.isSome_iff_exists.mp (b1 y c hy)) fun y c v w hy hv hw => ?_
            obtain ⟨fs, t, hfs, hft, _⟩ := hy
            rw [hall] at hfs
            cases hfs
            obtain ⟨f, hf, rfl, _⟩ := fieldType_ok hft
            exact h f hf v w hv hw
          · intro h f hf v w hv hw
            cases h with
            | record _ _ h3 =>
              have : ∃ c, FieldTy m.ctx x f.name c := by
                have : ∀ (fs : List RecordField) e, equalFields K a m.ctx.types m.ctx.records x fs = .ok e → f ∈ fs →
                    ∃ c, canonicalize a m.ctx.types f.type = .ok c := by
                  intro fs
                  induction fs with
                  | nil => intro e _ h; cases h
                  | cons g gs ih =>
                    intro e he hg
                    unfold equalFields at he
                    obtain ⟨e', h1, he⟩ := bind_eq_ok.mp he
                    rcases List.mem_cons.mp hg with rfl | hg
                    · unfold equalField equalOperation at he
                      obtain ⟨q', h2, _⟩ := bind_eq_ok.mp he
                      obtain ⟨c, hc, _⟩ := bind_eq_ok.mp h2
                      exact ⟨c, hc⟩
                    · exact ih e' h1 hg
                obtain ⟨c, hc⟩ := this all body h1 hf
                exact ⟨c, all, f.type, hall, fieldType_of_mem (hnames x all hall) hf, .of_ok hc⟩
              obtain ⟨c, hc⟩ := this
              exact h3 _ c v w hc hv hw
    | union t u =>
      unfold equalCanonicalType at ht
      obtain ⟨ms, h1, ht⟩ := bind_eq_ok.mp ht
      obtain ⟨bs, h2, ht⟩ := bind_eq_ok.mp ht
      cases ht
      unfold unionMemberSet at h1
      obtain ⟨c, h3, h1⟩ := bind_eq_ok.mp h1
      cases h1
      have := hc.ok_eq h3
      subst this
      have hms : ∀ x ∈ btreeSet (unionMembers (Ty.union t u)), Canon m.ctx.types x x ∧ NotUnion x := fun x hx =>
        hc.member ((mem_btreeSet _ _).mp hx)
      -- the left operand
      cases rv with
      | union rv =>
      cases rv with
      | @mk tag p _ hp1 hp2 hp3 hp4 =>
      have htag : tag ∈ btreeSet (unionMembers (Ty.union t u)) := (mem_btreeSet _ _).mpr (hp1.resolve_left (by simp))
      cases rw' with
      | union rw' =>
      cases rw' with
      | @mk tag' p' _ hq1 hq2 hq3 hq4 =>
      have htag' : tag' ∈ btreeSet (unionMembers (Ty.union t u)) := (mem_btreeSet _ _).mpr (hq1.resolve_left (by simp))
      rw [eval_ifType hl]
      obtain ⟨e', he', hs⟩ := alternatives_members (m := m') (W := W) (n := n + 1) (a := a) (env := env) (x := "$lhs")
        (log := log₁) (tag := tag) (p := p) (o := none) (bs := bs) (by
          intro b hb
          obtain ⟨y, hy, hy'⟩ := mapList_mem h2 hb
          obtain ⟨e, _, hy'⟩ := bind_eq_ok.mp hy'
          obtain ⟨o, ho, hy'⟩ := bind_eq_ok.mp hy'
          cases hy'
          rw [hctx]
          exact ⟨(otherMembers_ok ho hms hy).1, (hms y hy).2⟩)
        (by
          obtain ⟨b, hb, hb'⟩ := mapList_mem_left h2 htag
          obtain ⟨e, _, hb'⟩ := bind_eq_ok.mp hb'
          obtain ⟨o, ho, hb'⟩ := bind_eq_ok.mp hb'
          cases hb'
          exact List.mem_map.mpr ⟨_, hb, rfl⟩)
      rw [hs]
      obtain ⟨y, hy, hy'⟩ := mapList_mem h2 he'
      obtain ⟨e, h4, hy'⟩ := bind_eq_ok.mp hy'
      obtain ⟨o, ho, hy'⟩ := bind_eq_ok.mp hy'
      cases hy'
      have hr1 := hr (env.insert "$lhs" p) (by intro x hx; simp [Env.insert, hx])
      obtain ⟨o1, co, o2, o3⟩ := otherMembers_ok ho hms htag
      rw [eval_ifType hr1]
      by_cases htt : tag' = tag
      · subst htt
        rw [alternatives_match (by rw [hctx]; exact o1) (by rw [unionMembers_of_notUnion hp3]; simp)]
        have hav : alternativeValue tag' tag' p' = p' := by
          unfold alternativeValue
          split
          · exact absurd rfl (hp3 _ _)
          · rfl
        rw [hav]
        obtain ⟨q, log', g1, g2, g3⟩ := ihs p (by simp at hv; omega) (n + 1) (by omega) k tag' p'
          (.variable "$lhs") (.variable "$rhs") e ((env.insert "$lhs" p).insert "$rhs" p') log₂ log₂ log₂
          (hms tag' htag).1 hp4 hq4 (by cases fv; assumption) (by cases fw; assumption) h4
          (by intro x; simp [Env.insert, equalFunctionName_ne_lhs, equalFunctionName_ne_rhs, henv])
          (eval_variable (by simp [Env.insert]))
          (fun env' h => eval_variable (by rw [h "$rhs" (by decide)]; simp [Env.insert]))
        refine ⟨q, log', g1, ?_, ?_⟩
        · rw [g2]
          exact ⟨.variant, fun h => by cases h; assumption⟩
        · rw [if_neg (by simp)]
          split at g3 <;> exact g3
      · rw [alternatives_skip (by rw [hctx]; exact o1) (by rw [unionMembers_of_notUnion hp3]; simpa using htt)]
        obtain ⟨u', hu'⟩ := alternatives_else (W := W) (m := m') (n := n + 1) (a := a) (env := env.insert "$lhs" p)
          (x := "$rhs") (log := log₂) (tag := tag') (p := p') (t := o) (e := .boolean false) (c := co)
          (by rw [hctx]; exact o2) (o3 tag' htag' htt)
        rw [hu']
        refine ⟨false, log₂, eval_boolean false, ?_, by simpa using OnlyCompares.refl external log₂⟩
        simp only [Bool.false_eq_true, false_iff]
        intro h
        cases h
        exact htt rfl

end Verif.Hir
