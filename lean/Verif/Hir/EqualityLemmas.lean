import Verif.Hir.EqualitySpec
import Verif.Hir.EvaluationLemmas

/-!
# Comparison of values: evaluation of the generated code
-/

namespace Verif.Hir

open Verif.Res

variable {W : World} {m : Module} {a n : Nat} {env : Env} {log log₁ log₂ : Log}

/-! ## Evaluation -/

theorem eval_types : (evaluator W m a n).types = a := by cases n <;> rfl

theorem out_bind_val {α β : Type} {x : Out α} {f : α → Out β} {v : α} (h : x log = .val v log₁) :
    (x >>= f) log = f v log₁ := by
  show Out.bind x f log = _
  unfold Out.bind
  rw [h]

theorem eval_if {c t e : Expr} {b : Bool} (h : (evaluator W m a n).eval env c log = .val (.boolean b) log₁) :
    (evaluator W m a n).eval env (.if_ c t e) log =
      if b then (evaluator W m a n).eval env t log₁ else (evaluator W m a n).eval env e log₁ := by
  rw [evaluator_eval]
  simp only [stepEval]
  rw [out_bind_val h]
  cases b <;> rfl

theorem eval_boolean (b : Bool) : (evaluator W m a n).eval env (.boolean b) log = .val (.boolean b) log := by
  rw [evaluator_eval]; rfl

theorem eval_variable {x : String} {v : Val} (h : env x = some v) :
    (evaluator W m a n).eval env (.variable x) log = .val v log := by
  rw [evaluator_eval]
  simp only [stepEval, lookup, h]
  rfl

theorem eval_deconstruct {t : Ty} {e : Expr} {r x : String} {fs : List (String × Val)} {v : Val}
    (h : (evaluator W m a n).eval env e log = .val (.record r fs) log₁)
    (ht : canonicalize a m.ctx.types t = .ok (.record r)) (hv : lookupField fs x = some v) :
    (evaluator W m a n).eval env (.deconstruct (some t) e x) log = .val v log₁ := by
  rw [evaluator_eval]
  simp only [stepEval]
  rw [out_bind_val h, eval_types]
  have : Val.asRecord a m.ctx.types t (.record r fs) log₁ = .val (r, fs) log₁ := by
    unfold Val.asRecord
    rw [ht]
    show (if r = r then Out.val (r, fs) else .stuck) log₁ = _
    rw [if_pos rfl]; rfl
  rw [out_bind_val this]
  simp only [hv]
  rfl

theorem eval_ifType {x : String} {e : Expr} {bs : List (Ty × Expr)} {o : Option (Option Ty × Expr)} {tag : Ty} {p : Val}
    (h : (evaluator W m a n).eval env e log = .val (.variant tag p) log₁) :
    (evaluator W m a n).eval env (.ifType x e bs o) log =
      stepAlternatives m (evaluator W m a n) env x tag p bs o log₁ := by
  rw [evaluator_eval]
  simp only [stepEval]
  rw [out_bind_val h]

theorem eval_call2 {t : Option Ty} {f l r : Expr} {g v w : Val} {log₀ : Log}
    (hf : (evaluator W m a n).eval env f log₀ = .val g log)
    (hl : (evaluator W m a n).eval env l log = .val v log₁) (hr : (evaluator W m a n).eval env r log₁ = .val w log₂) :
    (evaluator W m a n).eval env (.call t f [l, r]) log₀ = ((evaluator W m a n).apply g [v, w]).noReturn log₂ := by
  rw [evaluator_eval]
  simp only [stepEval]
  rw [out_bind_val hf]
  have : Out.mapList ((evaluator W m a n).eval env) [l, r] log = .val [v, w] log₂ := by
    simp only [Out.mapList]
    rw [out_bind_val hl]
    have h2 : (do
      let bs ← (do
        let b ← (evaluator W m a n).eval env r
        let bs ← Out.val []
        Out.val (b :: bs))
      Out.val (v :: bs) : Out (List Val)) log₁ = .val [v, w] log₂ := by
      rw [out_bind_val (v := [w]) (log₁ := log₂)]
      · rfl
      · rw [out_bind_val hr]; rfl
    exact h2
  rw [out_bind_val this]

theorem apply_closure {env' : Env} {ps : List String} {b : Expr} {vs : List Val} (h : ps.length = vs.length) :
    (evaluator W m a (n + 1)).apply (.closure env' ps b) vs =
      ((evaluator W m a n).eval (Env.insertAll env' (ps.zip vs)) b).absorb := by
  show stepApply W m (evaluator W m a n) (.closure env' ps b) vs = _
  unfold stepApply
  simp only [h, if_true]

theorem apply_foreign {x : String} {vs : List Val} :
    (evaluator W m a (n + 1)).apply (.foreign x) vs log = .val (W.call log x vs) (⟨x, vs, W.call log x vs⟩ :: log) := rfl

theorem eval_equal_number {l r : Expr} {i j : UInt64}
    (hl : (evaluator W m a n).eval env l log = .val (.number i) log₁)
    (hr : (evaluator W m a n).eval env r log₁ = .val (.number j) log₂) (ha : a ≠ 0) :
    (evaluator W m a n).eval env (.equality (some .number) .equal l r) log = .val (.boolean (W.equalNumbers i j)) log₂ := by
  rw [evaluator_eval]
  simp only [stepEval]
  have : stepEqual W m (evaluator W m a n) env .number l r log = .val (W.equalNumbers i j) log₂ := by
    unfold stepEqual
    rw [eval_types]
    obtain ⟨b, rfl⟩ := Nat.exists_eq_succ_of_ne_zero ha
    have hc : canonicalize (b + 1) m.ctx.types .number = .ok .number := rfl
    show (Out.ofRes (canonicalize (b + 1) m.ctx.types .number) >>= _) log = _
    rw [hc, out_bind_val (x := Out.ofRes (ok Ty.number)) (v := .number) (log₁ := log) rfl]
    simp only
    rw [out_bind_val hl, out_bind_val (x := Val.asNumber (.number i)) (v := i) (log₁ := log₁) rfl, out_bind_val hr,
      out_bind_val (x := Val.asNumber (.number j)) (v := j) (log₁ := log₂) rfl]
    rfl
  rw [out_bind_val this]
  rfl

theorem eval_equal_string {l r : Expr} {i j : List UInt8}
    (hl : (evaluator W m a n).eval env l log = .val (.string i) log₁)
    (hr : (evaluator W m a n).eval env r log₁ = .val (.string j) log₂) (ha : a ≠ 0) :
    (evaluator W m a n).eval env (.equality (some .string) .equal l r) log = .val (.boolean (i == j)) log₂ := by
  rw [evaluator_eval]
  simp only [stepEval]
  have : stepEqual W m (evaluator W m a n) env .string l r log = .val (i == j) log₂ := by
    unfold stepEqual
    rw [eval_types]
    obtain ⟨b, rfl⟩ := Nat.exists_eq_succ_of_ne_zero ha
    have hc : canonicalize (b + 1) m.ctx.types .string = .ok .string := rfl
    show (Out.ofRes (canonicalize (b + 1) m.ctx.types .string) >>= _) log = _
    rw [hc, out_bind_val (x := Out.ofRes (ok Ty.string)) (v := .string) (log₁ := log) rfl]
    simp only
    rw [out_bind_val hl, out_bind_val hr, out_bind_val (x := Val.asString (.string i)) (v := i) (log₁ := log₂) rfl,
      out_bind_val (x := Val.asString (.string j)) (v := j) (log₁ := log₂) rfl]
    rfl
  rw [out_bind_val this]
  rfl

/-! ## Type branches -/

theorem ofRes_ok {α : Type} {x : Res Err α} {v : α} (h : x = .ok v) : Out.ofRes x log = .val v log := by
  rw [h]; rfl

/-- A branch for another type. -/
theorem alternatives_skip {x : String} {tag t c : Ty} {p : Val} {e : Expr} {bs : List (Ty × Expr)}
    {o : Option (Option Ty × Expr)} (ht : canonicalize a m.ctx.types t = .ok c) (hm : tag ∉ unionMembers c) :
    stepAlternatives m (evaluator W m a n) env x tag p ((t, e) :: bs) o log =
      stepAlternatives m (evaluator W m a n) env x tag p bs o log := by
  rw [stepAlternatives, eval_types, out_bind_val (ofRes_ok ht), if_neg]
  simpa [alternativeMatches] using hm

/-- A branch for the type. -/
theorem alternatives_match {x : String} {tag t c : Ty} {p : Val} {e : Expr} {bs : List (Ty × Expr)}
    {o : Option (Option Ty × Expr)} (ht : canonicalize a m.ctx.types t = .ok c) (hm : tag ∈ unionMembers c) :
    stepAlternatives m (evaluator W m a n) env x tag p ((t, e) :: bs) o log =
      (evaluator W m a n).eval (env.insert x (alternativeValue c tag p)) e log := by
  rw [stepAlternatives, eval_types, out_bind_val (ofRes_ok ht), if_pos]
  simpa [alternativeMatches] using hm

/-- An else branch. -/
theorem alternatives_else {x : String} {tag t c : Ty} {p : Val} {e : Expr}
    (ht : canonicalize a m.ctx.types t = .ok c) (hm : c = .any ∨ tag ∈ unionMembers c) :
    ∃ u, stepAlternatives m (evaluator W m a n) env x tag p [] (some (some t, e)) log =
      (evaluator W m a n).eval (env.insert x u) e log := by
  rw [stepAlternatives, eval_types, out_bind_val (ofRes_ok ht)]
  by_cases hc : c = .any
  · rw [if_pos hc]; exact ⟨_, rfl⟩
  · rw [if_neg hc, if_pos]
    · exact ⟨_, rfl⟩
    · simpa [alternativeMatches] using hm.resolve_left hc

/-! ## Values -/

theorem lookupField_size {fs : List (String × Val)} {x : String} {v : Val} (h : lookupField fs x = some v) (y : String) :
    sizeOf v < sizeOf (Val.record y fs) := by
  unfold lookupField at h
  simp only [Option.map_eq_some_iff] at h
  obtain ⟨p, h1, rfl⟩ := h
  have h2 := List.sizeOf_lt_of_mem (List.mem_of_find?_eq_some h1)
  have h3 : sizeOf p.2 < sizeOf p := by cases p; simp <;> omega
  simp
  omega

theorem OnlyCompares.refl (ext : String → Bool) (log : Log) : OnlyCompares ext log log := ⟨[], rfl, by simp⟩

theorem OnlyCompares.trans {ext : String → Bool} (h : OnlyCompares ext log log₁) (h' : OnlyCompares ext log₁ log₂) :
    OnlyCompares ext log log₂ := by
  obtain ⟨es, rfl, h1⟩ := h
  obtain ⟨fs, rfl, h2⟩ := h'
  refine ⟨fs ++ es, by simp, fun e he => ?_⟩
  rcases List.mem_append.mp he with h | h
  · exact h2 e h
  · exact h1 e h

/-! ## The module -/

theorem lastLookup_reverse {β : Type} (xs : List (String × β)) (x : String) :
    lastLookup xs x = (xs.reverse.find? (fun p => p.1 == x)).map (·.2) := rfl

theorem equalFunctionName_inj {x y : String} (h : equalFunctionName x = equalFunctionName y) : x = y := by
  have h2 := congrArg String.toList h
  simp only [equalFunctionName, String.toList_append] at h2
  exact String.toList_injective (List.append_cancel_right h2)

end Verif.Hir
