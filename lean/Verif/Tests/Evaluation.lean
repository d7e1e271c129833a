import Verif.Tests.Wrapper
import Verif.Hir.EvaluationLemmas

/-! # What wrappers of test functions result in -/

namespace Verif.Tests

open Verif Hir Res

variable {W : World} {m : Hir.Module} {a k : Nat}

theorem evaluator_types (W : World) (m : Hir.Module) (a k : Nat) : (evaluator W m a k).types = a := by
  cases k <;> rfl

theorem bind_apply {α β : Type} (x : Out α) (f : α → Out β) (log : Log) : (x >>= f) log = Out.bind x f log := rfl

@[simp] theorem val_bind {α β : Type} (v : α) (f : α → Out β) : (Out.val v >>= f) = f v := rfl

/-- What the wrapper of a test function makes of what the function results in. -/
def wrapResult : Result Val → Result Val
  | .val (.variant tag p) log =>
    if tag = .none then .val (.string []) log
    else if tag = .error then
      match p with
      | .error (.variant tag p) => if tag = .string then .val p log else .val (.string nonStringMessage) log
      | _ => .stuck
    else .stuck
  | .val _ _ => .stuck
  | .more => .more
  | .ret _ _ => .stuck
  | .stuck => .stuck

theorem stepApply_closure (r : Evaluator) (env : Env) (b : Expr) :
    stepApply W m r (.closure env [] b) [] = (r.eval env b).absorb := by
  unfold stepApply
  rfl

theorem apply_succ (W : World) (m : Hir.Module) (a k : Nat) :
    (evaluator W m a (k + 1)).apply = stepApply W m (evaluator W m a k) := by
  rw [evaluator]
  rfl

/-- Wrappers call the test function once and turn its result into a message. -/
theorem callFunction_wrapper {x f : String} {t : Ty} {g : Val}
    (hx : lookup m (fun _ => Option.none) x = .val (.closure (fun _ => Option.none) [] (analyzedBody t f)))
    (hf : lookup m (fun _ => Option.none) f = .val g) (log : Log) :
    callFunction W m (a + 1) (k + 1) x [] log = wrapResult (callFunction W m (a + 1) k f [] log) := by
  have h1 : callFunction W m (a + 1) (k + 1) x [] =
      (stepEval W m (evaluator W m (a + 1) k) (fun _ => Option.none) (analyzedBody t f)).absorb := by
    show (lookup m (fun _ => Option.none) x >>= fun g => (evaluator W m (a + 1) (k + 1)).apply g []) = _
    rw [hx, val_bind]
    rw [apply_succ, stepApply_closure, evaluator_eval]
  have h2 : callFunction W m (a + 1) k f [] = (evaluator W m (a + 1) k).apply g [] := by
    show (lookup m (fun _ => Option.none) f >>= fun g => (evaluator W m (a + 1) k).apply g []) = _
    rw [hf]
    rfl
  have h3 : (evaluator W m (a + 1) k).eval (fun _ => Option.none) (.call (some t) (.variable f) []) =
      ((evaluator W m (a + 1) k).apply g []).noReturn := by
    rw [evaluator_eval]
    simp only [stepEval]
    rw [evaluator_eval]
    simp only [stepEval]
    rw [hf]
    rfl
  rw [h1, h2]
  simp only [analyzedBody, stepEval]
  rw [h3]
  simp only [Out.absorb, bind_apply, Out.bind, Out.noReturn]
  cases hr : (evaluator W m (a + 1) k).apply g [] log with
  | more => rfl
  | stuck => rfl
  | ret v log => rfl
  | val v log =>
    simp only [wrapResult]
    cases v with
    | variant tag p =>
      simp only [stepAlternatives, evaluator_types, canonicalize, Out.ofRes, val_bind,
        alternativeMatches, unionMembers, List.contains_cons, List.contains_nil, Bool.or_false, beq_iff_eq]
      by_cases h4 : tag = .none
      · simp only [h4, if_true]
        rw [evaluator_eval]
        rfl
      · simp only [h4, if_false, reduceCtorEq]
        by_cases h5 : tag = .error
        · simp only [h5, if_true, alternativeValue]
          rw [evaluator_eval]
          simp only [stepEval]
          rw [evaluator_eval]
          simp only [stepEval, stepBuiltIn]
          rw [evaluator_eval]
          simp only [stepEval, lookup, Env.insert, if_true, val_bind]
          cases p with
          | error s =>
            simp only [val_bind]
            cases s with
            | variant tag p =>
              simp only [stepAlternatives, evaluator_types, canonicalize, Out.ofRes, val_bind,
                alternativeMatches, unionMembers, List.contains_cons, List.contains_nil, Bool.or_false, beq_iff_eq]
              by_cases h6 : tag = .string
              · simp only [h6, if_true, alternativeValue]
                rw [evaluator_eval]
                rfl
              · simp only [h6, if_false, if_true]
                rw [evaluator_eval]
                rfl
            | _ => rfl
          | _ => rfl
        · simp only [h5, if_false]
          rfl
    | _ => rfl

end Verif.Tests
