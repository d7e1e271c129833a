import Verif.Lower.Collections
/-
C81: conditionals on lists and maps.
-/
namespace Verif.Lower.Collections

/-! ### Specification -/

/-- What expressions of programs mean. A conditional on a list looks at its node once, and has its first element, not
evaluated, and the rest in its first branch only. A conditional on a map evaluates the map and the key once, and has the
value of the key in its first branch only. -/
def evaluate : Source → Env → List Nat × Value
  | .var x, env => ([], lookup env x)
  | .number n, _ => ([], .plain (.number n))
  | .effect n body, env => (n :: (evaluate body env).1, (evaluate body env).2)
  | .let_ x bound body, env =>
    let (log, v) := evaluate bound env
    let (log', w) := evaluate body ((x, v) :: env)
    (log ++ log', w)
  | .call function, env =>
    match evaluate function env with
    | (log, .plain (.thunk log' v)) => (log ++ log', .plain v)
    | (log, _) => (log, .stuck)
  | .ifList _ first rest list onCons onNil, env =>
    match evaluate list env with
    | (log, .plain (.nil nodeLog)) =>
      let (log', v) := evaluate onNil env
      (log ++ nodeLog ++ log', v)
    | (log, .plain (.cons nodeLog elementLog element tail)) =>
      let (log', v) := evaluate onCons ((rest, .plain tail) :: (first, .plain (.thunk elementLog element)) :: env)
      (log ++ nodeLog ++ log', v)
    | (log, _) => (log, .stuck)
  | .ifMap x map key onSome onNone, env =>
    let (log, m) := evaluate map env
    let (log', k) := evaluate key env
    match m, k with
    | .plain (.map entries), .plain (.number k) =>
      match entries.lookup k with
      | some v =>
        let (log'', w) := evaluate onSome ((x, .plain v) :: env)
        (log ++ log' ++ log'', w)
      | Option.none =>
        let (log'', w) := evaluate onNone env
        (log ++ log' ++ log'', w)
    | _, _ => (log ++ log', .stuck)

/-- A variable occurs free in an expression. -/
def Free (y : Name) : Source → Prop
  | .var x => x = y
  | .number _ => False
  | .effect _ body => Free y body
  | .let_ x bound body => Free y bound ∨ (x ≠ y ∧ Free y body)
  | .call function => Free y function
  | .ifList _ first rest list onCons onNil =>
    Free y list ∨ (first ≠ y ∧ rest ≠ y ∧ Free y onCons) ∨ Free y onNil
  | .ifMap x map key onSome onNone => Free y map ∨ Free y key ∨ (x ≠ y ∧ Free y onSome) ∨ Free y onNone

/-- Names of variables in programs are not that of the transformation, and the last branch of a conditional on a map does
not use a variable with the name that the conditional binds. -/
def Tidy : Source → Prop
  | .var x => x ≠ firstRestName
  | .number _ => True
  | .effect _ body => Tidy body
  | .let_ x bound body => x ≠ firstRestName ∧ Tidy bound ∧ Tidy body
  | .call function => Tidy function
  | .ifList _ first rest list onCons onNil =>
    first ≠ firstRestName ∧ rest ≠ firstRestName ∧ Tidy list ∧ Tidy onCons ∧ Tidy onNil
  | .ifMap x map key onSome onNone =>
    x ≠ firstRestName ∧ Tidy map ∧ Tidy key ∧ Tidy onSome ∧ Tidy onNone ∧ ¬ Free x onNone

/-! ### Transformed expressions -/

theorem tidy_free {e : Source} (h : Tidy e) : ¬ Free firstRestName e := by
  induction e with
  | var x => exact h
  | number n => exact id
  | effect n body ih => exact ih h
  | let_ x bound body ih1 ih2 => exact fun hf => hf.elim (ih1 h.2.1) fun hf => ih2 h.2.2 hf.2
  | call f ih => exact ih h
  | ifList a first rest list onCons onNil ih1 ih2 ih3 =>
    exact fun hf => hf.elim (ih1 h.2.2.1) fun hf => hf.elim (fun hf => ih2 h.2.2.2.1 hf.2.2) (ih3 h.2.2.2.2)
  | ifMap x map key onSome onNone ih1 ih2 ih3 ih4 =>
    exact fun hf => hf.elim (ih1 h.2.1) fun hf => hf.elim (ih2 h.2.2.1) fun hf =>
      hf.elim (fun hf => ih3 h.2.2.2.1 hf.2) (ih4 h.2.2.2.2.1)

/-- Environments have the same values for the free variables of an expression. -/
def Agree (e : Source) (env env' : Env) : Prop := ∀ y, Free y e → lookup env y = lookup env' y

theorem run_transform {e : Source} (h : Tidy e) {env env' : Env} (ha : Agree e env env') :
    run (transform e) env' = evaluate e env := by
  induction e generalizing env env' with
  | var x => simp [transform, run, evaluate, ha x rfl]
  | number n => rfl
  | effect n body ih => simp [transform, run, evaluate, ih h ha]
  | let_ x bound body ih1 ih2 =>
    have h1 := ih1 h.2.1 (env := env) (env' := env') fun y hy => ha y (.inl hy)
    have h2 : ∀ v, run (transform body) ((x, v) :: env') = evaluate body ((x, v) :: env) := by
      intro v
      refine ih2 h.2.2 fun y hy => ?_
      simp only [lookup]
      split
      · rfl
      · rename_i hne; exact ha y (.inr ⟨hne, hy⟩)
    simp only [transform, run, evaluate, h1, h2]
  | call f ih =>
    have h1 := ih h ha
    simp only [transform, run, evaluate, h1]
    rcases evaluate f env with ⟨log, v⟩
    cases v with
    | plain v => cases v <;> simp [callThunk]
    | _ => simp [callThunk]
  | ifList isAny first rest list onCons onNil ih1 ih2 ih3 =>
    obtain ⟨hf, hr, t1, t2, t3⟩ := h
    have h1 := ih1 t1 (env := env) (env' := env') fun y hy => ha y (.inl hy)
    have h3 : ∀ v, run (transform onNil) ((firstRestName, v) :: env') = evaluate onNil env := by
      intro v
      refine ih3 t3 fun y hy => ?_
      have : firstRestName ≠ y := by rintro rfl; exact tidy_free t3 hy
      simp only [lookup, if_neg this]
      exact ha y (.inr (.inr hy))
    have h2 : ∀ u v w, run (transform onCons) ((rest, u) :: (first, v) :: (firstRestName, w) :: env') =
        evaluate onCons ((rest, u) :: (first, v) :: env) := by
      intro u v w
      refine ih2 t2 fun y hy => ?_
      have : firstRestName ≠ y := by rintro rfl; exact tidy_free t2 hy
      simp only [lookup, if_neg this]
      split
      · rfl
      · split
        · rfl
        · rename_i n1 n2; exact ha y (.inr (.inl ⟨n2, n1, hy⟩))
    simp only [transform, run, evaluate, h1]
    rcases evaluate list env with ⟨log, v⟩
    cases v with
    | plain v =>
      cases v with
      | cons l el x xs =>
        cases isAny <;> simp [deconstruct, run, lookup, hf, h2]
      | nil l => simp [deconstruct, h3]
      | _ => simp [deconstruct]
    | _ => simp [deconstruct]
  | ifMap x map key onSome onNone ih1 ih2 ih3 ih4 =>
    obtain ⟨hx, t1, t2, t3, t4, hn⟩ := h
    have h1 := ih1 t1 (env := env) (env' := env') fun y hy => ha y (.inl hy)
    have h2 := ih2 t2 (env := env) (env' := env') fun y hy => ha y (.inr (.inl hy))
    have h3 : ∀ v w, run (transform onSome) ((x, v) :: (x, w) :: env') = evaluate onSome ((x, v) :: env) := by
      intro v w
      refine ih3 t3 fun y hy => ?_
      simp only [lookup]
      split
      · rfl
      · rename_i hne; exact ha y (.inr (.inr (.inl ⟨hne, hy⟩)))
    have h4 : ∀ v, run (transform onNone) ((x, v) :: env') = evaluate onNone env := by
      intro v
      refine ih4 t4 fun y hy => ?_
      have : x ≠ y := by rintro rfl; exact hn hy
      simp only [lookup, if_neg this]
      exact ha y (.inr (.inr (.inr hy)))
    simp only [transform, run, evaluate, h1, h2]
    rcases evaluate map env with ⟨log, m⟩
    rcases evaluate key env with ⟨log', k⟩
    cases m with
    | plain m =>
      cases m with
      | map entries =>
        cases k with
        | plain k =>
          cases k with
          | number k =>
            cases hl : entries.lookup k with
            | none => simp [get, hl, h4]
            | some v => simp [get, hl, lookup, h3]
          | _ => simp [get]
        | _ => simp [get]
      | _ => simp [get]
    | _ => simp [get]

/-- Programs do what their conditionals on lists and maps mean, with the same effects in the same order, if the last branches
of conditionals on maps do not use a variable with the name that is bound. -/
theorem c81_conditionals_partial {e : Source} (h : Tidy e) (env : Env) : run (transform e) env = evaluate e env :=
  run_transform h fun _ _ => rfl

/-- The first element of a list is evaluated when it is used, as often as it is. -/
theorem c81_lazy_elements (env : Env) (first rest list : Name) (hd : first ≠ rest) {log elementLog : List Nat}
    {element tail : Plain} (hl : lookup env list = .plain (.cons log elementLog element tail))
    (h : first ≠ firstRestName ∧ rest ≠ firstRestName ∧ list ≠ firstRestName) (isAny : Bool) :
    run (transform (.ifList isAny first rest (.var list) (.number 0) (.number 1))) env = (log, .plain (.number 0)) ∧
    run (transform (.ifList isAny first rest (.var list) (.call (.var first)) (.number 1))) env =
      (log ++ elementLog, .plain element) := by
  constructor
  · rw [c81_conditionals_partial (by simp [Tidy, h])]
    simp [evaluate, hl]
  · rw [c81_conditionals_partial (by simp [Tidy, h])]
    simp [evaluate, hl, lookup, Ne.symm hd]

/-! ### Counterexample and examples -/

/-- `if x = m[1] { x } else { x }`, where `x` is a variable outside. -/
def captured : Source := .ifMap ['x'] (.var ['m']) (.number 1) (.var ['x']) (.var ['x'])

/-- The variable outside is 5, and the map has no values. -/
def capturedEnv : Env := [(['x'], .plain (.number 5)), (['m'], .plain (.map []))]

/-- The last branch of a conditional on a map that uses a variable outside with the name that is bound gets the value that
the prelude has for no value instead. -/
theorem c81_variables_are_captured :
    evaluate captured capturedEnv = ([], .plain (.number 5)) ∧ run (transform captured) capturedEnv = ([], .empty) := by
  constructor <;> rfl

/-- A program with nested conditionals on lists that meets the hypothesis. -/
def nested : Source :=
  .ifList false ['x'] ['x', 's'] (.var ['l'])
    (.ifList true ['y'] ['x', 's'] (.var ['x', 's']) (.call (.var ['x'])) (.number 2)) (.number 3)

example : Tidy nested ∧ run (transform nested) [(['l'], .plain (.cons [1] [2] (.number 7) (.cons [3] [4] (.number 8) (.nil [5]))))] =
    ([1, 3, 2], .plain (.number 7)) := by
  have h : Tidy nested := by simp [nested, Tidy, firstRestName]
  exact ⟨h, by rw [c81_conditionals_partial h]; simp [nested, evaluate, lookup]⟩

end Verif.Lower.Collections
