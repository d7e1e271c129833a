/-
Model of conditionals on lists and maps and what they are transformed into: `/repo/lib/hir-mir/src/transformation/if_list.rs`,
`/repo/lib/hir-mir/src/transformation/if_map.rs`.

Other expressions are represented by variables, numbers, effects, `let`, and calls of functions without arguments. Types are
left out: values carry what tests of types look at, and `downcast` keeps values. Lists and maps are what the functions of the
prelude make of them (C11, C14): nodes of lists are evaluated, with effects, each time they are looked at.
-/
namespace Verif.Lower.Collections

/-- Names of variables. -/
abbrev Name := List Char

/-- Values of programs. Effects of evaluation are sequences of numbers. -/
inductive Plain where
  | number (n : Nat)
  /-- An empty list with the effects of its node. -/
  | nil (log : List Nat)
  /-- A list: the effects of its node, those of its first element and the element, and the rest. -/
  | cons (log : List Nat) (elementLog : List Nat) (element rest : Plain)
  | map (entries : List (Nat × Plain))
  /-- A function without arguments: its effects and result. -/
  | thunk (log : List Nat) (result : Plain)

/-- Values of programs and of the prelude, and of expressions that types forbid. -/
inductive Value where
  | plain (v : Plain)
  | firstRest (first rest : Plain)
  | none
  | empty
  | stuck

/-- Variables with their values, the innermost first. -/
abbrev Env := List (Name × Value)

/-- The value of a variable. -/
def lookup : Env → Name → Value
  | [], _ => .stuck
  | (y, v) :: env, x => if y = x then v else lookup env x

/-- Expressions of programs. -/
inductive Source where
  | var (x : Name)
  | number (n : Nat)
  | effect (n : Nat) (body : Source)
  | let_ (x : Name) (bound body : Source)
  | call (function : Source)
  | ifList (isAny : Bool) (first rest : Name) (list onCons onNil : Source)
  | ifMap (x : Name) (map key onSome onNone : Source)

/-- Expressions after the transformations. -/
inductive Target where
  | var (x : Name)
  | number (n : Nat)
  | effect (n : Nat) (body : Target)
  | let_ (x : Name) (bound body : Target)
  | call (function : Target)
  /-- `FirstRest`, `First` and `Rest`: packages/prelude/List.pen:17-34. -/
  | firstRest (list : Target)
  | first (e : Target)
  | rest (e : Target)
  /-- `GetMap`: packages/prelude/Map.pen:129-131. -/
  | getMap (map key : Target)
  /-- A lambda that calls the variable and downcasts the result. -/
  | downcastThunk (x : Name)
  /-- `IfType` with branches for `FirstRest` and none. -/
  | ifFirstRest (x : Name) (argument onFirstRest onNone : Target)
  /-- `IfType` with a branch for `Empty` and one for any other type. -/
  | ifEmpty (x : Name) (argument onEmpty onAny : Target)

/-- `FIRST_REST_NAME`: lib/hir-mir/src/transformation/if_list.rs:9. -/
def firstRestName : Name := ['$', 'f', 'i', 'r', 's', 't', 'R', 'e', 's', 't']

/-- `transform` of conditionals on lists, lib/hir-mir/src/transformation/if_list.rs:11-130, and on maps,
lib/hir-mir/src/transformation/if_map.rs:9-76. -/
def transform : Source → Target
  | .var x => .var x
  | .number n => .number n
  | .effect n body => .effect n (transform body)
  | .let_ x bound body => .let_ x (transform bound) (transform body)
  | .call function => .call (transform function)
  | .ifList isAny first rest list onCons onNil =>
    .ifFirstRest firstRestName (.firstRest (transform list))
      (.let_ first
        (if isAny then .first (.var firstRestName)
          else .let_ first (.first (.var firstRestName)) (.downcastThunk first))
        (.let_ rest (.rest (.var firstRestName)) (transform onCons)))
      (transform onNil)
  | .ifMap x map key onSome onNone =>
    .ifEmpty x (.getMap (transform map) (transform key)) (transform onNone)
      (.let_ x (.var x) (transform onSome))

/-- Looking at a node of a list: `FirstRest`. -/
def deconstruct : Value → List Nat × Value
  | .plain (.nil log) => (log, .none)
  | .plain (.cons log elementLog element rest) => (log, .firstRest (.thunk elementLog element) rest)
  | _ => ([], .stuck)

/-- `GetMap`. -/
def get : Value → Value → Value
  | .plain (.map entries), .plain (.number key) =>
    match entries.lookup key with
    | some v => .plain v
    | Option.none => .empty
  | _, _ => .stuck

/-- Calling a function without arguments. -/
def callThunk : Value → List Nat × Value
  | .plain (.thunk log result) => (log, .plain result)
  | _ => ([], .stuck)

/-- Evaluation of transformed expressions. -/
def run : Target → Env → List Nat × Value
  | .var x, env => ([], lookup env x)
  | .number n, _ => ([], .plain (.number n))
  | .effect n body, env => let (log, v) := run body env; (n :: log, v)
  | .let_ x bound body, env =>
    let (log, v) := run bound env
    let (log', w) := run body ((x, v) :: env)
    (log ++ log', w)
  | .call function, env =>
    let (log, f) := run function env
    let (log', v) := callThunk f
    (log ++ log', v)
  | .firstRest list, env =>
    let (log, l) := run list env
    let (log', v) := deconstruct l
    (log ++ log', v)
  | .first e, env =>
    match run e env with
    | (log, .firstRest first _) => (log, .plain first)
    | (log, _) => (log, .stuck)
  | .rest e, env =>
    match run e env with
    | (log, .firstRest _ rest) => (log, .plain rest)
    | (log, _) => (log, .stuck)
  | .getMap map key, env =>
    let (log, m) := run map env
    let (log', k) := run key env
    (log ++ log', get m k)
  | .downcastThunk x, env =>
    match lookup env x with
    | .plain (.thunk log result) => ([], .plain (.thunk log result))
    | _ => ([], .stuck)
  | .ifFirstRest x argument onFirstRest onNone, env =>
    match run argument env with
    | (log, .firstRest first rest) =>
      let (log', v) := run onFirstRest ((x, .firstRest first rest) :: env)
      (log ++ log', v)
    | (log, .none) =>
      let (log', v) := run onNone ((x, .none) :: env)
      (log ++ log', v)
    | (log, _) => (log, .stuck)
  | .ifEmpty x argument onEmpty onAny, env =>
    match run argument env with
    | (log, .stuck) => (log, .stuck)
    | (log, .empty) =>
      let (log', v) := run onEmpty ((x, .empty) :: env)
      (log ++ log', v)
    | (log, v) =>
      let (log', w) := run onAny ((x, v) :: env)
      (log ++ log', w)

end Verif.Lower.Collections
