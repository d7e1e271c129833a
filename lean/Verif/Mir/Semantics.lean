import Verif.Mir.Syntax

/-
What expressions mean: a big-step evaluator. It is the specification that the compiler passes must preserve, and
follows the code generator `/repo/lib/mir-fmm/src/expression.rs` and `entry_function.rs`.

* Operands are evaluated from left to right; foreign calls are logged and answered by an arbitrary oracle that sees
  the whole log, the function and its (first-order) arguments. Functions are opaque to it, and it returns no functions.
* Fuel bounds the depth of calls: `timeout` if it runs out. A program diverges if every fuel times out.
* Reference counting operations do nothing here (see the heap semantics), nor does synchronization.
* Thunks are evaluated every time they are called: their memoisation is not modelled here.
* `stuck` is a type error at run time.
-/
namespace Verif.Mir

inductive Value
  | none
  | boolean (b : Bool)
  | number (n : UInt64)
  | string (s : List UInt8)
  | record (type : TypeId) (vs : List Value)
  | variant (type : TypeId) (v : Value)
  | closure (f : Name) (env : List Name) (args : List Name) (thunk : Bool) (body : Expr) (ρ : Name → Option Value)
  | global (g : Name)

abbrev Env := Name → Option Value

def Env.set (ρ : Env) (x : Name) (v : Value) : Env := fun y => if y = x then some v else ρ y

/-- Binds arguments; `none` if the numbers differ. -/
def Env.setMany (ρ : Env) : List Name → List Value → Option Env
  | [], [] => some ρ
  | x :: xs, v :: vs => (ρ.set x v).setMany xs vs
  | _, _ => none

/-- What native code sees of a value. -/
inductive Obs
  | none
  | boolean (b : Bool)
  | number (n : UInt64)
  | string (s : List UInt8)
  | record (type : TypeId) (vs : List Obs)
  | variant (type : TypeId) (v : Obs)
  | function

mutual
def Value.obs : Value → Obs
  | .none => .none
  | .boolean b => .boolean b
  | .number n => .number n
  | .string s => .string s
  | .record t vs => .record t (Value.obsList vs)
  | .variant t v => .variant t v.obs
  | .closure .. => .function
  | .global _ => .function
def Value.obsList : List Value → List Obs
  | [] => []
  | v :: vs => v.obs :: Value.obsList vs
end

mutual
/-- The value native code returns; there is none for functions. -/
def Obs.value : Obs → Option Value
  | .none => some .none
  | .boolean b => some (.boolean b)
  | .number n => some (.number n)
  | .string s => some (.string s)
  | .record t vs => (Obs.valueList vs).map (.record t)
  | .variant t v => v.value.map (.variant t)
  | .function => Option.none
def Obs.valueList : List Obs → Option (List Value)
  | [] => some []
  | v :: vs => v.value.bind fun v => (Obs.valueList vs).map (v :: ·)
end

/-- A foreign call. -/
structure Event where
  name : Name
  args : List Obs
  result : Obs

abbrev Log := List Event

/-- The world: arithmetic, comparison, and answers of foreign functions. -/
structure World where
  arithmetic : ArithmeticOperator → UInt64 → UInt64 → UInt64
  comparison : ComparisonOperator → UInt64 → UInt64 → Bool
  foreign : Log → Name → List Obs → Obs

/-- Results: a value; an early return from the function; or none. -/
inductive R (α : Type)
  | ok (a : α) (log : Log)
  | ret (v : Value) (log : Log)
  | timeout
  | stuck

def R.bind {α β : Type} (r : R α) (f : α → Log → R β) : R β :=
  match r with
  | .ok a l => f a l
  | .ret v l => .ret v l
  | .timeout => .timeout
  | .stuck => .stuck

/-- The result of a function whose body has this result. -/
def R.catch : R Value → R Value
  | .ret v l => .ok v l
  | r => r

def R.ofOption {α : Type} (o : Option α) (l : Log) : R α :=
  match o with
  | some a => .ok a l
  | none => .stuck

def Literal.value : Literal → Value
  | .none => .none
  | .boolean b => .boolean b
  | .number n => .number n
  | .string s => .string s

/-- Replaces fields: expression.rs:83-190. -/
def updateFields (vs : List Value) : List Nat → List Value → Option (List Value)
  | [], [] => some vs
  | i :: is, w :: ws => if i < vs.length then updateFields (vs.set i w) is ws else none
  | _, _ => none

/-- Concatenates strings: expression.rs:219-274. -/
def concatenate : List Value → Option (List UInt8)
  | [] => some []
  | .string s :: vs => (concatenate vs).map (s ++ ·)
  | _ => none

/-- Strict operations other than calls. -/
def applyOp (w : World) (p : Program) : Op → List Value → Option Value
  | .arithmetic o, [.number a, .number b] => some (.number (w.arithmetic o a b))
  | .comparison o, [.number a, .number b] => some (.boolean (w.comparison o a b))
  | .record t, vs => some (.record t vs)
  | .field i, [.record _ vs] => vs[i]?
  | .update is, .record t vs :: ws => (updateFields vs is ws).map (.record t)
  | .concatenation, vs => (concatenate vs).map .string
  | .synchronize, [v] => some v
  | .typeInformation, [.variant t _] => some (.global (p.typeInformation t))
  | .variant t, [v] => some (.variant t v)
  | _, _ => none

/-- How calls are done: the function, the arguments, the log. -/
abbrev Caller := Value → List Value → Log → R Value

def lookup (p : Program) (ρ : Env) (x : Name) : Option Value :=
  match ρ x with
  | some v => some v
  | none => if p.isGlobal x then some (.global x) else none

/-- What an alternative binds its name to, if it matches a variant: expression.rs:338-401. An alternative with one type
gets the payload; others get the variant. -/
def matchAlternative (types : Option (List TypeId)) (t : TypeId) (v : Value) : Option Value :=
  match types with
  | none => some (.variant t v)
  | some [t'] => if t' = t then some v else none
  | some ts => if t ∈ ts then some (.variant t v) else none

/-- Whether operands have to be numbers. The type checker of MIR guarantees it (mir/src/analysis/type_check.rs:120-130, 141-151). -/
def Op.scalar : Op → Bool
  | .arithmetic _ => true
  | .comparison _ => true
  | _ => false

def Value.isNumber : Value → Bool
  | .number _ => true
  | _ => false

mutual
/-- Evaluation, given how calls are done. `capture` is what a closure keeps of the environment. -/
def eval (w : World) (p : Program) (capture : List Name → Env → Env) (call : Caller) : Env → Expr → Log → R Value
  | _, .literal l, log => .ok l.value log
  | ρ, .variable x, log => R.ofOption (lookup p ρ x) log
  | ρ, .op o es, log => (evals w p capture call o.scalar ρ es log).bind fun vs log =>
      match o, vs with
      | .call, f :: args => call f args log
      | o, vs => R.ofOption (applyOp w p o vs) log
  | ρ, .case e as, log => (eval w p capture call ρ e log).bind fun v log =>
      match v with
      | .variant t v => evalAlts w p capture call ρ t v as log
      | _ => .stuck
  | ρ, .if_ c t e, log => (eval w p capture call ρ c log).bind fun v log =>
      match v with
      | .boolean true => eval w p capture call ρ t log
      | .boolean false => eval w p capture call ρ e log
      | _ => .stuck
  | ρ, .let_ x e b, log => (eval w p capture call ρ e log).bind fun v log =>
      eval w p capture call (ρ.set x v) b log
  | ρ, .letRec f env args th body b, log =>
      eval w p capture call (ρ.set f (.closure f env args th body (capture env ρ))) b log
  | ρ, .try_ e x t then_, log => (eval w p capture call ρ e log).bind fun v log =>
      match v with
      | .variant t' u =>
        if t' = t then (eval w p capture call (ρ.set x u) then_ log).bind fun r log => .ret r log
        else .ok v log
      | _ => .stuck
  | ρ, .clone _ e, log => eval w p capture call ρ e log
  | ρ, .drop _ e, log => eval w p capture call ρ e log
/-- Operands, from left to right. A type error in an operand is one before the next operand is evaluated. -/
def evals (w : World) (p : Program) (capture : List Name → Env → Env) (call : Caller) (scalar : Bool) :
    Env → Exprs → Log → R (List Value)
  | _, .nil, log => .ok [] log
  | ρ, .cons e es, log => (eval w p capture call ρ e log).bind fun v log =>
      if scalar && !v.isNumber then .stuck
      else (evals w p capture call scalar ρ es log).bind fun vs log => .ok (v :: vs) log
def evalAlts (w : World) (p : Program) (capture : List Name → Env → Env) (call : Caller) :
    Env → TypeId → Value → Alts → Log → R Value
  | _, _, _, .nil, _ => .stuck
  | ρ, t, v, .cons ts x e as, log => match matchAlternative ts t v with
    | some u => eval w p capture call (ρ.set x u) e log
    | none => evalAlts w p capture call ρ t v as log
end

/-- Closures keep everything: the meaning before environments are inferred. -/
def captureAll : List Name → Env → Env := fun _ ρ => ρ

/-- Closures keep the variables of their environment: expression.rs:437-486. -/
def captureEnvironment : List Name → Env → Env := fun env ρ x => if x ∈ env then ρ x else none

def callForeign (w : World) (g : Name) (vs : List Value) (log : Log) : R Value :=
  let args := Value.obsList vs
  let result := w.foreign log g args
  R.ofOption result.value (⟨g, args, result⟩ :: log)

/-- Calls, with fuel. -/
def apply (w : World) (p : Program) (capture : List Name → Env → Env) : Nat → Caller
  | 0, _, _, _ => .timeout
  | n + 1, .closure f env args th body ρ, vs, log =>
    match (Env.set ρ f (.closure f env args th body ρ)).setMany args vs with
    | some ρ => (eval w p capture (apply w p capture n) ρ body log).catch
    | none => .stuck
  | n + 1, .global g, vs, log =>
    match p.find g with
    | some d =>
      match Env.setMany (fun _ => none) d.args vs with
      | some ρ => (eval w p capture (apply w p capture n) ρ d.body log).catch
      | none => .stuck
    | none => if p.foreign.contains g then callForeign w g vs log else .stuck
  | _ + 1, _, _, _ => .stuck

/-- Running a global function with arguments from native code. -/
def Program.run (w : World) (p : Program) (capture : List Name → Env → Env) (fuel : Nat) (g : Name) (args : List Obs) : R Value :=
  match Obs.valueList args with
  | some vs => apply w p capture fuel (.global g) vs []
  | none => .stuck

/-- What can be seen of a result: how evaluation ended, the log and the observable part of the value. -/
inductive Outcome
  /-- a value -/
  | value (v : Obs) (log : Log)
  /-- an early return from the function around -/
  | returned (v : Obs) (log : Log)
  | timeout
  | stuck

def R.outcome : R Value → Outcome
  | .ok v l => .value v.obs l
  | .ret v l => .returned v.obs l
  | .timeout => .timeout
  | .stuck => .stuck

end Verif.Mir
