import Verif.Hir.Elaborate

/-!
# Evaluation of analyzed modules

A big-step semantics of HIR modules after `analyze`, following the code `lib/hir-mir` generates for each
construct: representations are explicit. A value of type `any` or of a union type is a `variant` carrying the
canonical type it was made from, everything else is bare; only coercions build variants and only type
branches and `?` take them apart. An operation applied to a value of the wrong representation is `stuck`: the
generated code would read memory as something it is not, or run into `unreachable`.

Evaluation takes fuel for calls and for steps of lists: `more` means that it ran out, so a run that needs more
than any fuel diverges. Side effects are calls of functions of other modules and of the system: they are logged,
and what such a function returns depends on the log. That, the results of number arithmetic and of value
comparison, and the order in which `race` delivers elements are parameters (`World`).
-/

namespace Verif.Hir

mutual
/-- Run-time values. -/
inductive Val where
  | none
  | boolean (b : Bool)
  | number (n : UInt64)
  | string (bytes : List UInt8)
  /-- An error with its source, a value of type `any` (`lib/hir-mir/src/error_type.rs`). -/
  | error (source : Val)
  /-- A record and its fields; the first of several values of a field counts. -/
  | record (name : String) (fields : List (String × Val))
  /-- A function of this module or a local one, with the values of its free variables. -/
  | closure (env : String → Option Val) (params : List String) (body : Expr)
  /-- A function of another module or of the system. -/
  | foreign (name : String)
  /-- The function of no arguments that `if [x, ...xs]` and comprehensions bind to an element: it evaluates the
  element and downcasts it to the type. -/
  | element (item : Item) (type : Ty)
  /-- The function of no arguments that `go(e)` results in; `type` is the result type of `e`. -/
  | spawned (env : String → Option Val) (e : Expr) (type : Ty)
  /-- A list, unevaluated. -/
  | list (items : List Item)
  /-- A map. Keys and values are variants. -/
  | map (entries : List (Val × Val))
  /-- A value of type `any` or of a union type, with the type it was coerced from. -/
  | variant (tag : Ty) (payload : Val)
/-- Parts of unevaluated lists. -/
inductive Item where
  /-- One element: an expression of the type, to be coerced to `any`. -/
  | one (env : String → Option Val) (e : Expr) (type : Ty)
  /-- All elements of a list. -/
  | many (env : String → Option Val) (e : Expr)
  /-- A comprehension not started yet. -/
  | comprehension (env : String → Option Val) (type : Ty) (elem : Expr) (branch : Branch Expr)
      (branches : List (Branch Expr))
  /-- A comprehension branch iterating over what is left of its lists. -/
  | loop (env : String → Option Val) (type : Ty) (elem : Expr) (branch : Branch Expr)
      (branches : List (Branch Expr)) (lists : List (List Item))
  /-- Keys or values of a map (`values = true`), which have the type. -/
  | entries (env : String → Option Val) (e : Expr) (values : Bool) (type : Ty)
  /-- A stored element, a variant of a value of the type. -/
  | stored (v : Val) (type : Ty)
  /-- `race(e)` not started yet; elements of `e` have the type. -/
  | race (env : String → Option Val) (e : Expr) (type : Ty)
  /-- What is left of the lists of a race. -/
  | racing (lists : List (List Item))
end

/-- Environments: values of local variables. -/
abbrev Env := String → Option Val

/-- Binding a variable. -/
def Env.insert (env : Env) (x : String) (v : Val) : Env := fun y => if y = x then some v else env y

/-- Binding several variables. -/
def Env.insertAll (env : Env) : List (String × Val) → Env
  | [] => env
  | (x, v) :: xs => (env.insert x v).insertAll xs

/-- A call of a function of another module or of the system. -/
structure Event where
  name : String
  args : List Val
  result : Val

/-- The calls so far, the last one first. -/
abbrev Log := List Event

/-- Outcomes: a value, an early return from the enclosing function by `?`, an operation on a wrong
representation, or not enough fuel. -/
inductive Result (α : Type) where
  | val (a : α) (log : Log)
  | ret (v : Val) (log : Log)
  | stuck
  | more

/-- Computations. -/
def Out (α : Type) : Type := Log → Result α

/-- A value. -/
def Out.val {α : Type} (a : α) : Out α := fun log => .val a log

/-- An early return. -/
def Out.ret {α : Type} (v : Val) : Out α := fun log => .ret v log

/-- An operation on a wrong representation. -/
def Out.stuck {α : Type} : Out α := fun _ => .stuck

/-- Not enough fuel. -/
def Out.more {α : Type} : Out α := fun _ => .more

/-- Sequencing. -/
def Out.bind {α β : Type} (x : Out α) (f : α → Out β) : Out β := fun log =>
  match x log with
  | .val a log => f a log
  | .ret v log => .ret v log
  | .stuck => .stuck
  | .more => .more

instance : Monad Out where
  pure := .val
  bind := Out.bind

/-- Left-to-right evaluation. -/
def Out.mapList {α β : Type} (f : α → Out β) : List α → Out (List β)
  | [] => .val []
  | a :: as => do
    let b ← f a
    let bs ← Out.mapList f as
    .val (b :: bs)

/-- An evaluation in a function of its own whose result is not a variant: an early return in it would return
a value of another representation. -/
def Out.noReturn {α : Type} (o : Out α) : Out α := fun log =>
  match o log with
  | .ret _ _ => .stuck
  | r => r

/-- The end of a function: an early return becomes its result. -/
def Out.absorb (o : Out Val) : Out Val := fun log =>
  match o log with
  | .ret v log => .val v log
  | r => r

/-- Results of the type analysis, which the compiler has when it generates code. -/
def Out.ofRes {α : Type} : Res Err α → Out α
  | .ok a => .val a
  | .err _ => .stuck
  | .more => .more

/-- What a module's behaviour depends on besides the module. -/
structure World where
  arithmetic : ArithOp → UInt64 → UInt64 → UInt64
  add : UInt64 → UInt64 → UInt64
  compare : OrderOp → UInt64 → UInt64 → Bool
  equalNumbers : UInt64 → UInt64 → Bool
  equal : Val → Val → Bool
  reflectEqual : Val → Val → Option Bool
  debug : Val → List UInt8
  /-- Numbers of elements as 64-bit floats. -/
  count : Nat → UInt64
  /-- Which of so many racing lists is next to deliver; the number is the fuel left. -/
  pick : Nat → Nat → Nat
  /-- Results of functions of other modules and of the system. -/
  call : Log → String → List Val → Val

/-- `TypeCoercion` in `compile` (`lib/hir-mir/src/expression.rs:210-260`). -/
def coerceValue (n : Nat) (A : Aliases) (src dst : Ty) (v : Val) : Out Val := do
  let f ← Out.ofRes (canonicalize n A src)
  let t ← Out.ofRes (canonicalize n A dst)
  match f, t with
  | .any, _ => .val v
  | .union _ _, _ => .val v
  | .list _, .list _ => .val v
  | .map _ _, .map _ _ => .val v
  | .reference _, _ => .stuck
  | f, _ => .val (.variant f v)

/-- `compile_alternative` (`lib/hir-mir/src/expression.rs:297-350`) for the canonical type `c`: whether the
alternative for a branch of this type applies to a variant of the tag. -/
def alternativeMatches (c tag : Ty) : Bool := (unionMembers c).contains tag

/-- What the name of a branch is bound to: an alternative with several types binds the variant itself, one
with a single type its payload (`compile_alternative`, `:297-350`). -/
def alternativeValue (c tag : Ty) (payload : Val) : Val :=
  match c with
  | .union _ _ => .variant tag payload
  | _ => payload

/-- `downcast::compile` (`lib/hir-mir/src/downcast.rs:12-50`) from `any`. -/
def downcastValue (n : Nat) (A : Aliases) (t : Ty) (v : Val) : Out Val := do
  let c ← Out.ofRes (canonicalize n A t)
  if c = .any then .val v
  else match v with
    | .variant tag p => if alternativeMatches c tag then .val (alternativeValue c tag p) else .stuck
    | _ => .stuck

/-- `Type::into_function` of the canonical type. -/
def functionType (n : Nat) (A : Aliases) (t : Option Ty) : Out (List Ty × Ty) :=
  match t with
  | some t => Out.ofRes (expectFunction n A t)
  | none => .stuck

/-- `context.map_type` `set` with the comparison of the context. -/
def mapSet (W : World) (es : List (Val × Val)) (k v : Val) : List (Val × Val) :=
  es.filter (fun e => !W.equal e.1 k) ++ [(k, v)]

/-- Value of the field of a record. -/
def lookupField (fs : List (String × Val)) (x : String) : Option Val :=
  (fs.find? (fun f => f.1 == x)).map (·.2)

/-- The evaluation functions with the fuel for types, which the compiler has when it generates code, and the
fuel that is left. -/
structure Evaluator where
  types : Nat
  fuel : Nat
  eval : Env → Expr → Out Val
  apply : Val → List Val → Out Val
  uncons : List Item → Out (Option (Item × List Item))
  force : Item → Out Val

/-- Expecting a list. -/
def Val.asList : Val → Out (List Item)
  | .list is => .val is
  | _ => .stuck

/-- Expecting a map. -/
def Val.asMap : Val → Out (List (Val × Val))
  | .map es => .val es
  | _ => .stuck

/-- Expecting a number. -/
def Val.asNumber : Val → Out UInt64
  | .number i => .val i
  | _ => .stuck

/-- Expecting a string. -/
def Val.asString : Val → Out (List UInt8)
  | .string s => .val s
  | _ => .stuck

/-- Expecting a boolean. -/
def Val.asBoolean : Val → Out Bool
  | .boolean b => .val b
  | _ => .stuck

/-- Expecting a record of the type: positions of its fields depend on the type. -/
def Val.asRecord (n : Nat) (A : Aliases) (t : Ty) (v : Val) : Out (String × List (String × Val)) :=
  match v with
  | .record x fs => do
    match ← Out.ofRes (canonicalize n A t) with
    | .record y => if x = y then .val (x, fs) else .stuck
    | _ => .stuck
  | _ => .stuck

section
variable (W : World) (m : Module) (r : Evaluator)

/-- Variables: local ones, function definitions, declared functions
(`lib/hir-mir/src/module.rs:20-70`; local names hide global ones). -/
def lookup (env : Env) (x : String) : Out Val :=
  match env x with
  | some v => .val v
  | none =>
    match lastLookup (m.definitions.map fun d => (d.name, d)) x with
    | some d => .val (.closure (fun _ => none) (d.params.map (·.1)) d.body)
    | none => if (m.declarations.map (·.1)).contains x then .val (.foreign x) else .stuck

/-- Calls of function values. A function absorbs the early returns of its body. The body of `go(e)` is a thunk
of its own with a variant as its result, and so absorbs early returns of `e`
(`lib/hir-mir/src/built_in_call.rs:181-249`). -/
def stepApply (f : Val) (args : List Val) : Out Val :=
  match f with
  | .closure env params body =>
    if params.length = args.length then (r.eval (Env.insertAll env (params.zip args)) body).absorb else .stuck
  | .foreign x => fun log => .val (W.call log x args) (⟨x, args, W.call log x args⟩ :: log)
  | .element item t =>
    match args with
    | [] => do
      let v ← r.force item
      downcastValue r.types (m.ctx.types) t v
    | _ => .stuck
  | .spawned env e t =>
    match args with
    | [] => do
      let v ← Out.absorb (do
        let f ← r.eval env e
        let v ← (r.apply f []).noReturn
        coerceValue r.types (m.ctx.types) t .any v)
      downcastValue r.types (m.ctx.types) t v
    | _ => .stuck
  | _ => .stuck

/-- Elements of lists: the thunks built by `list_literal::transform`
(`lib/hir-mir/src/transformation/list_literal.rs:69-104`). A stored element is downcast from `any` and coerced
back (`lib/hir-mir/src/built_in_call.rs:360-386`). -/
def stepForce (item : Item) : Out Val :=
  match item with
  | .one env e t => do
    let v ← (r.eval env e).noReturn
    coerceValue r.types (m.ctx.types) t .any v
  | .stored v t => do
    let v ← downcastValue r.types (m.ctx.types) t v
    coerceValue r.types (m.ctx.types) t .any v
  | _ => .stuck

/-- The chain of `IfList` expressions in `compile_function_definition`
(`lib/hir-mir/src/list_comprehension.rs:148-167`): takes one element of each list, binding the names, or stops
at the first empty list. -/
def unconsAll : Env → List ((String × (Option Ty × Expr)) × List Item) →
    Out (Option (Env × List (List Item)))
  | env, [] => .val (some (env, []))
  | env, ((x, (t, _)), is) :: rest => do
    match ← r.uncons is with
    | none => .val none
    | some (item, is) => do
      let t ← match t with
        | some t => Out.ofRes (expectList r.types (m.ctx.types) t)
        | none => .stuck
      match ← unconsAll (env.insert x (.element item t)) rest with
      | none => .val none
      | some (env, iss) => .val (some (env, is :: iss))

/-- The element a turn of a comprehension delivers: `compile` (`lib/hir-mir/src/list_comprehension.rs:11-35`). -/
def comprehensionItem (env : Env) (t : Ty) (e : Expr) : List (Branch Expr) → Item
  | [] => .one env e t
  | b :: bs => .many env (.comprehension t e b bs)

/-- All elements of a list, evaluated. -/
def forceAll : Nat → List Item → Out (List Val)
  | 0, _ => .more
  | n + 1, is => do
    match ← r.uncons is with
    | none => .val []
    | some (item, is) => do
      let v ← r.force item
      let vs ← forceAll n is
      .val (v :: vs)

/-- Number of elements of a list. -/
def countAll : Nat → List Item → Out Nat
  | 0, _ => .more
  | n + 1, is => do
    match ← r.uncons is with
    | none => .val 0
    | some (_, is) => do
      let k ← countAll n is
      .val (k + 1)

/-- Deconstruction of lists (`deconstruct` of `packages/prelude/list.pen`): the first element, unevaluated,
and the rest. Spreads, comprehensions, keys, values and races are unfolded when reached: their code runs in
functions of their own that result in lists. -/
def stepUncons (items : List Item) : Out (Option (Item × List Item)) :=
  match items with
  | [] => .val none
  | .one env e t :: is => .val (some (.one env e t, is))
  | .stored v t :: is => .val (some (.stored v t, is))
  | .many env e :: is => do
    let v ← (r.eval env e).noReturn
    let js ← v.asList
    r.uncons (js ++ is)
  | .comprehension env t e b bs :: is => do
    let vs ← (Out.mapList (fun i : Option Ty × Expr => r.eval env i.2) b.iteratees).noReturn
    let ls ← Out.mapList Val.asList vs
    r.uncons (.loop env t e b bs ls :: is)
  | .loop env t e b bs ls :: is => do
    match ← unconsAll m r env ((b.names.zip b.iteratees).zip ls) with
    | none => r.uncons is
    | some (env', ls) => do
      let c ← match b.condition with
        | none => .val true
        | some c => do
          let v ← (r.eval env' c).noReturn
          v.asBoolean
      if c then r.uncons (comprehensionItem env' t e bs :: .loop env t e b bs ls :: is)
      else r.uncons (.loop env t e b bs ls :: is)
  | .entries env e values t :: is => do
    let v ← (r.eval env e).noReturn
    let es ← v.asMap
    r.uncons (es.map (fun p => .stored (if values then p.2 else p.1) t) ++ is)
  | .race env e t :: is => do
    let v ← (r.eval env e).noReturn
    let js ← v.asList
    let vs ← forceAll r r.fuel js
    let ls ← Out.mapList (fun v => do
      let v ← downcastValue r.types (m.ctx.types) t v
      v.asList) vs
    r.uncons (.racing ls :: is)
  | .racing [] :: is => r.uncons is
  | .racing (l :: ls) :: is => do
    let i := W.pick r.fuel (l :: ls).length % (l :: ls).length
    match ← r.uncons ((l :: ls).getD i []) with
    | none => r.uncons (.racing ((l :: ls).eraseIdx i) :: is)
    | some (item, rest) => .val (some (item, .racing ((l :: ls).set i rest) :: is))

/-- Built-in functions (`lib/hir-mir/src/built_in_call.rs:18-286`). -/
def stepBuiltIn (env : Env) (type : Option Ty) (f : BuiltIn) (args : List Expr) : Out Val :=
  match f, args with
  | .debug, [a] => do
    let _ ← r.eval env a
    .val .none
  | .delete, [a, b] => do
    let v ← r.eval env a
    let es ← v.asMap
    let k ← r.eval env b
    let ft ← functionType r.types (m.ctx.types) type
    match ft.1 with
    | [_, kt] => do
      let k ← coerceValue r.types (m.ctx.types) kt .any k
      .val (.map (es.filter fun e => !W.equal e.1 k))
    | _ => .stuck
  | .error, [a] => do
    let v ← r.eval env a
    match v with
    | .variant tag p => if tag = .error then .val p else .val (.error (.variant tag p))
    | _ => .stuck
  | .keys, [a] => do
    let ft ← functionType r.types (m.ctx.types) type
    match ft.1 with
    | [t] => do
      let kv ← Out.ofRes (expectMap r.types (m.ctx.types) t)
      .val (.list [.entries env a false kv.1])
    | _ => .stuck
  | .values, [a] => do
    let ft ← functionType r.types (m.ctx.types) type
    match ft.1 with
    | [t] => do
      let kv ← Out.ofRes (expectMap r.types (m.ctx.types) t)
      .val (.list [.entries env a true kv.2])
    | _ => .stuck
  | .race, [a] => do
    let ft ← functionType r.types (m.ctx.types) type
    .val (.list [.race env a ft.2])
  | .reflectDebug, [a] => do
    let v ← r.eval env a
    .val (.string (W.debug v))
  | .reflectEqual, [a, b] => do
    let v ← r.eval env a
    let w ← r.eval env b
    match W.reflectEqual v w with
    | none => .val (.variant .none .none)
    | some b => .val (.variant .boolean (.boolean b))
  | .size, [a] => do
    let v ← r.eval env a
    match v with
    | .list is => do
      let k ← countAll r r.fuel is
      .val (.number (W.count k))
    | .map es => .val (.number (W.count es.length))
    | _ => .stuck
  | .source, [a] => do
    let v ← r.eval env a
    match v with
    | .error s => .val s
    | _ => .stuck
  | .spawn, [a] => do
    let ft ← functionType r.types (m.ctx.types) type
    match ft.1 with
    | [t] => do
      let gt ← Out.ofRes (expectFunction r.types (m.ctx.types) t)
      .val (.spawned env a gt.2)
    | _ => .stuck
  | _, _ => .stuck

/-- Alternatives of a type branch in the order they are tried
(`lib/hir-mir/src/expression.rs:61-103`): the branches, then the else branch. -/
def stepAlternatives (env : Env) (x : String) (tag : Ty) (p : Val) : List (Ty × Expr) →
    Option (Option Ty × Expr) → Out Val
  | (t, e) :: bs, else_ => do
    let c ← Out.ofRes (canonicalize r.types (m.ctx.types) t)
    if alternativeMatches c tag then r.eval (env.insert x (alternativeValue c tag p)) e
    else stepAlternatives env x tag p bs else_
  | [], some (some t, e) => do
    let c ← Out.ofRes (canonicalize r.types (m.ctx.types) t)
    if c = .any then r.eval (env.insert x (.variant tag p)) e
    else if alternativeMatches c tag then r.eval (env.insert x (alternativeValue c tag p)) e
    else .stuck
  | [], _ => .stuck

/-- Map literals (`lib/hir-mir/src/transformation/map_literal.rs:38-132`), the elements in reverse order: a
spread map is merged with what precedes it as the *first* argument of `merge`, so that it is evaluated first and
its entries are overridden. The case of a single spread map is that of merging with the empty map. -/
def stepMap (env : Env) (k v : Ty) : List (MapElem Expr) → Out (List (Val × Val))
  | [] => .val []
  | .single a b :: rest => do
    let es ← stepMap env k v rest
    let a ← r.eval env a
    let a ← coerceValue r.types (m.ctx.types) k .any a
    let b ← r.eval env b
    let b ← coerceValue r.types (m.ctx.types) v .any b
    .val (mapSet W es a b)
  | .multiple e :: rest => do
    let w ← r.eval env e
    let fs ← w.asMap
    let es ← stepMap env k v rest
    .val (es.foldl (fun es e => mapSet W es e.1 e.2) fs)

/-- Comparison of values of a type (`lib/hir-mir/src/expression.rs:381-421`). -/
def stepEqual (env : Env) (t : Ty) (a b : Expr) : Out Bool := do
  match ← Out.ofRes (canonicalize r.types (m.ctx.types) t) with
  | .number => do
    let i ← (← r.eval env a).asNumber
    let j ← (← r.eval env b).asNumber
    .val (W.equalNumbers i j)
  | .string => do
    let v ← r.eval env a
    let w ← r.eval env b
    let s ← v.asString
    let t ← w.asString
    .val (s == t)
  | _ => do
    let v ← r.eval env a
    let w ← r.eval env b
    .val (W.equal v w)

/-- Expressions (`lib/hir-mir/src/expression.rs:21-262`, `:382-527`). The last of several values given for a
field of a record counts. -/
def stepEval (env : Env) (e : Expr) : Out Val :=
  match e with
  | .boolean b => .val (.boolean b)
  | .none => .val .none
  | .number i => .val (.number i)
  | .string s => .val (.string s)
  | .variable x => lookup m env x
  | .builtIn _ => .stuck
  | .call _ f args => do
    let f ← r.eval env f
    let vs ← Out.mapList (r.eval env) args
    (r.apply f vs).noReturn
  | .builtInCall t f args => stepBuiltIn W m r env t f args
  | .if_ c a b => do
    let v ← r.eval env c
    let c ← v.asBoolean
    if c then r.eval env a else r.eval env b
  | .ifList t l first rest a b => do
    let v ← r.eval env l
    let is ← v.asList
    match ← (r.uncons is).noReturn with
    | none => r.eval env b
    | some (item, is) =>
      match t with
      | some t => r.eval ((env.insert first (.element item t)).insert rest (.list is)) a
      | none => .stuck
  | .ifMap kt vt x e k a b => do
    let v ← r.eval env e
    let es ← v.asMap
    let k ← r.eval env k
    match kt, vt with
    | some kt, some vt => do
      let k ← coerceValue r.types (m.ctx.types) kt .any k
      match es.find? (fun e => W.equal e.1 k) with
      | none => r.eval env b
      | some e => do
        let w ← downcastValue r.types (m.ctx.types) vt e.2
        r.eval (env.insert x w) a
    | _, _ => .stuck
  | .ifType x e branches else_ => do
    match ← r.eval env e with
    | .variant tag p => stepAlternatives m r env x tag p branches else_
    | _ => .stuck
  | .lambda params _ b => .val (.closure env (params.map (·.1)) b)
  | .let_ x _ a b => do
    let v ← r.eval env a
    r.eval (env.insertAll (match x with | none => [] | some x => [(x, v)])) b
  | .list t elems => .val (.list (elems.map fun e => match e with
      | .single e => .one env e t
      | .multiple e => .many env e))
  | .comprehension t e b bs => .val (.list [.comprehension env t e b bs])
  | .map k v elems => do
    let es ← stepMap W m r env k v elems.reverse
    .val (.map es)
  | .addition t a b =>
    match t with
    | some .number => do
      let i ← (← r.eval env a).asNumber
      let j ← (← r.eval env b).asNumber
      .val (.number (W.add i j))
    | some .string => do
      let v ← r.eval env a
      let w ← r.eval env b
      let s ← v.asString
      let t ← w.asString
      .val (.string (s ++ t))
    | _ => .stuck
  | .arithmetic op a b => do
    let i ← (← r.eval env a).asNumber
    let j ← (← r.eval env b).asNumber
    .val (.number (W.arithmetic op i j))
  | .booleanOp op a b => do
    let v ← r.eval env a
    let x ← v.asBoolean
    match op, x with
    | .and, false => .val (.boolean false)
    | .or, true => .val (.boolean true)
    | _, _ => r.eval env b
  | .equality (some t) op a b => do
    let q ← stepEqual W m r env t a b
    .val (.boolean (match op with | .equal => q | .notEqual => !q))
  | .equality none _ _ _ => .stuck
  | .not a => do
    let v ← r.eval env a
    let b ← v.asBoolean
    .val (.boolean (!b))
  | .order op a b => do
    let i ← (← r.eval env a).asNumber
    let j ← (← r.eval env b).asNumber
    .val (.boolean (W.compare op i j))
  | .try_ t a => do
    match ← r.eval env a with
    | .variant tag p =>
      if tag = .error then .ret (.variant .error p)
      else match t with
        | some t => do
          let c ← Out.ofRes (canonicalize r.types (m.ctx.types) t)
          if alternativeMatches c tag then .val (alternativeValue c tag p) else .stuck
        | none => .stuck
    | _ => .stuck
  | .record t fields => do
    let fs ← Out.mapList (fun f : String × Expr => do
      let v ← r.eval env f.2
      .val (f.1, v)) fields
    match ← Out.ofRes (canonicalize r.types (m.ctx.types) t) with
    | .record n => .val (.record n fs.reverse)
    | _ => .stuck
  | .deconstruct (some t) e field => do
    let v ← r.eval env e
    let q ← v.asRecord r.types (m.ctx.types) t
    match lookupField q.2 field with
    | some v => .val v
    | none => .stuck
  | .deconstruct none _ _ => .stuck
  | .update t e fields => do
    let v ← r.eval env e
    let q ← v.asRecord r.types (m.ctx.types) t
    let gs ← Out.mapList (fun f : String × Expr => do
      let v ← r.eval env f.2
      .val (f.1, v)) fields
    .val (.record q.1 (gs.reverse ++ q.2))
  | .coercion src dst a => do
    let v ← r.eval env a
    coerceValue r.types (m.ctx.types) src dst v

end

/-- Evaluation of expressions, given the other functions; the number bounds the depth of the expression. -/
def evalWith (W : World) (m : Module) (r : Evaluator) : Nat → Env → Expr → Out Val
  | 0, _, _ => .more
  | d + 1, env, e => stepEval W m { r with eval := evalWith W m r d } env e

/-- The evaluation functions given how calls and lists are evaluated. -/
noncomputable def Evaluator.complete (W : World) (m : Module) (r : Evaluator) : Evaluator :=
  { r with eval := fun env e => evalWith W m r (sizeOf e) env e }

/-- Evaluation with fuel for types and fuel for calls. -/
noncomputable def evaluator (W : World) (m : Module) (a : Nat) : Nat → Evaluator
  | 0 => Evaluator.complete W m
    ⟨a, 0, fun _ _ => .more, fun _ _ => .more, fun _ => .more, fun _ => .more⟩
  | n + 1 =>
    let r := evaluator W m a n
    Evaluator.complete W m
      ⟨a, n + 1, fun _ _ => .more, stepApply W m r, stepUncons W m r, stepForce m r⟩

/-- Calling a function of a module by its name. -/
noncomputable def callFunction (W : World) (m : Module) (a n : Nat) (x : String) (args : List Val) : Out Val := do
  let f ← lookup m (fun _ => none) x
  (evaluator W m a n).apply f args

end Verif.Hir
