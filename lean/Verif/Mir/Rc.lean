import Verif.Mir.Syntax

/- Reference counting: `/repo/lib/mir/src/analysis/reference_count/{transformation,validation}.rs`.

* Sets and maps of names are lists. Where the code turns a set into a list of variables to clone or drop, its order is
  that of a hash map; it is the order of the owned variables here.
* Types of variables are left out. -/
namespace Verif.Mir

/-! ### Transformation -/

/-- `owned_variables.chain([(x, ..)])`. -/
def own (x : Name) (D : List Name) : List Name := if x ∈ D then D else x :: D

/-- The owned variables of a function: transformation.rs:32-46. -/
def ownAll : List Name → List Name → List Name
  | [], D => D
  | x :: xs, D => own x (ownAll xs D)

/-- `clone_variables`: transformation.rs:581-601. -/
def cloneVariables (D xs : List Name) (e : Expr) : Expr :=
  if xs = [] then e else .clone (D.filter (· ∈ xs)) e

/-- `drop_variables`: transformation.rs:603-623. -/
def dropVariables (D xs : List Name) (e : Expr) : Expr :=
  if xs = [] then e else .drop (D.filter (· ∈ xs)) e

/-- `xs.difference(ys)`. -/
def difference (xs ys : List Name) : List Name := xs.filter (· ∉ ys)

/-- Whether operands are transformed from the first to the last: transformation.rs:439-476. The others are transformed
from the last to the first. -/
def isForward : Op → Bool
  | .update _ => true
  | .concatenation => true
  | _ => false

/-- An alternative after its expression is transformed, and the variables moved then. -/
structure AltResult where
  types : Option (List TypeId)
  name : Name
  body : Expr
  moved : List Name

/-- `alternative_moved_variables`: transformation.rs:147-167. Without a default alternative the variables that were moved
already are there. -/
def altsMoved (M : List Name) (rs : List AltResult) : List Name :=
  (if rs.any (·.types.isNone) then [] else M) ++ rs.flatMap fun r => r.moved.filter (· ≠ r.name)

/-- The alternatives with drops: transformation.rs:179-227. -/
def finishAlts (D all : List Name) : List AltResult → Alts
  | [] => .nil
  | r :: rs => .cons r.types r.name
      (dropVariables (own r.name D) (difference (all ++ [r.name]) r.moved) r.body) (finishAlts D all rs)

mutual
/-- `transform_expression`: transformation.rs:77-579. `D` are the owned variables, the last argument those that are
moved already, that is, in what is evaluated later. The result has the variables moved then. -/
def rc (D : List Name) : Expr → List Name → Expr × List Name
  | .literal l, M => (.literal l, M)
  -- transformation.rs:537-559, 625-631
  | .variable x, M =>
    if x ∈ D ∧ x ∈ M then (cloneVariables D [x] (.variable x), M) else (.variable x, x :: M)
  | .op o es, M =>
    if isForward o then
      let r := rcForward D es M
      (.op o r.1, r.2)
    else
      let r := rcBackward D es M
      (.op o r.1, r.2)
  -- transformation.rs:94-231
  | .case e as, M =>
    let rs := rcAlts D as M
    let all := altsMoved M rs
    let r := rc D e (M ++ all)
    (.case r.1 (finishAlts D all rs), r.2)
  -- transformation.rs:266-302
  | .if_ c t e, M =>
    let t' := rc D t M
    let e' := rc D e M
    let all := t'.2 ++ e'.2
    let c' := rc D c all
    (.if_ c'.1 (dropVariables D (difference all t'.2) t'.1) (dropVariables D (difference all e'.2) e'.1), c'.2)
  -- transformation.rs:303-352
  | .let_ x e b, M =>
    let b' := rc (own x D) b (M.filter (· ≠ x))
    let e' := rc D e (M ++ b'.2.filter (· ≠ x))
    (.let_ x e'.1 (if x ∈ b'.2 then b'.1 else dropVariables (own x D) [x] b'.1), e'.2)
  -- transformation.rs:353-419, with `transform_function_definition` (26-66)
  | .letRec f env args th body b, M =>
    let b' := rc (own f D) b (M.filter (· ≠ f))
    let M' := M ++ b'.2.filter (· ≠ f)
    let D' := ownAll (f :: env ++ args) []
    let body' := rc D' body []
    (cloneVariables D (env.filter (· ∈ M'))
      (.letRec f env args th (dropVariables D' (difference D' body'.2) body'.1)
        (if f ∈ b'.2 then b'.1 else dropVariables (own f D) [f] b'.1)),
      M' ++ env)
  -- transformation.rs:477-523
  | .try_ e x t b, M =>
    let b' := rc D b []
    let then_ := b'.2.filter (· ≠ x)
    let all := then_ ++ M
    let e' := rc D e all
    (dropVariables D (difference all M) (.try_ e'.1 x t (dropVariables D (difference all then_) b'.1)), e'.2)
  -- `ExpressionNotSupported`: see `rcProgram`
  | .clone xs e, M => (.clone xs e, M)
  | .drop xs e, M => (.drop xs e, M)
/-- Operands from the last to the first: transformation.rs:79-93, 232-265, 420-438. -/
def rcBackward (D : List Name) : Exprs → List Name → Exprs × List Name
  | .nil, M => (.nil, M)
  | .cons e es, M =>
    let es' := rcBackward D es M
    let e' := rc D e es'.2
    (.cons e'.1 es'.1, e'.2)
/-- Operands from the first to the last: transformation.rs:439-476. -/
def rcForward (D : List Name) : Exprs → List Name → Exprs × List Name
  | .nil, M => (.nil, M)
  | .cons e es, M =>
    let e' := rc D e M
    let es' := rcForward D es e'.2
    (.cons e'.1 es'.1, es'.2)
/-- Alternatives: transformation.rs:95-145. -/
def rcAlts (D : List Name) : Alts → List Name → List AltResult
  | .nil, _ => []
  | .cons ts x e as, M =>
    let e' := rc (own x D) e (M.filter (· ≠ x))
    ⟨ts, x, e'.1, e'.2⟩ :: rcAlts D as M
end

mutual
/-- Whether there are no clones and drops yet: transformation.rs:573-577. -/
def uncounted : Expr → Bool
  | .literal _ => true
  | .variable _ => true
  | .op _ es => uncountedExprs es
  | .case e as => uncounted e && uncountedAlts as
  | .if_ c t e => uncounted c && uncounted t && uncounted e
  | .let_ _ e b => uncounted e && uncounted b
  | .letRec _ _ _ _ body b => uncounted body && uncounted b
  | .try_ e _ _ b => uncounted e && uncounted b
  | .clone _ _ => false
  | .drop _ _ => false
def uncountedExprs : Exprs → Bool
  | .nil => true
  | .cons e es => uncounted e && uncountedExprs es
def uncountedAlts : Alts → Bool
  | .nil => true
  | .cons _ _ e as => uncounted e && uncountedAlts as
end

/-- `transform_function_definition` of a global function: transformation.rs:26-66. -/
def rcGlobal (d : Global) : Global :=
  let D := ownAll d.args []
  let body := rc D d.body []
  { d with body := dropVariables D (difference D body.2) body.1 }

/-- `transform`: transformation.rs:6-24. `none` is an error. -/
def rcProgram (p : Program) : Option Program :=
  if p.globals.all fun d => uncounted d.body then some { p with globals := p.globals.map rcGlobal } else none

/-! ### Validation -/

/-- `variables`: counts of names. -/
abbrev VMap := List (Name × Int)

def VMap.get (V : VMap) (x : Name) : Option Int := (V.find? (·.1 == x)).map (·.2)

/-- `variables.insert`. -/
def VMap.set (V : VMap) (x : Name) (n : Int) : VMap := (x, n) :: V

/-- `clone_variable` and `drop_variable`: validation.rs:261-275. -/
def VMap.add (V : VMap) (n : Int) (x : Name) : VMap :=
  match V.get x with
  | some c => V.set x (c + n)
  | none => V

def VMap.addAll (V : VMap) (n : Int) (xs : List Name) : VMap := xs.foldl (fun V x => V.add n x) V

/-- An entry of `filter_valid_variables`: validation.rs:253-259. -/
def VMap.valid (V : VMap) (x : Name) : Int := (V.get x).getD 0

/-- `validate_conditional_variables`: validation.rs:235-251. -/
def VMap.agree (V W : VMap) : Bool := (V.map (·.1) ++ W.map (·.1)).all fun x => V.valid x == W.valid x

/-- Whether all counts are zero: validation.rs:52-59, 166-170. -/
def VMap.allZero (V : VMap) : Bool := V.all fun e => V.valid e.1 == 0

/-- The end of `validate_let_like`: validation.rs:222-230. -/
def VMap.leave (old : Option Int) (x : Name) (V : VMap) : Option VMap :=
  if V.get x = some 0 then
    match old with
    | some c => some (V.set x c)
    | none => some V
  else none

/-- The result of a `Case`: validation.rs:84-105: all alternatives are compared with the default one or, if there is none,
with the first. -/
def casesAgree (rs : List (Bool × VMap)) : Option VMap :=
  match (match rs.find? (·.1) with
    | some r => some r
    | none => rs.head?) with
  | some r => if rs.all fun s => r.2.agree s.2 then some r.2 else none
  | none => none

mutual
/-- `move_expression`: validation.rs:67-187. -/
def move : Expr → VMap → Option VMap
  | .literal _, V => some V
  | .variable x, V => some (V.add (-1) x)
  | .op _ es, V => moveExprs es V
  | .case e as, V => (move e V).bind fun V => (moveAlts as V).bind casesAgree
  | .if_ c t e, V => (move c V).bind fun V =>
      (move t V).bind fun Vt => (move e V).bind fun Ve => if Ve.agree Vt then some Ve else none
  | .let_ x e b, V => (move e V).bind fun V => (move b (V.set x 1)).bind (VMap.leave (V.get x) x)
  | .letRec f env args _ body b, V =>
    match move body (((f :: env ++ args)).map fun x => (x, 1)) with
    | some W =>
      if W.allZero then
        let V := V.addAll (-1) env
        (move b (V.set f 1)).bind (VMap.leave (V.get f) f)
      else none
    | none => none
  | .try_ e x _ b, V => (move e V).bind fun V =>
      ((move b (V.set x 1)).bind (VMap.leave (V.get x) x)).bind fun W => if W.allZero then some V else none
  | .clone xs e, V => move e (V.addAll 1 xs)
  | .drop xs e, V => move e (V.addAll (-1) xs)
def moveExprs : Exprs → VMap → Option VMap
  | .nil, V => some V
  | .cons e es, V => (move e V).bind (moveExprs es)
/-- `validate_let_like` (validation.rs:213-233) of the alternatives, and which one is the default one. -/
def moveAlts : Alts → VMap → Option (List (Bool × VMap))
  | .nil, _ => some []
  | .cons ts x e as, V =>
    ((move e (V.set x 1)).bind (VMap.leave (V.get x) x)).bind fun W =>
      (moveAlts as V).map fun rs => (ts.isNone, W) :: rs
end

/-- `validate_global_function_definition`: validation.rs:13-25. -/
def validateGlobal (d : Global) : Bool :=
  match move d.body (d.args.map fun x => (x, 1)) with
  | some V => V.allZero
  | none => false

/-- `validate`: validation.rs:5-11. -/
def validateProgram (p : Program) : Bool := p.globals.all validateGlobal

end Verif.Mir
