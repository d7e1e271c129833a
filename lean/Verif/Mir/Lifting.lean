import Verif.Mir.Syntax
import Verif.Mir.Conversion

/- Lambda lifting: `/repo/lib/mir/src/analysis/lambda_lifting.rs` and `lambda_lifting/{box_,call,context}.rs`. -/
namespace Verif.Mir

def Expr.isVariable : Expr → Bool
  | .variable _ => true
  | _ => false

mutual
/-- `is_boxed`: lambda_lifting/box_.rs:6-75: whether the function `f` is used in other ways than being called. The body of
a local function is not looked into: the function captures all it needs. -/
def isBoxed (f : Name) : Expr → Bool
  | .literal _ => false
  | .variable x => x == f
  | .op o es => if o = .call then isBoxedCall f es else isBoxedExprs f es
  | .case e as => isBoxed f e || isBoxedAlts f as
  | .if_ c t e => isBoxed f c || isBoxed f t || isBoxed f e
  | .let_ x e b => isBoxed f e || (x != f && isBoxed f b)
  | .letRec g env _ _ _ b => env.contains f || (g != f && isBoxed f b)
  | .try_ e _ _ b => isBoxed f e || isBoxed f b
  | .clone _ e => isBoxed f e
  | .drop _ e => isBoxed f e
/-- box_.rs:31-36: a variable that is called is not boxed by that. -/
def isBoxedCall (f : Name) : Exprs → Bool
  | .nil => false
  | .cons e es => (!e.isVariable && isBoxed f e) || isBoxedExprs f es
def isBoxedExprs (f : Name) : Exprs → Bool
  | .nil => false
  | .cons e es => isBoxed f e || isBoxedExprs f es
def isBoxedAlts (f : Name) : Alts → Bool
  | .nil => false
  | .cons _ x e as => (x != f && isBoxed f e) || isBoxedAlts f as
end

def variables : List Name → Exprs
  | [] => .nil
  | x :: xs => .cons (.variable x) (variables xs)

/-- Whether operands of a call start with the variable `f`. -/
def Exprs.calls (f : Name) : Exprs → Bool
  | .cons (.variable g) _ => g == f
  | _ => false

mutual
/-- `call::transform`: lambda_lifting/call.rs:3-157: adds arguments to all calls of `f`. -/
def callTransform (f : Name) (xs : List Name) : Expr → Expr
  | .literal l => .literal l
  | .variable x => .variable x
  | .op o es =>
    if o = .call ∧ es.calls f = true then
      .op o ((callTransformExprs f xs es).append (variables xs))
    else .op o (callTransformExprs f xs es)
  | .case e as => .case (callTransform f xs e) (callTransformAlts f xs as)
  | .if_ c t e => .if_ (callTransform f xs c) (callTransform f xs t) (callTransform f xs e)
  | .let_ x e b => .let_ x (callTransform f xs e) (if x = f then b else callTransform f xs b)
  | .letRec g env args th body b => .letRec g env args th body (if g = f then b else callTransform f xs b)
  | .try_ e x t b => .try_ (callTransform f xs e) x t (if x = f then b else callTransform f xs b)
  | .clone ys e => .clone ys (callTransform f xs e)
  | .drop ys e => .drop ys (callTransform f xs e)
def callTransformExprs (f : Name) (xs : List Name) : Exprs → Exprs
  | .nil => .nil
  | .cons e es => .cons (callTransform f xs e) (callTransformExprs f xs es)
def callTransformAlts (f : Name) (xs : List Name) : Alts → Alts
  | .nil => .nil
  | .cons ts x e as => .cons ts x (if x = f then e else callTransform f xs e) (callTransformAlts f xs as)
end

/-- context.rs:17-23. -/
def liftName (i : Nat) (f : Name) : Name := "mir:lift:" ++ (toString i ++ ":" ++ f)

/-- context.rs:46-52. -/
def fvName (x : Name) (i : Nat) : Name := "fv:" ++ x ++ ":" ++ toString i

/-- `Context`: lambda_lifting/context.rs:3-7. -/
structure LiftState where
  added : List Global
  index : Nat

/-- `add_function_definition`: context.rs:17-44; the added function binds its own name to itself. -/
def LiftState.add (s : LiftState) (f : Name) (args : List Name) (th : Bool) (body : Expr) : Name × LiftState :=
  let g := liftName s.added.length f
  (g, { s with added := s.added ++ [⟨g, args, th, .let_ f (.variable g) body⟩] })

/-- `rename_free_variables`: lambda_lifting.rs:209-222. Names in an environment are different from each other, so the
hash map is a list here. -/
def renameFree : List Name → Nat → List Name
  | [], _ => []
  | x :: xs, i => fvName x i :: renameFree xs (i + 1)

/-- `save_free_variables`: lambda_lifting.rs:224-240. -/
def save : List Name → List Name → Expr → Expr
  | x :: xs, y :: ys, e => .let_ y (.variable x) (save xs ys e)
  | _, _, e => e

/-- The end of the case of `LetRecursive`: lambda_lifting.rs:118-184. -/
def liftFunction (s : LiftState) (f : Name) (env args : List Name) (th : Bool) (body b : Expr) : Expr × LiftState :=
  if env = [] then
    let r := s.add f args th body
    (.let_ f (.variable r.1) b, r.2)
  else if !th && !isBoxed f body && !isBoxed f b then
    let xs := renameFree env s.index
    let s1 : LiftState := { s with index := s.index + env.length }
    let r := s1.add f (args ++ env) th (save env xs (callTransform f xs body))
    (.let_ f (.variable r.1) (save env xs (callTransform f xs b)), r.2)
  else (.letRec f env args th body b, s)

mutual
/-- `transform_expression`: lambda_lifting.rs:52-207. -/
def lift : Expr → LiftState → Expr × LiftState
  | .literal l, s => (.literal l, s)
  | .variable x, s => (.variable x, s)
  | .op o es, s =>
    let r := liftExprs es s
    (.op o r.1, r.2)
  | .case e as, s =>
    let r := lift e s
    let q := liftAlts as r.2
    (.case r.1 q.1, q.2)
  | .if_ c t e, s =>
    let r := lift c s
    let q := lift t r.2
    let u := lift e q.2
    (.if_ r.1 q.1 u.1, u.2)
  | .let_ x e b, s =>
    let r := lift e s
    let q := lift b r.2
    (.let_ x r.1 q.1, q.2)
  | .letRec f env args th body b, s =>
    let r := lift body s
    let q := lift b r.2
    liftFunction q.2 f env args th r.1 q.1
  | .try_ e x t b, s =>
    let r := lift e s
    let q := lift b r.2
    (.try_ r.1 x t q.1, q.2)
  | .clone xs e, s =>
    let r := lift e s
    (.clone xs r.1, r.2)
  | .drop xs e, s =>
    let r := lift e s
    (.drop xs r.1, r.2)
def liftExprs : Exprs → LiftState → Exprs × LiftState
  | .nil, s => (.nil, s)
  | .cons e es, s =>
    let r := lift e s
    let q := liftExprs es r.2
    (.cons r.1 q.1, q.2)
def liftAlts : Alts → LiftState → Alts × LiftState
  | .nil, s => (.nil, s)
  | .cons ts x e as, s =>
    let r := lift e s
    let q := liftAlts as r.2
    (.cons ts x r.1 q.1, q.2)
end

/-- lambda_lifting.rs:14-24. -/
def liftGlobals : List Global → LiftState → List Global × LiftState
  | [], s => ([], s)
  | d :: ds, s =>
    let r := lift d.body s
    let q := liftGlobals ds r.2
    ({ d with body := r.1 } :: q.1, q.2)

/-- `transform`: lambda_lifting.rs:9-37. -/
def liftProgram (p : Program) : Program :=
  let r := liftGlobals p.globals ⟨[], 0⟩
  { p with globals := r.1 ++ r.2.added }

end Verif.Mir
