import Verif.Mir.FreeVariables

/- Inference of closure environments: `/repo/lib/mir/src/analysis/environment_inference.rs`. -/
namespace Verif.Mir

/-- The environment of a local function: environment_inference.rs:50-70. Free variables are a set there, whose order is
not specified; types are left out. -/
def inferredEnvironment (known : List Name) (f : Name) (args : List Name) (body : Expr) : List Name :=
  ((free body).filter fun x => !(f :: args).contains x && known.contains x).eraseDups

mutual
/-- `transform_expression`: environment_inference.rs:77-210, with `transform_local_function_definition` (46-75). -/
def infer : List Name → Expr → Expr
  | _, .literal l => .literal l
  | _, .variable x => .variable x
  | known, .op o es => .op o (inferExprs known es)
  | known, .case e as => .case (infer known e) (inferAlts known as)
  | known, .if_ c t e => .if_ (infer known c) (infer known t) (infer known e)
  | known, .let_ x e b => .let_ x (infer known e) (infer (x :: known) b)
  | known, .letRec f _ args th body b =>
    .letRec f (inferredEnvironment known f args body) args th (infer (f :: args ++ known) body) (infer (f :: known) b)
  | known, .try_ e x t b => .try_ (infer known e) x t (infer (x :: known) b)
  | known, .clone xs e => .clone xs (infer known e)
  | known, .drop xs e => .drop xs (infer known e)
def inferExprs : List Name → Exprs → Exprs
  | _, .nil => .nil
  | known, .cons e es => .cons (infer known e) (inferExprs known es)
/-- environment_inference.rs:97-120. -/
def inferAlts : List Name → Alts → Alts
  | _, .nil => .nil
  | known, .cons ts x e as => .cons ts x (infer (x :: known) e) (inferAlts known as)
end

/-- `transform`: environment_inference.rs:5-44. -/
def inferProgram (p : Program) : Program :=
  { p with globals := p.globals.map fun d => { d with body := infer d.args d.body } }

end Verif.Mir
