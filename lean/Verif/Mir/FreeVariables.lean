import Verif.Mir.Syntax

/- Free variables: `/repo/lib/mir/src/analysis/free_variable.rs`. Sets of names are lists. -/
namespace Verif.Mir

mutual
/-- `find_in_expression`: free_variable.rs:8-78, with `find_in_definition` (112-125) and `find_in_drop_variables`
(102-104). -/
def free : Expr → List Name
  | .literal _ => []
  | .variable x => [x]
  | .op _ es => freeExprs es
  | .case e as => free e ++ freeAlts as
  | .if_ c t e => free c ++ free t ++ free e
  | .let_ x e b => free e ++ (free b).filter (· != x)
  | .letRec f _ args _ body b =>
    ((free body).filter (fun x => x != f && args.all (x != ·)) ++ free b).filter (· != f)
  | .try_ e x _ b => free e ++ (free b).filter (· != x)
  | .clone _ e => free e
  | .drop _ e => free e
/-- Operands: free_variable.rs:10-13, 16-24, 47-65, 106-110. -/
def freeExprs : Exprs → List Name
  | .nil => []
  | .cons e es => free e ++ freeExprs es
/-- Alternatives: free_variable.rs:80-100. -/
def freeAlts : Alts → List Name
  | .nil => []
  | .cons _ x e as => (free e).filter (· != x) ++ freeAlts as
end

end Verif.Mir
