import Verif.Mir.Syntax

/- Bottom-up conversion and flattening of string concatenations: `/repo/lib/mir/src/analysis/expression_conversion.rs`
and `optimization/string_concatenation.rs`. -/
namespace Verif.Mir

mutual
/-- `transform_expression`: expression_conversion.rs:37-152. -/
def convertExpr (convert : Expr → Expr) : Expr → Expr
  | .literal l => convert (.literal l)
  | .variable x => convert (.variable x)
  | .op o es => convert (.op o (convertExprs convert es))
  | .case e as => convert (.case (convertExpr convert e) (convertAlts convert as))
  | .if_ c t e => convert (.if_ (convertExpr convert c) (convertExpr convert t) (convertExpr convert e))
  | .let_ x e b => convert (.let_ x (convertExpr convert e) (convertExpr convert b))
  | .letRec f env args th body b => convert (.letRec f env args th (convertExpr convert body) (convertExpr convert b))
  | .try_ e x t b => convert (.try_ (convertExpr convert e) x t (convertExpr convert b))
  | .clone xs e => convert (.clone xs (convertExpr convert e))
  | .drop xs e => convert (.drop xs (convertExpr convert e))
def convertExprs (convert : Expr → Expr) : Exprs → Exprs
  | .nil => .nil
  | .cons e es => .cons (convertExpr convert e) (convertExprs convert es)
def convertAlts (convert : Expr → Expr) : Alts → Alts
  | .nil => .nil
  | .cons ts x e as => .cons ts x (convertExpr convert e) (convertAlts convert as)
end

/-- `transform`: expression_conversion.rs:3-35. -/
def convertProgram (convert : Expr → Expr) (p : Program) : Program :=
  { p with globals := p.globals.map fun d => { d with body := convertExpr convert d.body } }

def Exprs.append : Exprs → Exprs → Exprs
  | .nil, fs => fs
  | .cons e es, fs => .cons e (es.append fs)

/-- The operands of an expression if it is a string concatenation. -/
def concatenationOperands : Expr → Option Exprs
  | .op .concatenation es => some es
  | _ => none

/-- The new operands: string_concatenation.rs:6-14. -/
def splice : Exprs → Exprs
  | .nil => .nil
  | .cons e es =>
    match concatenationOperands e with
    | some fs => fs.append (splice es)
    | none => .cons e (splice es)

/-- The conversion: string_concatenation.rs:4-19. -/
def flattenConcatenation (e : Expr) : Expr :=
  match concatenationOperands e with
  | some es => .op .concatenation (splice es)
  | none => e

/-- `transform`: string_concatenation.rs:3-20. -/
def flattenProgram (p : Program) : Program := convertProgram flattenConcatenation p

end Verif.Mir
