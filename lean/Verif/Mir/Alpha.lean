import Verif.Mir.Syntax

/- Alpha conversion: `/repo/lib/mir/src/analysis/alpha_conversion.rs`. -/
namespace Verif.Mir

/-- How often names have been bound: alpha_conversion/context.rs:4-7. Names that are not in the map are bound zero
times. -/
abbrev Counts := Name → Nat

/-- The name of a binder: context.rs:26-30. -/
def alphaName (x : Name) (count : Nat) : Name := if count = 0 then x else x ++ ":" ++ toString count

/-- `Context::rename`: context.rs:16-31. -/
def Counts.rename (c : Counts) (x : Name) : Name × Counts :=
  (alphaName x (c x), fun y => if y = x then c x + 1 else c y)

/-- Variables; those that are not in the map keep their names: alpha_conversion.rs:236-241. -/
abbrev Renaming := Name → Name

/-- `variables.insert`. -/
def Renaming.insert (ren : Renaming) (x x' : Name) : Renaming := fun y => if y = x then x' else ren y

/-- Renames arguments: alpha_conversion.rs:149-154. -/
def renameMany : List Name → Renaming → Counts → Renaming × Counts
  | [], ren, c => (ren, c)
  | x :: xs, ren, c => renameMany xs (ren.insert x (c.rename x).1) (c.rename x).2

mutual
/-- `transform_expression`: alpha_conversion.rs:62-248. The counts in `context` are passed along. -/
def alpha : Expr → Renaming → Counts → Expr × Counts
  | .literal l, _, c => (.literal l, c)
  | .variable x, ren, c => (.variable (ren x), c)
  | .op o es, ren, c => (.op o (alphaExprs es ren c).1, (alphaExprs es ren c).2)
  | .case e as, ren, c =>
    let e' := alpha e ren c
    let as' := alphaAlts as ren e'.2
    (.case e'.1 as'.1, as'.2)
  | .if_ i t e, ren, c =>
    let i' := alpha i ren c
    let t' := alpha t ren i'.2
    let e' := alpha e ren t'.2
    (.if_ i'.1 t'.1 e'.1, e'.2)
  | .let_ x e b, ren, c =>
    let x' := c.rename x
    let e' := alpha e ren x'.2
    let b' := alpha b (ren.insert x x'.1) e'.2
    (.let_ x'.1 e'.1 b'.1, b'.2)
  | .letRec f env args th body b, ren, c =>
    let f' := c.rename f
    let ren1 := ren.insert f f'.1
    let ren2 := renameMany args ren1 f'.2
    let body' := alpha body ren2.1 ren2.2
    let b' := alpha b ren1 body'.2
    (.letRec f'.1 (env.map ren2.1) (args.map ren2.1) th body'.1 b'.1, b'.2)
  | .try_ e x t b, ren, c =>
    let x' := c.rename x
    let e' := alpha e ren x'.2
    let b' := alpha b (ren.insert x x'.1) e'.2
    (.try_ e'.1 x'.1 t b'.1, b'.2)
  | .clone xs e, ren, c => (.clone xs (alpha e ren c).1, (alpha e ren c).2)
  | .drop xs e, ren, c => (.drop xs (alpha e ren c).1, (alpha e ren c).2)
/-- Operands. -/
def alphaExprs : Exprs → Renaming → Counts → Exprs × Counts
  | .nil, _, c => (.nil, c)
  | .cons e es, ren, c =>
    let e' := alpha e ren c
    let es' := alphaExprs es ren e'.2
    (.cons e'.1 es'.1, es'.2)
/-- Alternatives: alpha_conversion.rs:79-107. -/
def alphaAlts : Alts → Renaming → Counts → Alts × Counts
  | .nil, _, c => (.nil, c)
  | .cons ts x e as, ren, c =>
    let x' := c.rename x
    let e' := alpha e (ren.insert x x'.1) x'.2
    let as' := alphaAlts as ren e'.2
    (.cons ts x'.1 e'.1 as'.1, as'.2)
end

/-- Global names count as bound once: alpha_conversion.rs:8-25. -/
def Program.nameCounts (p : Program) : Counts := fun x => if p.isGlobal x then 1 else 0

/-- `transform`: alpha_conversion.rs:7-60. Arguments of global functions keep their names. -/
def alphaProgram (p : Program) : Program :=
  { p with globals := p.globals.map fun d => { d with body := (alpha d.body id p.nameCounts).1 } }

end Verif.Mir
