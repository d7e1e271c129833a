import Verif.Mir.Syntax

/- Normalization into A-normal form: `/repo/lib/mir/src/analysis/normalization.rs` and
`normalization/alias_removal.rs`. -/
namespace Verif.Mir

/-! ### Alias removal -/

/-- Variables; those that are not in the map keep their names: alias_removal.rs:144-149. -/
abbrev Aliases := Name → Name

/-- `variables.insert`. -/
def Aliases.insert (v : Aliases) (x y : Name) : Aliases := fun z => if z = x then y else v z

/-- `variables.remove`. -/
def Aliases.remove (v : Aliases) (x : Name) : Aliases := fun z => if z = x then x else v z

def Aliases.removeMany (v : Aliases) : List Name → Aliases
  | [] => v
  | x :: xs => (v.remove x).removeMany xs

/-- The name of a variable expression. -/
def variableName : Expr → Option Name
  | .variable x => some x
  | _ => none

mutual
/-- `transform_expression`: alias_removal.rs:7-156, with `transform_function_definition` (158-191). -/
def removeAliases : Aliases → Expr → Expr
  | _, .literal l => .literal l
  | v, .variable x => .variable (v x)
  | v, .op o es => .op o (removeAliasesExprs v es)
  | v, .case e as => .case (removeAliases v e) (removeAliasesAlts v as)
  | v, .if_ c t e => .if_ (removeAliases v c) (removeAliases v t) (removeAliases v e)
  | v, .let_ x e b =>
    match variableName (removeAliases v e) with
    | some y => removeAliases (v.insert x y) b
    | none => .let_ x (removeAliases v e) (removeAliases (v.remove x) b)
  | v, .letRec f env args th body b =>
    .letRec f (env.map v) args th (removeAliases ((v.remove f).removeMany args) body) (removeAliases (v.remove f) b)
  | v, .try_ e x t b => .try_ (removeAliases v e) x t (removeAliases (v.remove x) b)
  | v, .clone xs e => .clone xs (removeAliases v e)
  | v, .drop xs e => .drop xs (removeAliases v e)
def removeAliasesExprs : Aliases → Exprs → Exprs
  | _, .nil => .nil
  | v, .cons e es => .cons (removeAliases v e) (removeAliasesExprs v es)
/-- alias_removal.rs:17-41. -/
def removeAliasesAlts : Aliases → Alts → Alts
  | _, .nil => .nil
  | v, .cons ts x e as => .cons ts x (removeAliases (v.remove x) e) (removeAliasesAlts v as)
end

/-- Alias removal in all functions. -/
def removeAliasesProgram (p : Program) : Program :=
  { p with globals := p.globals.map fun d => { d with body := removeAliases id d.body } }

/-! ### A-normal form -/

/-- `Context::generate_name`: normalization/context.rs:22-28. -/
def anfName (index : Nat) : Name := "anf:v:" ++ toString index

/-- Expressions that are not bound to names: normalization.rs:264-268. -/
def isAtom : Expr → Bool
  | .literal _ => true
  | .variable _ => true
  | _ => false

/-- What is done with a transformed expression and the index of the next name. -/
abbrev Continue (α : Type) := α → Nat → Expr × Nat

/-- The continuation of `transform_bound_expression`: normalization.rs:260-283. -/
def bindAtom (k : Continue Expr) : Continue Expr := fun e n =>
  if isAtom e then k e n
  else
    let r := k (.variable (anfName n)) (n + 1)
    (.let_ (anfName n) e r.1, r.2)

/-- Whether the last operand is bound to a name, too: normalization.rs:62-256. -/
def bindsLast : Op → Bool
  | .call => true
  | .record _ => true
  | .update _ => true
  | .concatenation => true
  | _ => false

def Exprs.isNil : Exprs → Bool
  | .nil => true
  | _ => false

mutual
/-- `transform_expression`: normalization.rs:52-258. `post` is what is done with the bodies of local functions. -/
def anf (post : Expr → Expr) : Expr → Continue Expr → Nat → Expr × Nat
  | .literal l, k, n => k (.literal l) n
  | .variable x, k, n => k (.variable x) n
  | .op o es, k, n => anfExprs post (bindsLast o) es [] (fun ts m => k (.op o (Exprs.ofList ts)) m) n
  | .case e as, k, n => anf post e (fun e' m =>
      let as' := anfAlts post as m
      k (.case e' as'.1) as'.2) n
  | .if_ c t e, k, n => anf post c (fun c' m =>
      let t' := anf post t Prod.mk m
      let e' := anf post e Prod.mk t'.2
      k (.if_ c' t'.1 e'.1) e'.2) n
  | .let_ x e b, k, n => anf post e (fun e' m =>
      let b' := anf post b k m
      (.let_ x e' b'.1, b'.2)) n
  | .letRec f env args th body b, k, n =>
      let body' := anf post body Prod.mk n
      let b' := anf post b k body'.2
      (.letRec f env args th (post body'.1) b'.1, b'.2)
  | .try_ e x t b, k, n => anf post e (fun e' m =>
      let b' := anf post b Prod.mk m
      k (.try_ e' x t b'.1) b'.2) n
  | .clone xs e, k, n => anf post e (fun e' m => k (.clone xs e') m) n
  /- This clones variables indeed: normalization.rs:122-124. -/
  | .drop xs e, k, n => anf post e (fun e' m => k (.clone xs e') m) n
/-- `transform_expressions_recursively`: normalization.rs:293-318. Operations with two operands bind the first one only. -/
def anfExprs (post : Expr → Expr) (last : Bool) : Exprs → List Expr → Continue (List Expr) → Nat → Expr × Nat
  | .nil, acc, k, n => k acc n
  | .cons e es, acc, k, n =>
    anf post e
      (if last || !es.isNil then bindAtom (fun a m => anfExprs post last es (acc ++ [a]) k m)
        else (fun a m => anfExprs post last es (acc ++ [a]) k m)) n
/-- Alternatives: normalization.rs:85-101. -/
def anfAlts (post : Expr → Expr) : Alts → Nat → Alts × Nat
  | .nil, n => (.nil, n)
  | .cons ts x e as, n =>
    let e' := anf post e Prod.mk n
    let as' := anfAlts post as e'.2
    (.cons ts x e'.1 as'.1, as'.2)
end

/-- The function definitions of a module, with one counter for all: normalization.rs:17-36. -/
def anfGlobals (post : Expr → Expr) : List Global → Nat → List Global
  | [], _ => []
  | d :: ds, n =>
    let body := anf post d.body Prod.mk n
    { d with body := post body.1 } :: anfGlobals post ds body.2

/-- `transform`: normalization.rs:17-36, with `transform_function_definition` (38-50). -/
def normalizeProgram (p : Program) : Program := { p with globals := anfGlobals (removeAliases id) p.globals 0 }

/-- Normalization without the removal of aliases. -/
def anfProgram (p : Program) : Program := { p with globals := anfGlobals id p.globals 0 }

end Verif.Mir
