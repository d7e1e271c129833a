import Verif.Names.Modules

/-!
# What resolving names should mean

This file does not mention the passes of `Resolve.lean`. It says what an expression is *up to the spelling of
its local variables* (`outline`), and what resolving the remaining names of an outline means
(`Outline.resolve`).
-/

namespace Verif.Names

open Verif.Hir

/-- An expression up to the spelling of its binders: every occurrence of a name is either `bound i`, a
reference to the `i`-th enclosing local variable counted from the inside, or `leaf (.variable x)`, a reference
to something outside. A `node` has a `kind` - the expression with its parts, types and binder names blanked -,
the types written in it and its parts, both from left to right. -/
inductive Outline where
  | bound (i : Nat)
  | leaf (e : Expr)
  | node (kind : Expr) (types : List (Option Ty)) (parts : List Outline)

/-- What a list element is, without its part. -/
def listKind : ListElem Expr → ListElem Expr
  | .single _ => .single .none
  | .multiple _ => .multiple .none

/-- The part of a list element. -/
def listPart : ListElem Expr → Expr
  | .single a => a
  | .multiple a => a

/-- What a map element is, without its parts. -/
def mapKind : MapElem Expr → MapElem Expr
  | .single _ _ => .single .none .none
  | .multiple _ => .multiple .none

/-- The parts of a map element. -/
def mapParts : MapElem Expr → List Expr
  | .single a b => [a, b]
  | .multiple a => [a]

/-- What a branch of a comprehension is, without its names, types and parts. -/
def branchKind (b : Branch Expr) : Branch Expr :=
  { names := b.names.map fun _ => ""
    iteratees := b.iteratees.map fun _ => (none, .none)
    condition := b.condition.map fun _ => .none }

/-- The types written in a branch. -/
def branchTypes (b : Branch Expr) : List (Option Ty) := b.iteratees.map (·.1)

/-- The parts of the branches of a comprehension, with the local variables each can see: the lists of a branch
see the names of the branches before it, its condition and everything later sees its own names too. Second
component: the variables the element can see. -/
def branchParts (Γ : List String) : List (Branch Expr) → List (List String × Expr) × List String
  | [] => ([], Γ)
  | b :: bs =>
    let Γ' := b.names.reverse ++ Γ
    let r := branchParts Γ' bs
    (b.iteratees.map (fun i => (Γ, i.2)) ++ b.condition.toList.map (fun c => (Γ', c)) ++ r.1, r.2)

/-- The kind of an expression, the types written in it, and its parts with the local variables each can see
(innermost first). `none` for expressions without parts. -/
def parts (Γ : List String) : Expr → Option (Expr × List (Option Ty) × List (List String × Expr))
  | .call t f args => some (.call none .none (args.map fun _ => .none), [t], (f :: args).map (Γ, ·))
  | .builtInCall t b args =>
    some (.call none .none (args.map fun _ => .none), [t], (.builtIn b :: args).map (Γ, ·))
  | .if_ c a b => some (.if_ .none .none .none, [], [(Γ, c), (Γ, a), (Γ, b)])
  | .ifList t l f r a b =>
    some (.ifList none .none "" "" .none .none, [t], [(Γ, l), (r :: f :: Γ, a), (Γ, b)])
  | .ifMap k v n m key a b =>
    some (.ifMap none none "" .none .none .none .none, [k, v], [(Γ, m), (Γ, key), (n :: Γ, a), (Γ, b)])
  | .ifType n a bs els =>
    some (.ifType "" .none (bs.map fun _ => (.none, .none)) (els.map fun _ => (none, .none)),
      bs.map (fun b => some b.1) ++ els.toList.map (·.1),
      (Γ, a) :: (bs.map fun b => (n :: Γ, b.2)) ++ els.toList.map fun b => (n :: Γ, b.2))
  | .lambda ps r b =>
    some (.lambda (ps.map fun _ => ("", .none)) .none .none, ps.map (fun p => some p.2) ++ [some r],
      [((ps.map (·.1)).reverse ++ Γ, b)])
  | .let_ n t a b =>
    some (.let_ (n.map fun _ => "") none .none .none, [t], [(Γ, a), (n.toList ++ Γ, b)])
  | .list t es => some (.list .none (es.map listKind), [some t], es.map fun e => (Γ, listPart e))
  | .comprehension t e b bs =>
    some (.comprehension .none .none (branchKind b) (bs.map branchKind),
      some t :: (b :: bs).flatMap branchTypes,
      (branchParts Γ (b :: bs)).1 ++ [((branchParts Γ (b :: bs)).2, e)])
  | .map k v es =>
    some (.map .none .none (es.map mapKind), [some k, some v], (es.flatMap mapParts).map (Γ, ·))
  | .addition t a b => some (.addition none .none .none, [t], [(Γ, a), (Γ, b)])
  | .arithmetic o a b => some (.arithmetic o .none .none, [], [(Γ, a), (Γ, b)])
  | .booleanOp o a b => some (.booleanOp o .none .none, [], [(Γ, a), (Γ, b)])
  | .equality t o a b => some (.equality none o .none .none, [t], [(Γ, a), (Γ, b)])
  | .not a => some (.not .none, [], [(Γ, a)])
  | .order o a b => some (.order o .none .none, [], [(Γ, a), (Γ, b)])
  | .try_ t a => some (.try_ none .none, [t], [(Γ, a)])
  | .record t fs => some (.record .none (fs.map fun f => (f.1, .none)), [some t], fs.map fun f => (Γ, f.2))
  | .deconstruct t r f => some (.deconstruct none .none f, [t], [(Γ, r)])
  | .update t r fs =>
    some (.update .none .none (fs.map fun f => (f.1, .none)), [some t], (Γ, r) :: fs.map fun f => (Γ, f.2))
  | .coercion s t a => some (.coercion .none .none .none, [some s, some t], [(Γ, a)])
  | .boolean _ | .builtIn _ | .string _ | .none | .number _ | .variable _ => none

/-- The outline of an expression to the depth `d`, where the local variables `Γ` are in scope (innermost
first). Two expressions are the same up to the spelling of local variables when their outlines to every depth
are equal. -/
def outline : Nat → List String → Expr → Outline
  | 0, _, _ => .leaf .none
  | d + 1, Γ, e =>
    match parts Γ e with
    | some (k, ts, ps) => .node k ts (ps.map fun p => outline d p.1 p.2)
    | none =>
      match e with
      | .variable x => if x ∈ Γ then .bound (Γ.idxOf x) else .leaf (.variable x)
      | e => .leaf e

/-- Every local variable of an expression, down to the depth `d`, has the property `P`. -/
def localsAll (P : String → Prop) : Nat → List String → Expr → Prop
  | 0, _, _ => True
  | d + 1, Γ, e => ∀ k ts ps, parts Γ e = some (k, ts, ps) →
      ∀ p ∈ ps, (∀ x ∈ p.1, P x) ∧ localsAll P d p.1 p.2

/-- Resolving the outside names and the types of an outline. Local variables stay what they are. -/
def Outline.resolve (var : String → Expr) (type : Ty → Ty) : Outline → Outline
  | .bound i => .bound i
  | .leaf (.variable x) => .leaf (var x)
  | .leaf e => .leaf e
  | .node k ts ps => .node k (ts.map (Option.map type)) (ps.map (resolve var type))

mutual
/-- Resolving the names in a type. -/
def resolveType (record : String → String) (reference : String → Ty) : Ty → Ty
  | .function as r => .function (resolveTypes record reference as) (resolveType record reference r)
  | .list e => .list (resolveType record reference e)
  | .map k v => .map (resolveType record reference k) (resolveType record reference v)
  | .union l r => .union (resolveType record reference l) (resolveType record reference r)
  | .record n => .record (record n)
  | .reference n => reference n
  | .any => .any
  | .boolean => .boolean
  | .error => .error
  | .none => .none
  | .number => .number
  | .string => .string
/-- Resolving the names in several types. -/
def resolveTypes (record : String → String) (reference : String → Ty) : List Ty → List Ty
  | [] => []
  | a :: as => resolveType record reference a :: resolveTypes record reference as
end

/-- The variables of the language, with what they mean. -/
def languageVariables : List (String × Expr) :=
  [("none", .none), ("true", .boolean true), ("false", .boolean false),
   ("debug", .builtIn .debug), ("delete", .builtIn .delete), ("error", .builtIn .error),
   ("go", .builtIn .spawn), ("keys", .builtIn .keys), ("race", .builtIn .race), ("size", .builtIn .size),
   ("source", .builtIn .source), ("values", .builtIn .values),
   ("_reflect_debug", .builtIn .reflectDebug), ("_reflect_equal", .builtIn .reflectEqual)]

/-- The types of the language, with what they mean. -/
def languageTypes : List (String × Ty) :=
  [("any", .any), ("boolean", .boolean), ("error", .error), ("none", .none), ("number", .number),
   ("string", .string)]

/-- What an outside variable means: a definition of the module itself, else an imported function, else a
foreign function the module declares, else a name of the language; else nothing, and it stays. -/
def resolveVariable (pre : String) (own foreigns : List String) (imported : String → Option String)
    (x : String) : Expr :=
  if x ∈ own then .variable (pre ++ x)
  else match imported x with
    | some n => .variable n
    | none =>
      if x ∈ foreigns then .variable (pre ++ x)
      else (languageVariables.lookup x).getD (.variable x)

/-- What a type name means: a definition of the module itself, else an imported type, else a type of the
language; else nothing, and it stays. -/
def resolveReference (pre : String) (own : List String) (imported : String → Option String)
    (x : String) : Ty :=
  if x ∈ own then .reference (pre ++ x)
  else match imported x with
    | some n => .reference n
    | none => (languageTypes.lookup x).getD (.reference x)

/-- The same for the name of a record type. -/
def resolveRecord (pre : String) (own : List String) (imported : String → Option String)
    (x : String) : String :=
  if x ∈ own then pre ++ x else (imported x).getD x

/-- The name under which a module that imports `i` sees its definition `x`. -/
def Import.sees (i : Import) (x : String) : String := if x ∈ i.unqualified then x else i.pre ++ "'" ++ x

/-- What the imports of a module offer under the name `x`: of several functions the one imported last. -/
def importedFunction (imports : List Import) (x : String) : Option String :=
  (imports.flatMap fun i => (i.interface.functions.filter fun f => i.sees f.original = x).map (·.name)).getLast?

/-- What the imports of a module offer as a type under the name `x`: only public types, and of several types
the one imported last (with aliases after record types within one import). -/
def importedType (imports : List Import) (x : String) : Option String :=
  (imports.flatMap fun i =>
    ((i.interface.types.filter fun t => t.isPublic && i.sees t.original = x).map (·.name))
      ++ (i.interface.aliases.filter fun a => a.isPublic && i.sees a.original = x).map (·.name)).getLast?

/-- A name a programmer can write: it has no colon. -/
def Plain (x : String) : Prop := ':' ∉ x.toList

/-- A name the compiler makes: it has a colon. -/
def Full (x : String) : Prop := ':' ∈ x.toList

/-- A module as the parser and `module.rs` make it: every name in it is one the programmer wrote, and nothing
has been imported yet. -/
structure Written (m : Module) : Prop where
  definitions : ∀ f ∈ m.definitions, f.original = f.name ∧ Plain f.name ∧ (∀ p ∈ f.params, Plain p.1)
    ∧ ∀ d, localsAll Plain d (f.params.map (·.1)).reverse f.body
  foreigns : ∀ f ∈ m.foreigns, Plain f.name
  types : ∀ t ∈ m.types, t.original = t.name ∧ Plain t.name ∧ t.external = false
  aliases : ∀ a ∈ m.aliases, a.original = a.name ∧ Plain a.name ∧ a.external = false
  declarations : m.declarations = []

/-- An interface as the compiler makes it: all its names are names the compiler makes. -/
structure Interface.Compiled (i : Interface) : Prop where
  functions : ∀ f ∈ i.functions, Full f.name
  types : ∀ t ∈ i.types, Full t.name
  aliases : ∀ a ∈ i.aliases, Full a.name

/-- What the variables outside functions mean in a module. -/
def meaning (pre : String) (m : Module) (imports : List Import) : String → Expr :=
  resolveVariable pre (m.definitions.map (·.name)) (m.foreigns.map (·.name)) (importedFunction imports)

/-- What types mean in a module. -/
def typeMeaning (pre : String) (m : Module) (imports : List Import) : Ty → Ty :=
  resolveType
    (resolveRecord pre (m.types.map (·.name) ++ m.aliases.map (·.name)) (importedType imports))
    (resolveReference pre (m.types.map (·.name) ++ m.aliases.map (·.name)) (importedType imports))

end Verif.Names
