import Verif.Names.Visit
import Verif.Names.Properties

/-!
# C54 and C55: encapsulation of records, and errors that nobody looks at

The specification is in `VisibilitySpec.lean`.
-/

namespace Verif.Names

open Verif.Hir Verif.Res

/-! ## What an accepted module has passed -/

theorem analyze_validated {n : Nat} {m : Module} {r : Hir.Module} (h : analyze n m = .ok r)
    {d : Definition} (hd : d ∈ m.toHir.definitions) :
    ∃ e, infer n m.toHir.ctx (m.toHir.vars.insertAll d.params) d.body = .ok e
      ∧ visitAll (checkFields n m.toHir.ctx.types (openRecords m)) n e = .ok ()
      ∧ visitAll (checkUnused n m.toHir.ctx.types) n e = .ok () := by
  unfold analyze at h
  split at h
  · cases h
  split at h
  · cases h
  obtain ⟨_, _, h⟩ := bind_eq_ok.1 h
  split at h
  swap
  · cases h
  obtain ⟨_, _, h⟩ := bind_eq_ok.1 h
  obtain ⟨_, h1, _⟩ := bind_eq_ok.1 h
  have := forList_ok h1 d hd
  simp only [validateDefinition, bind_eq_ok] at this
  obtain ⟨e, h2, _, h3, h4⟩ := this
  exact ⟨e, h2, h3, h4⟩

/-- The inferred body of a function of an accepted module: what its validators and `check` have seen. -/
def Body (n : Nat) (m : Module) (f : FunctionDefinition) (e : Expr) : Prop :=
  infer n m.toHir.ctx (m.toHir.vars.insertAll f.params) f.body = .ok e

theorem Body.validated {n : Nat} {m : Module} {r : Hir.Module} (h : analyze n m = .ok r)
    {f : FunctionDefinition} (hf : f ∈ m.definitions) {e : Expr} (he : Body n m f e) :
    visitAll (checkFields n m.toHir.ctx.types (openRecords m)) n e = .ok ()
      ∧ visitAll (checkUnused n m.toHir.ctx.types) n e = .ok () := by
  obtain ⟨e', h1, h2, h3⟩ := analyze_validated h
    (d := ⟨f.name, f.params, f.result, f.body⟩) (List.mem_map_of_mem hf)
  unfold Body at he
  rw [he] at h1
  cases h1
  exact ⟨h2, h3⟩

/-! ## C54 -/

/-- **C54.** In an accepted module, every construction and update of a record and every access to a field, outside
of conditions of list comprehensions, is on a record type that the module defines itself or that the module it
comes from has declared with public fields only. Missing: conditions of list comprehensions, for which it is
false, see `c54_condition_reads_private_field`. -/
theorem c54_record_operations_partial (D : Nat) (pre : String) (b b' : Module) (imports : List Import)
    (preludes : List Interface) (hw : Written b)
    (hi : ∀ i ∈ imports.map (·.interface) ++ preludes, i.Compiled)
    (h : compile D pre b imports preludes = some b') (n : Nat) (r : Hir.Module) (ha : analyze n b' = .ok r)
    (f : FunctionDefinition) (hf : f ∈ b'.definitions) (e : Expr) (he : Body n b' f e) (x : Expr)
    (hx : OccursUnconditional x e) (t : Ty) (ht : recordType x = some t) :
    ∃ name, Canon b'.toHir.ctx.types t (.record name)
      ∧ ((∃ u ∈ b.types, name = pre ++ u.name)
        ∨ ∃ i ∈ imports.map (·.interface) ++ preludes, ∃ u ∈ i.types, u.name = name ∧ u.isOpen = true) := by
  obtain ⟨name, hc, ho⟩ := checkFields_ok (visitAll_ok (Body.validated ha hf he).1 x hx) ht
  refine ⟨name, hc, ?_⟩
  cases compile_target hw hi h
  simp only [openRecords, target, List.mem_map, List.mem_filter, List.mem_append, Bool.or_eq_true,
    Bool.not_eq_true'] at ho
  obtain ⟨u, ⟨hu | ⟨v, hv, rfl⟩, ho⟩, rfl⟩ := ho
  · right
    have := mem_uniqueTypes hu
    simp only [List.mem_flatMap, List.mem_map, List.mem_append] at this
    obtain ⟨i, hi', v, hv, rfl⟩ := this
    refine ⟨i, by simpa using hi', v, hv, rfl, ?_⟩
    simpa using ho
  · exact Or.inl ⟨v, hv, rfl⟩

/-- A field access that has been accepted has a type, so `c54_record_operations_partial` covers it. -/
theorem c54_accesses_have_types (m : Module) (n : Nat) (r : Hir.Module) (ha : analyze n m = .ok r)
    (f : FunctionDefinition) (hf : f ∈ m.definitions) (e : Expr) (he : Body n m f e) (t : Option Ty) (a : Expr)
    (y : String) (hx : OccursUnconditional (.deconstruct t a y) e) : ∃ u, t = some u :=
  checkFields_inferred (visitAll_ok (Body.validated ha hf he).1 _ hx)

/-- Whether the records called `name` are open in an interface. -/
def Interface.Declares (i : Interface) (name : String) (isOpen : Bool) : Prop :=
  ∀ u ∈ i.types, u.name = name → u.isOpen = isOpen

/-- What a module says about the records of another module is passed on: if all its imports say that the records
called `name` are open or not, so does the interface of the module. -/
theorem c54_interfaces_agree (D : Nat) (pre : String) (b b' : Module) (imports : List Import)
    (preludes : List Interface) (hw : Written b)
    (hi : ∀ i ∈ imports.map (·.interface) ++ preludes, i.Compiled)
    (h : compile D pre b imports preludes = some b') (name : String) (isOpen : Bool)
    (hn : ∀ u ∈ b.types, pre ++ u.name = name → u.isOpen = isOpen)
    (hd : ∀ i ∈ imports.map (·.interface) ++ preludes, i.Declares name isOpen) :
    (interface b').Declares name isOpen := by
  cases compile_target hw hi h
  intro u hu he
  simp only [interface, target, List.map_append, List.mem_append, List.mem_map] at hu
  rcases hu with ⟨v, hv, rfl⟩ | ⟨v, ⟨w, hw', rfl⟩, rfl⟩
  · have := mem_uniqueTypes hv
    simp only [List.mem_flatMap, List.mem_map, List.mem_append] at this
    obtain ⟨i, hi', w, hw', rfl⟩ := this
    exact hd i (by simpa using hi') w hw' he
  · exact hn w hw' he

/-- **C54, across modules.** If a record type of the module `a` has a field with a private name, then no other
accepted module constructs or updates a record of this type or reads one of its fields, outside of conditions of
list comprehensions - whatever modules it got the type through. -/
theorem c54_private_fields_partial (D : Nat) (fileA fileB : String) (a b b' : Module) (imports : List Import)
    (preludes : List Interface) (ha : OpenByFields a) (hat : ∀ u ∈ a.types, Plain u.name) (hw : Written b)
    (hne : fileA ≠ fileB)
    (hi : ∀ i ∈ imports.map (·.interface) ++ preludes, i.Compiled)
    (s : TypeDefinition) (hs : s ∈ a.types)
    (hd : ∀ i ∈ imports.map (·.interface) ++ preludes, i.Declares ((fileA ++ ":") ++ s.name) s.isOpen)
    (h : compile D (fileB ++ ":") b imports preludes = some b')
    (y : RecordField) (hy : y ∈ s.fields) (hp : ¬ PublicName y.name)
    (n : Nat) (r : Hir.Module) (hacc : analyze n b' = .ok r)
    (f : FunctionDefinition) (hf : f ∈ b'.definitions) (e : Expr) (he : Body n b' f e) (x : Expr)
    (hx : OccursUnconditional x e) (t : Ty) (ht : recordType x = some t) :
    ¬ Canon b'.toHir.ctx.types t (.record ((fileA ++ ":") ++ s.name)) := by
  intro hc
  obtain ⟨name, hc', ho⟩ := c54_record_operations_partial D _ b b' imports preludes hw hi h n r hacc f hf e he x hx t ht
  cases hc.det hc'
  rcases ho with ⟨u, hu, e'⟩ | ⟨i, hi', u, hu, e', ho⟩
  · exact hne (c53_full_names_distinct fileA fileB s.name u.name (hat s hs) (hw.types u hu).2.1 e').1
  · have := hd i hi' u hu e'
    rw [ho] at this
    exact hp ((ha s hs).1 this.symm y hy)

/-- **C54, nothing else is rejected.** The check does not reject a function all of whose record operations are on
open records. -/
theorem c54_accepts (m : Module) (n k : Nat) (e : Expr)
    (h1 : ∀ t a y, OccursUnconditional (.deconstruct t a y) e → t ≠ none)
    (h2 : ∀ x t, OccursUnconditional x e → recordType x = some t → ∃ name, Canon m.toHir.ctx.types t (.record name)
      ∧ ∃ u ∈ m.types, u.name = name ∧ (u.external = true → u.isOpen = true)) (err : Err) :
    visitAll (checkFields n m.toHir.ctx.types (openRecords m)) k e ≠ .err err := by
  intro h
  obtain ⟨x, hx, h⟩ := visitAll_err h
  refine checkFields_complete ?_ ?_ err h
  · rintro t a y rfl
    exact h1 t a y hx
  · intro t ht
    obtain ⟨name, hc, u, hu, e', ho⟩ := h2 x t hx ht
    refine ⟨name, hc, ?_⟩
    simp only [openRecords, List.mem_map, List.mem_filter, Bool.or_eq_true, Bool.not_eq_true']
    refine ⟨u, ⟨hu, ?_⟩, e'⟩
    cases hu' : u.external with
    | false => exact Or.inl rfl
    | true => exact Or.inr (ho hu')

/-! ## C55 -/

theorem isError_variant {t : Ty} {v : Val} (h : IsError (.variant t v)) : t = .error := by
  cases t <;> first | rfl | exact False.elim h

/-- The value of a type whose members do not include `error`, other than `any`, is no error. -/
theorem not_error_of_represents {C : Ctx} {v : Val} {c : Ty} (h : Represents C v c) (hc : c ≠ .any)
    (hs : ¬ Sub .error c) : ¬ IsError v := by
  have hm : Ty.error ∉ unionMembers c := fun hm => hs (Or.inr fun x hx => by
    simp only [unionMembers, List.mem_singleton] at hx
    exact hx ▸ hm)
  intro hv
  cases h <;> try exact hv.elim
  case error => exact hm (by simp [unionMembers])
  case union ht =>
    cases ht with
    | mk h1 h2 h3 h4 =>
      rcases h1 with h1 | h1
      · cases h1
      · exact hm (isError_variant hv ▸ h1)
  case any => exact hc rfl

/-- **C55.** In an accepted module, the value of a statement whose result is not given a name, outside of
conditions of list comprehensions, is never an error, unless its type is `any`. Missing: conditions of list
comprehensions, for which it is false, see `c55_condition_ignores_error`. -/
theorem c55_unused_errors_partial (m : Module) (n : Nat) (r : Hir.Module) (ha : analyze n m = .ok r)
    (f : FunctionDefinition) (hf : f ∈ m.definitions) (e : Expr) (he : Body n m f e) (t : Option Ty) (a b : Expr)
    (hx : OccursUnconditional (.let_ none t a b) e) :
    ∃ u c, t = some u ∧ Canon m.toHir.ctx.types u c ∧
      (c = .any ∨ ∀ v, Represents m.toHir.ctx v c → ¬ IsError v) := by
  obtain ⟨u, c, h1, h2, h3⟩ := checkUnused_ok (visitAll_ok (Body.validated ha hf he).2 _ hx)
  refine ⟨u, c, h1, h2, ?_⟩
  by_cases hc : c = .any
  · exact Or.inl hc
  · exact Or.inr fun v hv => not_error_of_represents hv hc (h3.resolve_left hc)

/-- **C55, nothing else is rejected.** The check does not reject a function in which every statement without a name
has the type `any` or one of which `error` is no member. -/
theorem c55_accepts (m : Module) (n k : Nat) (e : Expr)
    (h : ∀ x t a b, OccursUnconditional (.let_ x t a b) e →
      ∃ u c, t = some u ∧ Canon m.toHir.ctx.types u c ∧ (x = none → c = .any ∨ .error ∉ unionMembers c)) (err : Err) :
    visitAll (checkUnused n m.toHir.ctx.types) k e ≠ .err err := by
  intro h'
  obtain ⟨x, hx, h'⟩ := visitAll_err h'
  refine checkUnused_complete ?_ err h'
  rintro y t a b rfl
  obtain ⟨u, c, h1, h2, h3⟩ := h y t a b hx
  refine ⟨u, c, h1, h2, fun hy => ?_⟩
  rcases h3 hy with h3 | h3
  · exact Or.inl h3
  · by_cases hc : c = .any
    · exact Or.inl hc
    · right
      rintro (h4 | h4)
      · exact hc h4
      · exact h3 (h4 .error (by simp [unionMembers]))

/-- The types that are not rejected otherwise: those of a value that may be an error are. -/
theorem c55_errors_rejected (m : Module) (n : Nat) (f : FunctionDefinition) (hf : f ∈ m.definitions) (e : Expr)
    (he : Body n m f e) (u : Ty) (a b : Expr) (hx : OccursUnconditional (.let_ none (some u) a b) e) (c : Ty)
    (hc : Canon m.toHir.ctx.types u c) (hne : c ≠ .any) (hm : .error ∈ unionMembers c) (r : Hir.Module) :
    analyze n m ≠ .ok r := by
  intro ha
  obtain ⟨u', c', h1, h2, h3⟩ := checkUnused_ok (visitAll_ok (Body.validated ha hf he).2 _ hx)
  cases h1
  cases hc.det h2
  rcases h3 with h3 | h3
  · exact hne h3
  · exact h3 (Or.inr fun x hx => by simp only [unionMembers, List.mem_singleton] at hx; exact hx ▸ hm)

/-! ## Concrete cases -/

/-- `import Shop`, and
```
look = \(x Shop'Item) number {
  if [y, ..._] = [number y() for y in [number 1, 2, 3] if x.value == y()] { y() } else { 0 }
}
```
The field `value` of `Shop'Item` is private. -/
def sampleLook : Module :=
  { types := [], aliases := [], foreigns := [], declarations := []
    definitions :=
      [⟨"look", "look", [("x", .reference "Shop'Item")], .reference "number",
        .ifList none
          (.comprehension (.reference "number") (.call none (.variable "y") [])
            ⟨["y"], [(none, .list (.reference "number") [.single (.number 1), .single (.number 2), .single (.number 3)])],
              some (.equality none .equal (.deconstruct none (.variable "x") "value") (.call none (.variable "y") []))⟩ [])
          "y" "_" (.call none (.variable "y") []) (.number 0), false⟩] }

/-- The same without the comprehension: `look = \(x Shop'Item) number { x.value }`. -/
def sampleLook' : Module :=
  { types := [], aliases := [], foreigns := [], declarations := []
    definitions :=
      [⟨"look", "look", [("x", .reference "Shop'Item")], .reference "number",
        .deconstruct none (.variable "x") "value", false⟩] }

/-- `Shop'Make(1)` and the constructor without fields are fine:
`look = \(x Shop'Item) Shop'Item { Shop'Make(1) }`. -/
def sampleLook'' : Module :=
  { types := [⟨"own", "own", [⟨"y", .reference "number"⟩], false, false, false⟩]
    aliases := [], foreigns := [], declarations := []
    definitions :=
      [⟨"look", "look", [("x", .reference "Shop'Item")], .reference "own",
        .let_ none none (.call none (.variable "Shop'Make") [.number 1])
          (.record (.reference "own") [("y", .number 1)]), false⟩] }

/-- Compiles the file `Main.pen` that imports `Shop.pen` and analyses it. -/
def checkMain (m : Module) : Res Err Hir.Module :=
  match compile 9 "Main.pen:" m [sampleImport] [] with
  | some m' => analyze 20 m'
  | none => .more

def Res.isOk {ε α : Type} : Res ε α → Bool
  | .ok _ => true
  | _ => false

example : Res.isOk (checkMain sampleLook') = false := by decide +kernel
example : Res.isOk (checkMain sampleLook'') = true := by decide +kernel

/-- The compiled module of `sampleLook''`. -/
def compiledLook : Module := (compile 9 "Main.pen:" sampleLook'' [sampleImport] []).getD sampleA

/-- The function of this module has a statement without a name and constructs a record; both are checked. -/
example : ∃ f ∈ compiledLook.definitions, ∃ e, Body 20 compiledLook f e
    ∧ OccursUnconditional (.record (.reference "Main.pen:own") [("y", .number 1)]) e
    ∧ ∃ t a b, OccursUnconditional (.let_ none t a b) e := by
  refine ⟨compiledLook.definitions.head (by decide), List.head_mem _,
    .let_ none (some (.record "Shop.pen:Item"))
      (.call (some (.function [.number] (.reference "Shop.pen:Item"))) (.variable "Shop.pen:Make") [.number 1])
      (.record (.reference "Main.pen:own") [("y", .number 1)]), rfl, ?_, _, _, _, .here⟩
  refine .part (p := ([], .record (.reference "Main.pen:own") [("y", .number 1)])) (by simp) rfl ?_ .here
  simp

example : sampleImport.interface.Declares ("Shop.pen" ++ ":" ++ "Item") false := by
  intro u hu _
  simp only [sampleImport, show (interface compiledA).types = [⟨"Shop.pen:Item", "Item", [⟨"value", .number⟩], false, true⟩]
    from rfl, List.mem_singleton] at hu
  rw [hu]

/-- Calling a function of the compiled module. -/
noncomputable def runMain (m : Module) (f : String) (args : List Val) : Option Val :=
  match checkMain m with
  | .ok m' =>
    match callFunction exampleWorld m' 40 40 f args [] with
    | .val v _ => some v
    | _ => none
  | _ => none

/-- The number a run results in. -/
def numberOf : Option Val → Option UInt64
  | some (.number i) => some i
  | _ => none

/-- Whether a run results in an error. -/
def isErrorRun : Option Val → Bool
  | some (.variant .error _) => true
  | _ => false

/-- The restriction in C54 is needed: the visitor that collects the expressions to check leaves out the conditions
of list comprehensions (`lib/hir/src/analysis/expression_visitor.rs:72-80`). The module `sampleLook` reads the
private field of a record of the module `Shop` there, is accepted, and finds out its value. -/
theorem c54_condition_reads_private_field :
    ¬ PublicName "value" ∧ OpenByFields sampleA ∧ Res.isOk (checkMain sampleLook) = true
      ∧ numberOf (runMain sampleLook "Main.pen:look" [.record "Shop.pen:Item" [("value", .number 1)]]) = some 1
      ∧ numberOf (runMain sampleLook "Main.pen:look" [.record "Shop.pen:Item" [("value", .number 2)]]) = some 2
      ∧ numberOf (runMain sampleLook "Main.pen:look" [.record "Shop.pen:Item" [("value", .number 3)]]) = some 3 := by
  refine ⟨?_, ?_, by decide +kernel, ?_, ?_, ?_⟩
  · rintro ⟨c, cs, h, hu⟩
    have : c = 'v' := by
      have := congrArg List.head? h
      simpa using this.symm
    subst this
    exact absurd hu (by decide)
  · intro t ht
    simp only [sampleA, List.mem_singleton] at ht
    subst ht
    constructor
    · intro h; cases h
    · intro h
      obtain ⟨c, cs, h, hu⟩ := h ⟨"value", .reference "number"⟩ (by simp)
      have : c = 'v' := by
        have := congrArg List.head? h
        simpa using this.symm
      subst this
      exact absurd hu (by decide)
  all_goals decide +kernel

/-- `fail = \() none | error { error(none) }` and
```
run = \() [number] {
  [number y() for y in [number 1] if if true { fail(); true } else { false }]
}
``` -/
def sampleIgnore : Module :=
  { types := [], aliases := [], foreigns := [], declarations := []
    definitions :=
      [⟨"fail", "fail", [], .union (.reference "none") (.reference "error"),
        .call none (.variable "error") [.variable "none"], false⟩,
       ⟨"run", "run", [], .list (.reference "number"),
        .comprehension (.reference "number") (.call none (.variable "y") [])
          ⟨["y"], [(none, .list (.reference "number") [.single (.number 1)])],
            some (.if_ (.variable "true")
              (.let_ none none (.call none (.variable "fail") []) (.variable "true")) (.variable "false"))⟩ [],
        false⟩] }

/-- The same function without the comprehension. -/
def sampleIgnore' : Module :=
  { types := [], aliases := [], foreigns := [], declarations := []
    definitions :=
      [⟨"fail", "fail", [], .union (.reference "none") (.reference "error"),
        .call none (.variable "error") [.variable "none"], false⟩,
       ⟨"run", "run", [], .reference "boolean",
            .if_ (.variable "true")
              (.let_ none none (.call none (.variable "fail") []) (.variable "true")) (.variable "false"), false⟩] }

/-- The restriction in C55 is needed, for the same reason: the error that `fail` always results in is ignored in the
condition, and the module is accepted. Outside of a condition it is not. -/
theorem c55_condition_ignores_error :
    Res.isOk (checkMain sampleIgnore) = true
      ∧ isErrorRun (runMain sampleIgnore "Main.pen:fail" []) = true
      ∧ Res.isOk (checkMain sampleIgnore') = false := by
  refine ⟨by decide +kernel, by decide +kernel, by decide +kernel⟩

end Verif.Names
