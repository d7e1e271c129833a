import Verif.Hir.Syntax

/-!
# Type inference, checking and coercion

Models of `type_extractor`, `type_inferrer`, `type_checker`, `try_operation_validator`,
`type_existence_validator` and `type_coercer` in `lib/hir/src/analysis/`, and of their composition `analyze`.
All functions take fuel, which bounds the depth of the recursion over the expression as well as that of
`canonicalize`; see `Verif.Res`.
-/

namespace Verif.Hir

/-- `Option::ok_or_else`. -/
def orErr {α : Type} (o : Option α) (e : Err) : Res Err α :=
  match o with
  | some a => .ok a
  | none => .err e

/-- `canonicalize_function(..)?.ok_or_else(|| FunctionExpected)`
(`lib/hir/src/analysis/type_canonicalizer.rs:44-49`). -/
def expectFunction (n : Nat) (A : Aliases) (t : Ty) : Res Err (List Ty × Ty) := do
  match ← canonicalize n A t with
  | .function as r => .ok (as, r)
  | _ => .err .functionExpected

/-- `canonicalize_list(..)?.ok_or_else(|| ListExpected)`
(`lib/hir/src/analysis/type_canonicalizer.rs:51-56`). -/
def expectList (n : Nat) (A : Aliases) (t : Ty) : Res Err Ty := do
  match ← canonicalize n A t with
  | .list e => .ok e
  | _ => .err .listExpected

/-- `canonicalize_map(..)?.ok_or_else(|| MapExpected)`
(`lib/hir/src/analysis/type_canonicalizer.rs:58-63`). -/
def expectMap (n : Nat) (A : Aliases) (t : Ty) : Res Err (Ty × Ty) := do
  match ← canonicalize n A t with
  | .map k v => .ok (k, v)
  | _ => .err .mapExpected

/-- `record_field_resolver::resolve` (`lib/hir/src/analysis/record_field_resolver.rs:6-17`). -/
def resolveFields (n : Nat) (C : Ctx) (t : Ty) : Res Err (List RecordField) := do
  match ← canonicalize n C.types t with
  | .record r => resolveRecord C.records r
  | _ => .err .recordExpected

/-- `field_types.iter().find(|f| f.name() == name).ok_or_else(|| UnknownRecordField)?.type_()`
(`lib/hir/src/analysis/type_checker.rs:434-438`). -/
def fieldType (fs : List RecordField) (name : String) : Res Err Ty :=
  match fs.find? (fun f => f.name == name) with
  | some f => .ok f.type
  | none => .err .unknownRecordField

/-- `name` and type a comprehension iteratee of type `t` binds
(`lib/hir/src/analysis/type_checker.rs:320-335`). -/
def bindElement (n : Nat) (C : Ctx) (name : String) (t : Option Ty) : Res Err (String × Ty) := do
  let t ← orErr t .typeNotInferred
  let e ← expectList n C.types t
  .ok (name, .function [] e)

/-- `let_.name().map(|name| Ok((name, let_.type_().ok_or(TypeNotInferred)?)))`
(`lib/hir/src/analysis/type_extractor.rs:127-138`). -/
def bindLet (name : Option String) (t : Option Ty) : Res Err (List (String × Ty)) :=
  match name with
  | none => .ok []
  | some x => do
    let t ← orErr t .typeNotInferred
    .ok [(x, t)]

/-- `type_extractor::extract_from_expression` (`lib/hir/src/analysis/type_extractor.rs:8-197`). -/
def extract : Nat → Ctx → Vars → Expr → Res Err Ty
  | 0, _, _, _ => .more
  | _ + 1, _, _, .boolean _ => .ok .boolean
  | _ + 1, _, _, .builtIn _ => .err .builtInFunctionNotCalled
  | n + 1, C, _, .call type _ _ => do
    let t ← orErr type .typeNotInferred
    let f ← expectFunction n C.types t
    .ok f.2
  | n + 1, C, _, .builtInCall type _ _ => do
    let t ← orErr type .typeNotInferred
    let f ← expectFunction n C.types t
    .ok f.2
  | n + 1, C, Γ, .if_ _ a b => do
    let t ← extract n C Γ a
    let u ← extract n C Γ b
    .ok (.union t u)
  | n + 1, C, Γ, .ifList _ l first rest a b => do
    let t ← extract n C Γ l
    let e ← expectList n C.types t
    let t ← extract n C ((Γ.insert first (.function [] e)).insert rest (.list e)) a
    let u ← extract n C Γ b
    .ok (.union t u)
  | n + 1, C, Γ, .ifMap _ _ x m _ a b => do
    let t ← extract n C Γ m
    let kv ← expectMap n C.types t
    let t ← extract n C (Γ.insert x kv.2) a
    let u ← extract n C Γ b
    .ok (.union t u)
  | n + 1, C, Γ, .ifType x _ branches else_ => do
    let ts ← Res.mapList (fun b => extract n C (Γ.insert x b.1) b.2) branches
    let us ← match else_ with
      | none => .ok []
      | some (t, e) => do
        let t ← orErr t .typeNotInferred
        let u ← extract n C (Γ.insert x t) e
        .ok [u]
    orErr (createUnion (ts ++ us)) .panic
  | _ + 1, _, _, .lambda params result _ => .ok (lambdaType params result)
  | n + 1, C, Γ, .let_ x t _ b => do
    let xs ← bindLet x t
    extract n C (Γ.insertAll xs) b
  | _ + 1, _, _, .list t _ => .ok (.list t)
  | _ + 1, _, _, .comprehension t _ _ _ => .ok (.list t)
  | _ + 1, _, _, .map k v _ => .ok (.map k v)
  | _ + 1, _, _, .none => .ok .none
  | _ + 1, _, _, .number _ => .ok .number
  | _ + 1, _, _, .addition t _ _ => orErr t .typeNotInferred
  | _ + 1, _, _, .arithmetic _ _ _ => .ok .number
  | _ + 1, _, _, .booleanOp _ _ _ => .ok .boolean
  | _ + 1, _, _, .equality _ _ _ _ => .ok .boolean
  | _ + 1, _, _, .not _ => .ok .boolean
  | _ + 1, _, _, .order _ _ _ => .ok .boolean
  | _ + 1, _, _, .try_ t _ => orErr t .typeNotInferred
  | _ + 1, _, _, .record t _ => .ok t
  | n + 1, C, _, .deconstruct t _ field => do
    let t ← orErr t .typeNotInferred
    let fs ← resolveFields n C t
    fieldType fs field
  | _ + 1, _, _, .update t _ _ => .ok t
  | _ + 1, _, _, .string _ => .ok .string
  | _ + 1, _, _, .coercion _ dst _ => .ok dst
  | _ + 1, _, Γ, .variable x => orErr (Γ x) .variableNotFound

/-! ## Inference -/

/-- The annotation of a built-in call in `infer_built_in_call`
(`lib/hir/src/analysis/type_inferrer.rs:503-654`), from the argument types. The argument lists and
the lists of their types have one length. -/
def builtInType (n : Nat) (C : Ctx) (f : BuiltIn) (ts : List Ty) : Res Err Ty :=
  match f with
  | .debug => .ok (.function [.any] .none)
  | .delete =>
    match ts with
    | [] => .err .argumentCount
    | t :: _ => .ok (.function ts t)
  | .error => .ok (.function [.any] .error)
  | .keys =>
    match ts with
    | [t] => do
      let kv ← expectMap n C.types t
      .ok (.function [t] (.list kv.1))
    | _ => .err .argumentCount
  | .race =>
    match ts with
    | [t] => do
      let e ← expectList n C.types t
      .ok (.function ts e)
    | _ => .err .argumentCount
  | .reflectDebug => .ok (.function [.any] .string)
  | .reflectEqual => .ok (.function [.any, .any] (.union .boolean .none))
  | .size => .ok (.function ts .number)
  | .source => .ok (.function [.error] .any)
  | .spawn =>
    match ts with
    | [] => .err .argumentCount
    | t :: _ => .ok (.function ts t)
  | .values =>
    match ts with
    | [t] => do
      let kv ← expectMap n C.types t
      .ok (.function [t] (.list kv.2))
    | _ => .err .argumentCount

/-- The loop over comprehension branches in `infer_expression`
(`lib/hir/src/analysis/type_inferrer.rs:257-318`), `inferE` being the recursive call; the second result is the
environment of the element. -/
def inferBranches (n : Nat) (C : Ctx) (inferE : Vars → Expr → Res Err Expr) :
    Vars → List (Branch Expr) → Res Err (List (Branch Expr) × Vars)
  | Γ, [] => .ok ([], Γ)
  | Γ, b :: bs => do
    let is ← Res.mapList (fun i : Option Ty × Expr => do
      let e ← inferE Γ i.2
      let t ← extract n C Γ e
      .ok (some t, e)) b.iteratees
    let xs ← Res.mapList (fun p : String × (Option Ty × Expr) => bindElement n C p.1 p.2.1) (b.names.zip is)
    let c ← match b.condition with
      | none => .ok none
      | some e => do
        let e ← inferE (Γ.insertAll xs) e
        .ok (some e)
    let r ← inferBranches n C inferE (Γ.insertAll xs) bs
    .ok (⟨b.names, is, c⟩ :: r.1, r.2)

/-- `type_inferrer::infer_expression` (`lib/hir/src/analysis/type_inferrer.rs:63-501`). Coercions are an
error here: nothing makes them before `type_coercer` runs. -/
def infer : Nat → Ctx → Vars → Expr → Res Err Expr
  | 0, _, _, _ => .more
  | n + 1, C, Γ, .call _ f args => do
    let f ← infer n C Γ f
    let t ← extract n C Γ f
    let args ← Res.mapList (infer n C Γ) args
    .ok (.call (some t) f args)
  | n + 1, C, Γ, .builtInCall _ f args => do
    let args ← Res.mapList (infer n C Γ) args
    let ts ← Res.mapList (extract n C Γ) args
    let t ← builtInType n C f ts
    .ok (.builtInCall (some t) f args)
  | n + 1, C, Γ, .if_ c a b => do
    let a ← infer n C Γ a
    let b ← infer n C Γ b
    let c ← infer n C Γ c
    .ok (.if_ c a b)
  | n + 1, C, Γ, .ifList _ l first rest a b => do
    let l ← infer n C Γ l
    let t ← extract n C Γ l
    let e ← expectList n C.types t
    let a ← infer n C ((Γ.insert first (.function [] e)).insert rest (.list e)) a
    let b ← infer n C Γ b
    .ok (.ifList (some e) l first rest a b)
  | n + 1, C, Γ, .ifMap _ _ x m k a b => do
    let m ← infer n C Γ m
    let k ← infer n C Γ k
    let t ← extract n C Γ m
    let kv ← expectMap n C.types t
    let a ← infer n C (Γ.insert x kv.2) a
    let b ← infer n C Γ b
    .ok (.ifMap (some kv.1) (some kv.2) x m k a b)
  | n + 1, C, Γ, .ifType x e branches else_ => do
    let e ← infer n C Γ e
    let bs ← Res.mapList (fun b : Ty × Expr => do
      let e ← infer n C (Γ.insert x b.1) b.2
      .ok (b.1, e)) branches
    let else_ ← match else_ with
      | none => .ok none
      | some (_, b) => do
        let t ← extract n C Γ e
        let u ← orErr (createUnion (branches.map (·.1))) .panic
        let d ← typeDifference n C.types t u
        let d ← orErr d .unreachableCode
        let b ← infer n C (Γ.insert x d) b
        .ok (some (some d, b))
    .ok (.ifType x e bs else_)
  | n + 1, C, Γ, .lambda params result b => do
    let b ← infer n C (Γ.insertAll params) b
    .ok (.lambda params result b)
  | n + 1, C, Γ, .let_ x _ a b => do
    let a ← infer n C Γ a
    let t ← extract n C Γ a
    let b ← infer n C (Γ.insertAll (match x with | none => [] | some x => [(x, t)])) b
    .ok (.let_ x (some t) a b)
  | n + 1, C, Γ, .list t elems => do
    let elems ← Res.mapList (fun e : ListElem Expr => match e with
      | .multiple e => do
        let e ← infer n C Γ e
        .ok (ListElem.multiple e)
      | .single e => do
        let e ← infer n C Γ e
        .ok (ListElem.single e)) elems
    .ok (.list t elems)
  | n + 1, C, Γ, .comprehension t e b bs => do
    let r ← inferBranches n C (infer n C) Γ (b :: bs)
    let e ← infer n C r.2 e
    match r.1 with
    | b :: bs => .ok (.comprehension t e b bs)
    | [] => .err .panic -- unreachable: one result per branch
  | n + 1, C, Γ, .map k v elems => do
    let elems ← Res.mapList (fun e : MapElem Expr => match e with
      | .single a b => do
        let a ← infer n C Γ a
        let b ← infer n C Γ b
        .ok (MapElem.single a b)
      | .multiple e => do
        let e ← infer n C Γ e
        .ok (MapElem.multiple e)) elems
    .ok (.map k v elems)
  | n + 1, C, Γ, .addition _ a b => do
    let a ← infer n C Γ a
    let t ← extract n C Γ a
    let t ← canonicalize n C.types t
    let b ← infer n C Γ b
    .ok (.addition (some t) a b)
  | n + 1, C, Γ, .arithmetic op a b => do
    let a ← infer n C Γ a
    let b ← infer n C Γ b
    .ok (.arithmetic op a b)
  | n + 1, C, Γ, .booleanOp op a b => do
    let a ← infer n C Γ a
    let b ← infer n C Γ b
    .ok (.booleanOp op a b)
  | n + 1, C, Γ, .equality _ op a b => do
    let a ← infer n C Γ a
    let b ← infer n C Γ b
    let t ← extract n C Γ a
    let u ← extract n C Γ b
    .ok (.equality (some (.union t u)) op a b)
  | n + 1, C, Γ, .not a => do
    let a ← infer n C Γ a
    .ok (.not a)
  | n + 1, C, Γ, .order op a b => do
    let a ← infer n C Γ a
    let b ← infer n C Γ b
    .ok (.order op a b)
  | n + 1, C, Γ, .try_ _ a => do
    let a ← infer n C Γ a
    let t ← extract n C Γ a
    let d ← typeDifference n C.types t .error
    let d ← orErr d .unionExpected
    if d = .any then .err .unionExpected else .ok (.try_ (some d) a)
  | n + 1, C, Γ, .record t fields => do
    let fields ← Res.mapList (fun f : String × Expr => do
      let e ← infer n C Γ f.2
      .ok (f.1, e)) fields
    .ok (.record t fields)
  | n + 1, C, Γ, .deconstruct _ r field => do
    let r ← infer n C Γ r
    let t ← extract n C Γ r
    .ok (.deconstruct (some t) r field)
  | n + 1, C, Γ, .update t r fields => do
    let r ← infer n C Γ r
    let fields ← Res.mapList (fun f : String × Expr => do
      let e ← infer n C Γ f.2
      .ok (f.1, e)) fields
    .ok (.update t r fields)
  | _ + 1, _, _, .coercion _ _ _ => .err .notSource
  | _ + 1, _, _, e => .ok e

/-! ## Checking -/

/-- `check_subsumption` (`lib/hir/src/analysis/type_checker.rs:859-874`). -/
def expectSub (n : Nat) (C : Ctx) (lower upper : Ty) : Res Err Unit := do
  if ← subsumeCheck n C.types lower upper then .ok () else .err .typesNotMatched

/-- `check_built_in_call` (`lib/hir/src/analysis/type_checker.rs:563-670`); `as` and `r` are the arguments and
the result of the canonical function type. The number of call arguments equals that of `as`
(`:88-90`). -/
def checkBuiltIn (n : Nat) (C : Ctx) (f : BuiltIn) (as : List Ty) (r : Ty) : Res Err Unit :=
  match f with
  | .delete =>
    match as with
    | [m, k] => do
      expectSub n C m r
      let kv ← expectMap n C.types m
      expectSub n C k kv.1
    | _ => .err .argumentCount
  | .race =>
    match as with
    | [t] => do
      let e ← expectList n C.types t
      let _ ← expectList n C.types e
      .ok ()
    | _ => .err .argumentCount
  | .size =>
    match as with
    | [t] =>
      match t with
      | .list _ => .ok ()
      | .map _ _ => .ok ()
      | _ => .err .collectionExpected
    | _ => .err .argumentCount
  | .spawn =>
    match as with
    | [t] => do
      let f ← expectFunction n C.types t
      if f.1 = [] then .ok () else .err .spawnedFunctionArguments
    | _ => .err .argumentCount
  | .debug | .error | .keys | .reflectDebug | .reflectEqual | .source | .values => .ok ()

/-- The loop over the iteratees of a branch in `check_expression`
(`lib/hir/src/analysis/type_checker.rs:306-336`): each name is in scope in the iteratees after it. -/
def checkIteratees (n : Nat) (C : Ctx) (checkE : Vars → Expr → Res Err Ty) :
    Vars → List (String × (Option Ty × Expr)) → Res Err Vars
  | Γ, [] => .ok Γ
  | Γ, (x, (t, e)) :: is => do
    let t ← orErr t .typeNotInferred
    let u ← checkE Γ e
    expectSub n C u t
    let xt ← bindElement n C x (some t)
    checkIteratees n C checkE (Γ.insert xt.1 xt.2) is

/-- The loop over comprehension branches in `check_expression`
(`lib/hir/src/analysis/type_checker.rs:297-346`). -/
def checkBranches (n : Nat) (C : Ctx) (checkE : Vars → Expr → Res Err Ty) :
    Vars → List (Branch Expr) → Res Err Vars
  | Γ, [] => .ok Γ
  | Γ, b :: bs =>
    if b.names.length ≠ b.iteratees.length then .err .listComprehensionIterateeCount
    else do
      let Γ ← checkIteratees n C checkE Γ (b.names.zip b.iteratees)
      match b.condition with
      | none => .ok ()
      | some c => do
        let t ← checkE Γ c
        expectSub n C t .boolean
      checkBranches n C checkE Γ bs

/-- `type_checker::check_expression` and `check_operation`
(`lib/hir/src/analysis/type_checker.rs:47-561`, `:672-857`). -/
def check : Nat → Ctx → Vars → Expr → Res Err Ty
  | 0, _, _, _ => .more
  | _ + 1, _, _, .boolean _ => .ok .boolean
  | _ + 1, _, _, .builtIn _ => .err .builtInFunctionNotCalled
  | n + 1, C, Γ, .call type f args => do
    let t ← orErr type .typeNotInferred
    let ft ← expectFunction n C.types t
    if args.length ≠ ft.1.length then .err .argumentCount
    else do
      let _ ← Res.mapList (fun p : Expr × Ty => do
        let t ← check n C Γ p.1
        expectSub n C t p.2) (args.zip ft.1)
      let u ← check n C Γ f
      expectSub n C u t
      .ok ft.2
  | n + 1, C, Γ, .builtInCall type f args => do
    let t ← orErr type .typeNotInferred
    let ft ← expectFunction n C.types t
    if args.length ≠ ft.1.length then .err .argumentCount
    else do
      let _ ← Res.mapList (fun p : Expr × Ty => do
        let t ← check n C Γ p.1
        expectSub n C t p.2) (args.zip ft.1)
      checkBuiltIn n C f ft.1 ft.2
      .ok ft.2
  | n + 1, C, Γ, .if_ c a b => do
    let t ← check n C Γ c
    expectSub n C t .boolean
    let _ ← check n C Γ a
    let _ ← check n C Γ b
    extract n C Γ (.if_ c a b)
  | n + 1, C, Γ, .ifList type l first rest a b => do
    let e ← orErr type .typeNotInferred
    let t ← check n C Γ l
    expectSub n C t (.list e)
    let _ ← check n C ((Γ.insert first (.function [] e)).insert rest (.list e)) a
    let _ ← check n C Γ b
    extract n C Γ (.ifList type l first rest a b)
  | n + 1, C, Γ, .ifMap kt vt x m k a b => do
    let k' ← orErr kt .typeNotInferred
    let v' ← orErr vt .typeNotInferred
    let t ← check n C Γ k
    expectSub n C t k'
    let t ← check n C Γ m
    expectSub n C t (.map k' v')
    let _ ← check n C (Γ.insert x v') a
    let _ ← check n C Γ b
    extract n C Γ (.ifMap kt vt x m k a b)
  | n + 1, C, Γ, .ifType x e branches else_ => do
    let t ← check n C Γ e
    let t ← canonicalize n C.types t
    match t with
    | .any => .ok ()
    | .union _ _ => .ok ()
    | _ => .err .variantExpected
    let _ ← Res.mapList (fun b : Ty × Expr => do
      expectSub n C b.1 t
      let _ ← check n C (Γ.insert x b.1) b.2
      let u ← canonicalize n C.types b.1
      if u = .any then .err .anyTypeBranch else .ok ()) branches
    match else_ with
    | some (u, b) => do
      let u ← orErr u .typeNotInferred
      let _ ← check n C (Γ.insert x u) b
    | none => do
      let u ← orErr (createUnion (branches.map (·.1))) .panic
      if ← equalCheck n C.types t u then .ok () else .err .missingElseBlock
    extract n C Γ (.ifType x e branches else_)
  | n + 1, C, Γ, .lambda params result b => do
    let t ← check n C (Γ.insertAll params) b
    expectSub n C t result
    .ok (lambdaType params result)
  | n + 1, C, Γ, .let_ x type a b => do
    let t ← orErr type .typeNotInferred
    let u ← check n C Γ a
    expectSub n C u t
    let xs ← bindLet x type
    check n C (Γ.insertAll xs) b
  | n + 1, C, Γ, .list t elems => do
    let _ ← Res.mapList (fun e : ListElem Expr => match e with
      | .multiple e => do
        let u ← check n C Γ e
        let u ← expectList n C.types u
        expectSub n C u t
      | .single e => do
        let u ← check n C Γ e
        expectSub n C u t) elems
    .ok (.list t)
  | n + 1, C, Γ, .comprehension t e b bs => do
    let Γ ← checkBranches n C (check n C) Γ (b :: bs)
    let u ← check n C Γ e
    expectSub n C u t
    .ok (.list t)
  | n + 1, C, Γ, .map k v elems => do
    let _ ← Res.mapList (fun e : MapElem Expr => match e with
      | .single a b => do
        let t ← check n C Γ a
        expectSub n C t k
        let t ← check n C Γ b
        expectSub n C t v
      | .multiple e => do
        let t ← check n C Γ e
        let kv ← expectMap n C.types t
        expectSub n C kv.1 k
        expectSub n C kv.2 v) elems
    .ok (.map k v)
  | _ + 1, _, _, .none => .ok .none
  | _ + 1, _, _, .number _ => .ok .number
  | n + 1, C, Γ, .addition type a b => do
    let t ← orErr type .typeNotInferred
    let ta ← check n C Γ a
    let tb ← check n C Γ b
    if ← equalCheck n C.types t .number then do
      expectSub n C ta .number
      expectSub n C tb .number
      .ok t
    else if ← equalCheck n C.types t .string then do
      expectSub n C ta .string
      expectSub n C tb .string
      .ok t
    else .err .invalidAdditionOperand
  | n + 1, C, Γ, .arithmetic _ a b => do
    let t ← check n C Γ a
    expectSub n C t .number
    let t ← check n C Γ b
    expectSub n C t .number
    .ok .number
  | n + 1, C, Γ, .booleanOp _ a b => do
    let t ← check n C Γ a
    expectSub n C t .boolean
    let t ← check n C Γ b
    expectSub n C t .boolean
    .ok .boolean
  | n + 1, C, Γ, .equality type _ a b => do
    let t ← orErr type .typeNotInferred
    let u ← check n C Γ a
    expectSub n C u t
    let u ← check n C Γ b
    expectSub n C u t
    let ta ← extract n C Γ a
    let tb ← extract n C Γ b
    if ← subsumeCheck n C.types ta tb then .ok .boolean
    else if ← subsumeCheck n C.types tb ta then .ok .boolean
    else .err .typesNotMatched
  | n + 1, C, Γ, .not a => do
    let t ← check n C Γ a
    expectSub n C t .boolean
    .ok .boolean
  | n + 1, C, Γ, .order _ a b => do
    let t ← check n C Γ a
    expectSub n C t .number
    let t ← check n C Γ b
    expectSub n C t .number
    .ok .boolean
  | n + 1, C, Γ, .try_ type a => do
    let t ← orErr type .typeNotInferred
    let u ← check n C Γ a
    expectSub n C .error u
    expectSub n C t u
    expectSub n C u (.union t .error)
    .ok t
  | n + 1, C, Γ, .record t fields => do
    let fs ← resolveFields n C t
    let _ ← Res.mapList (fun f : String × Expr => do
      let ft ← fieldType fs f.1
      let u ← check n C Γ f.2
      expectSub n C u ft) fields
    if fs.all (fun f => (fields.map (·.1)).contains f.name) then .ok t else .err .recordFieldNotFound
  | n + 1, C, Γ, .deconstruct type r field => do
    let t ← orErr type .typeNotInferred
    let u ← check n C Γ r
    expectSub n C u t
    let fs ← resolveFields n C t
    fieldType fs field
  | n + 1, C, Γ, .update t r fields => do
    let u ← check n C Γ r
    expectSub n C u t
    let fs ← resolveFields n C t
    let _ ← Res.mapList (fun f : String × Expr => do
      let ft ← fieldType fs f.1
      let u ← check n C Γ f.2
      expectSub n C u ft) fields
    .ok t
  | _ + 1, _, _, .string _ => .ok .string
  | n + 1, C, Γ, .coercion src dst e => do
    let t ← check n C Γ e
    expectSub n C t src
    let c ← canonicalize n C.types dst
    match c with
    | .list _ => .ok ()
    | .map _ _ => .ok ()
    | _ => expectSub n C src dst
    .ok dst
  | _ + 1, _, Γ, .variable x => orErr (Γ x) .variableNotFound

/-! ## Use of the error operator -/

/-- Running checks for each element of a list. -/
def forList {α : Type} (f : α → Res Err Unit) (as : List α) : Res Err Unit := do
  let _ ← Res.mapList f as
  .ok ()

/-- `try_operation_validator::validate_expression`
(`lib/hir/src/analysis/try_operation_validator.rs:16-178`). -/
def validateTry : Nat → Ctx → Option Ty → Expr → Res Err Unit
  | 0, _, _, _ => .more
  | n + 1, C, res, .call _ f args => do
    validateTry n C res f
    forList (validateTry n C res) args
  | n + 1, C, res, .builtInCall _ _ args => forList (validateTry n C res) args
  | n + 1, C, res, .if_ c a b => do
    validateTry n C res c
    validateTry n C res a
    validateTry n C res b
  | n + 1, C, res, .ifList _ l _ _ a b => do
    validateTry n C res l
    validateTry n C res a
    validateTry n C res b
  | n + 1, C, res, .ifMap _ _ _ m k a b => do
    validateTry n C res m
    validateTry n C res k
    validateTry n C res a
    validateTry n C res b
  | n + 1, C, res, .ifType _ e branches else_ => do
    validateTry n C res e
    forList (fun b : Ty × Expr => validateTry n C res b.2) branches
    match else_ with
    | none => .ok ()
    | some b => validateTry n C res b.2
  | n + 1, C, res, .coercion _ _ e => validateTry n C res e
  | n + 1, C, _, .lambda _ result b => validateTry n C (some result) b
  | n + 1, C, res, .let_ _ _ a b => do
    validateTry n C res a
    validateTry n C res b
  | n + 1, C, _, .list _ elems => forList (fun e : ListElem Expr => match e with
      | .single e => validateTry n C none e
      | .multiple e => validateTry n C none e) elems
  | n + 1, C, _, .comprehension _ e b bs => do
    forList (fun b : Branch Expr => do
      forList (fun i : Option Ty × Expr => validateTry n C none i.2) b.iteratees
      match b.condition with
      | none => .ok ()
      | some c => validateTry n C none c) (b :: bs)
    validateTry n C none e
  | n + 1, C, res, .map _ _ elems => forList (fun e : MapElem Expr => match e with
      | .single a b => do
        validateTry n C res a
        validateTry n C res b
      | .multiple e => validateTry n C res e) elems
  | n + 1, C, res, .addition _ a b => do
    validateTry n C res a
    validateTry n C res b
  | n + 1, C, res, .arithmetic _ a b => do
    validateTry n C res a
    validateTry n C res b
  | n + 1, C, res, .booleanOp _ a b => do
    validateTry n C res a
    validateTry n C res b
  | n + 1, C, res, .equality _ _ a b => do
    validateTry n C res a
    validateTry n C res b
  | n + 1, C, res, .not a => validateTry n C res a
  | n + 1, C, res, .order _ a b => do
    validateTry n C res a
    validateTry n C res b
  | n + 1, C, res, .try_ _ a => do
    match res with
    | some r => do
      if ← subsumeCheck n C.types .error r then .ok () else .err .invalidTryOperation
    | none => .err .tryOperationInList
    validateTry n C res a
  | n + 1, C, res, .record _ fields =>
    forList (fun f : String × Expr => validateTry n C res f.2) fields
  | n + 1, C, res, .deconstruct _ r _ => validateTry n C res r
  | n + 1, C, res, .update _ r fields => do
    validateTry n C res r
    forList (fun f : String × Expr => validateTry n C res f.2) fields
  | _ + 1, _, _, _ => .ok ()

/-! ## Coercion -/

/-- `coerce_expression` (`lib/hir/src/analysis/type_coercer.rs:522-543`). -/
def coerceTo (n : Nat) (C : Ctx) (Γ : Vars) (e : Expr) (upper : Ty) : Res Err Expr := do
  let lower ← extract n C Γ e
  if ← equalCheck n C.types lower upper then .ok e else .ok (.coercion lower upper e)

/-- The loop over comprehension branches in `transform_expression`
(`lib/hir/src/analysis/type_coercer.rs:271-331`). -/
def coerceBranches (n : Nat) (C : Ctx) (coerceE : Vars → Expr → Res Err Expr) :
    Vars → List (Branch Expr) → Res Err (List (Branch Expr) × Vars)
  | Γ, [] => .ok ([], Γ)
  | Γ, b :: bs => do
    let is ← Res.mapList (fun i : Option Ty × Expr => do
      let e ← coerceE Γ i.2
      .ok (i.1, e)) b.iteratees
    let xs ← Res.mapList (fun p : String × (Option Ty × Expr) => bindElement n C p.1 p.2.1)
      (b.names.zip b.iteratees)
    let c ← match b.condition with
      | none => .ok none
      | some e => do
        let e ← coerceE (Γ.insertAll xs) e
        .ok (some e)
    let r ← coerceBranches n C coerceE (Γ.insertAll xs) bs
    .ok (⟨b.names, is, c⟩ :: r.1, r.2)

/-- `type_coercer::transform_expression` with `transform_lambda` and `transform_record_fields`
(`lib/hir/src/analysis/type_coercer.rs:43-520`). -/
def coerce : Nat → Ctx → Vars → Expr → Res Err Expr
  | 0, _, _, _ => .more
  | n + 1, C, Γ, .call type f args => do
    let t ← orErr type .typeNotInferred
    let ft ← expectFunction n C.types t
    let f ← coerce n C Γ f
    let args ← Res.mapList (fun p : Expr × Ty => do
      let e ← coerce n C Γ p.1
      coerceTo n C Γ e p.2) (args.zip ft.1)
    .ok (.call type f args)
  | n + 1, C, Γ, .builtInCall type f args => do
    let t ← orErr type .typeNotInferred
    let ft ← expectFunction n C.types t
    let args ← Res.mapList (fun p : Expr × Ty => do
      let e ← coerce n C Γ p.1
      coerceTo n C Γ e p.2) (args.zip ft.1)
    .ok (.builtInCall type f args)
  | n + 1, C, Γ, .if_ c a b => do
    let t ← extract n C Γ (.if_ c a b)
    let c ← coerce n C Γ c
    let a ← coerce n C Γ a
    let a ← coerceTo n C Γ a t
    let b ← coerce n C Γ b
    let b ← coerceTo n C Γ b t
    .ok (.if_ c a b)
  | n + 1, C, Γ, .ifList type l first rest a b => do
    let e ← orErr type .typeNotInferred
    let t ← extract n C Γ (.ifList type l first rest a b)
    let l ← coerce n C Γ l
    let Γ' := (Γ.insert first (.function [] e)).insert rest (.list e)
    let a ← coerce n C Γ' a
    let a ← coerceTo n C Γ' a t
    let b ← coerce n C Γ b
    let b ← coerceTo n C Γ b t
    .ok (.ifList type l first rest a b)
  | n + 1, C, Γ, .ifMap kt vt x m k a b => do
    let k' ← orErr kt .typeNotInferred
    let v' ← orErr vt .typeNotInferred
    let t ← extract n C Γ (.ifMap kt vt x m k a b)
    let m ← coerce n C Γ m
    let k ← coerce n C Γ k
    let k ← coerceTo n C Γ k k'
    let a ← coerce n C (Γ.insert x v') a
    let a ← coerceTo n C (Γ.insert x v') a t
    let b ← coerce n C Γ b
    let b ← coerceTo n C Γ b t
    .ok (.ifMap kt vt x m k a b)
  | n + 1, C, Γ, .ifType x e branches else_ => do
    let t ← extract n C Γ (.ifType x e branches else_)
    let e ← coerce n C Γ e
    let branches ← Res.mapList (fun b : Ty × Expr => do
      let e ← coerce n C (Γ.insert x b.1) b.2
      let e ← coerceTo n C (Γ.insert x b.1) e t
      .ok (b.1, e)) branches
    let else_ ← match else_ with
      | none => .ok none
      | some (u, b) => do
        let u' ← orErr u .typeNotInferred
        let b ← coerce n C (Γ.insert x u') b
        let b ← coerceTo n C (Γ.insert x u') b t
        .ok (some (u, b))
    .ok (.ifType x e branches else_)
  | n + 1, C, Γ, .lambda params result b => do
    let b ← coerce n C (Γ.insertAll params) b
    let b ← coerceTo n C (Γ.insertAll params) b result
    .ok (.lambda params result b)
  | n + 1, C, Γ, .let_ x t a b => do
    let a ← coerce n C Γ a
    let xs ← bindLet x t
    let b ← coerce n C (Γ.insertAll xs) b
    .ok (.let_ x t a b)
  | n + 1, C, Γ, .list t elems => do
    let elems ← Res.mapList (fun e : ListElem Expr => match e with
      | .multiple e => do
        let e ← coerce n C Γ e
        let e ← coerceTo n C Γ e (.list t)
        .ok (ListElem.multiple e)
      | .single e => do
        let e ← coerce n C Γ e
        let e ← coerceTo n C Γ e t
        .ok (ListElem.single e)) elems
    .ok (.list t elems)
  | n + 1, C, Γ, .comprehension t e b bs => do
    let r ← coerceBranches n C (coerce n C) Γ (b :: bs)
    let e ← coerce n C r.2 e
    let e ← coerceTo n C r.2 e t
    match r.1 with
    | b :: bs => .ok (.comprehension t e b bs)
    | [] => .err .panic -- unreachable: one result per branch
  | n + 1, C, Γ, .map k v elems => do
    let elems ← Res.mapList (fun e : MapElem Expr => match e with
      | .single a b => do
        let a ← coerce n C Γ a
        let a ← coerceTo n C Γ a k
        let b ← coerce n C Γ b
        let b ← coerceTo n C Γ b v
        .ok (MapElem.single a b)
      | .multiple e => do
        let e ← coerce n C Γ e
        let e ← coerceTo n C Γ e (.map k v)
        .ok (MapElem.multiple e)) elems
    .ok (.map k v elems)
  | n + 1, C, Γ, .addition t a b => do
    let a ← coerce n C Γ a
    let b ← coerce n C Γ b
    .ok (.addition t a b)
  | n + 1, C, Γ, .arithmetic op a b => do
    let a ← coerce n C Γ a
    let b ← coerce n C Γ b
    .ok (.arithmetic op a b)
  | n + 1, C, Γ, .booleanOp op a b => do
    let a ← coerce n C Γ a
    let b ← coerce n C Γ b
    .ok (.booleanOp op a b)
  | n + 1, C, Γ, .equality t op a b => do
    let u ← orErr t .typeNotInferred
    let a ← coerce n C Γ a
    let a ← coerceTo n C Γ a u
    let b ← coerce n C Γ b
    let b ← coerceTo n C Γ b u
    .ok (.equality t op a b)
  | n + 1, C, Γ, .not a => do
    let a ← coerce n C Γ a
    .ok (.not a)
  | n + 1, C, Γ, .order op a b => do
    let a ← coerce n C Γ a
    let b ← coerce n C Γ b
    .ok (.order op a b)
  | n + 1, C, Γ, .try_ t a => do
    let a ← coerce n C Γ a
    .ok (.try_ t a)
  | n + 1, C, Γ, .record t fields => do
    let fs ← resolveFields n C t
    let fields ← Res.mapList (fun f : String × Expr => do
      let e ← coerce n C Γ f.2
      let ft ← fieldType fs f.1
      let e ← coerceTo n C Γ e ft
      .ok (f.1, e)) fields
    .ok (.record t fields)
  | n + 1, C, Γ, .deconstruct t r field => do
    let r ← coerce n C Γ r
    .ok (.deconstruct t r field)
  | n + 1, C, Γ, .update t r fields => do
    let r ← coerce n C Γ r
    let fs ← resolveFields n C t
    let fields ← Res.mapList (fun f : String × Expr => do
      let e ← coerce n C Γ f.2
      let ft ← fieldType fs f.1
      let e ← coerceTo n C Γ e ft
      .ok (f.1, e)) fields
    .ok (.update t r fields)
  | n + 1, C, Γ, .coercion src dst e => do
    let e ← coerce n C Γ e
    .ok (.coercion src dst e)
  | _ + 1, _, _, e => .ok e

/-! ## Existence of types -/

/-- The check of one type in `type_existence_validator::validate`
(`lib/hir/src/analysis/type_existence_validator.rs:6-36`): every alias reference in it is defined. Record
types are made by the front end only as references, so the record case is not modelled. -/
def typeExists (m : TypeModule) (t : Ty) : Res Err Unit :=
  match (collectReferences t).find? (fun n => !referenceExists m n) with
  | none => .ok ()
  | some n => .err (.typeNotFound n)

/-- `type_existence_validator::validate` for the types in an expression, in the order of
`type_transformer::transform_expression` (`lib/hir/src/analysis/type_transformer.rs:134-330`). Annotations
that inference fills in are absent from source expressions and not visited. -/
def typesExist : Nat → TypeModule → Expr → Res Err Unit
  | 0, _, _ => .more
  | n + 1, m, .call _ f args => do
    typesExist n m f
    forList (typesExist n m) args
  | n + 1, m, .builtInCall _ _ args => forList (typesExist n m) args
  | n + 1, m, .if_ c a b => do
    typesExist n m c
    typesExist n m a
    typesExist n m b
  | n + 1, m, .ifList _ l _ _ a b => do
    typesExist n m l
    typesExist n m a
    typesExist n m b
  | n + 1, m, .ifMap _ _ _ x k a b => do
    typesExist n m x
    typesExist n m k
    typesExist n m a
    typesExist n m b
  | n + 1, m, .ifType _ e branches else_ => do
    typesExist n m e
    forList (fun b : Ty × Expr => do
      typeExists m b.1
      typesExist n m b.2) branches
    match else_ with
    | none => .ok ()
    | some b => typesExist n m b.2
  | n + 1, m, .coercion src dst e => do
    typeExists m src
    typeExists m dst
    typesExist n m e
  | n + 1, m, .lambda params result b => do
    forList (fun p : String × Ty => typeExists m p.2) params
    typeExists m result
    typesExist n m b
  | n + 1, m, .let_ _ _ a b => do
    typesExist n m a
    typesExist n m b
  | n + 1, m, .list t elems => do
    typeExists m t
    forList (fun e : ListElem Expr => match e with
      | .single e => typesExist n m e
      | .multiple e => typesExist n m e) elems
  | n + 1, m, .comprehension t e b bs => do
    typeExists m t
    typesExist n m e
    forList (fun b : Branch Expr => do
      forList (fun i : Option Ty × Expr => typesExist n m i.2) b.iteratees
      match b.condition with
      | none => .ok ()
      | some c => typesExist n m c) (b :: bs)
  | n + 1, m, .map k v elems => do
    typeExists m k
    typeExists m v
    forList (fun e : MapElem Expr => match e with
      | .single a b => do
        typesExist n m a
        typesExist n m b
      | .multiple e => typesExist n m e) elems
  | n + 1, m, .addition _ a b => do
    typesExist n m a
    typesExist n m b
  | n + 1, m, .arithmetic _ a b => do
    typesExist n m a
    typesExist n m b
  | n + 1, m, .booleanOp _ a b => do
    typesExist n m a
    typesExist n m b
  | n + 1, m, .equality _ _ a b => do
    typesExist n m a
    typesExist n m b
  | n + 1, m, .not a => typesExist n m a
  | n + 1, m, .order _ a b => do
    typesExist n m a
    typesExist n m b
  | n + 1, m, .try_ _ a => typesExist n m a
  | n + 1, m, .record t fields => do
    typeExists m t
    forList (fun f : String × Expr => typesExist n m f.2) fields
  | n + 1, m, .deconstruct _ r _ => typesExist n m r
  | n + 1, m, .update t r fields => do
    typeExists m t
    typesExist n m r
    forList (fun f : String × Expr => typesExist n m f.2) fields
  | _ + 1, _, _ => .ok ()

/-! ## Analysis of a module -/

/-- Inference, checking, validation and coercion of one function definition: the per-definition parts of
`analyze` (`lib/hir/src/analysis.rs:50-58`; `infer_definition`, `check_lambda`, `validate_lambda`,
`transform_function_definition`). -/
def analyzeDefinition (n : Nat) (C : Ctx) (Γ : Vars) (d : Definition) : Res Err Definition := do
  let e ← infer n C (Γ.insertAll d.params) d.body
  let t ← check n C (Γ.insertAll d.params) e
  expectSub n C t d.result
  validateTry n C (some d.result) e
  let e ← coerce n C (Γ.insertAll d.params) e
  let e ← coerceTo n C (Γ.insertAll d.params) e d.result
  let t ← check n C (Γ.insertAll d.params) e
  expectSub n C t d.result
  .ok ⟨d.name, d.params, d.result, e⟩

/-- `analyze` (`lib/hir/src/analysis.rs:42-61`). The passes run one after the other over all definitions
there; here each definition goes through all of them, which changes only which error is reported. The
validators for duplicate type names, impossible records, record field visibility and unused errors only
reject modules and are left out: the model accepts more modules than the compiler does. The types of
imported functions are checked to exist like those of foreign ones; the compiler omits that check for them
(`type_transformer.rs:25`), as they come from modules it has accepted. -/
def analyze (n : Nat) (m : Module) : Res Err Module := do
  if (m.definitions.map (·.name)).dedup.length ≠ m.definitions.length then .err .duplicateFunctionNames
  else do
    forList (fun a : String × Ty => typeExists m.types a.2) m.types.aliases
    forList (fun r : String × List RecordField =>
      forList (fun f : RecordField => typeExists m.types f.type) r.2) m.types.records
    forList (fun d : String × (List Ty × Ty) => typeExists m.types (.function d.2.1 d.2.2)) m.declarations
    forList (fun d : Definition => typesExist n m.types (.lambda d.params d.result d.body)) m.definitions
    if validateAliases m.types then do
      let ds ← Res.mapList (analyzeDefinition n m.ctx m.vars) m.definitions
      .ok ⟨m.types, m.declarations, ds⟩
    else .err .recursiveTypeAlias

end Verif.Hir
