import Verif.Hir.AnalyzedModules

/-!
# C47: accepted programs do not go wrong

If the analysis accepts a module, calling its functions with arguments of the declared types never applies an
operation to a value of a wrong representation and results in a value of the declared type.
-/

namespace Verif.Hir

open Verif.Res

/-! ## Specification -/

mutual
/-- `Represents C v c`: the run-time value `v` has the representation of the type `c`. Nothing is said about
what functions do when they are called and lists when they are evaluated. -/
inductive Represents (C : Ctx) : Val → Ty → Prop
  | none : Represents C .none .none
  | boolean (b) : Represents C (.boolean b) .boolean
  | number (i) : Represents C (.number i) .number
  | string (s) : Represents C (.string s) .string
  | error {v} : Represents C v .any → Represents C (.error v) .error
  | record {n vs} : (∀ x c, FieldTy C n x c → (lookupField vs x).isSome) →
      (∀ x c v, FieldTy C n x c → lookupField vs x = some v → Represents C v c) →
      Represents C (.record n vs) (.record n)
  | closure {env params body as r} : params.length = List.length as →
      Represents C (.closure env params body) (.function as r)
  | foreign {x as r} : Represents C (.foreign x) (.function as r)
  | element {item t r} : Represents C (.element item t) (.function [] r)
  | spawned {env e t r} : Represents C (.spawned env e t) (.function [] r)
  | list {items c} : Represents C (.list items) (.list c)
  | map {entries k v} : (∀ p ∈ entries, Tagged C p.1 k) → (∀ p ∈ entries, Tagged C p.2 v) →
      Represents C (.map entries) (.map k v)
  | union {v l r} : Tagged C v (.union l r) → Represents C v (.union l r)
  | any {v} : Tagged C v .any → Represents C v .any
/-- `Tagged C v c`: a value of one of the members of `c` with the member as its tag. -/
inductive Tagged (C : Ctx) : Val → Ty → Prop
  | mk {tag v c} : c = .any ∨ tag ∈ unionMembers c → tag ≠ .any → NotUnion tag → Represents C v tag →
      Tagged C (.variant tag v) c
end

/-- Data that programs get from outside: `Plain v c` is a value of the type `c` without functions, lists and
maps in it. -/
inductive Plain : Val → Ty → Prop
  | none : Plain .none .none
  | boolean (b) : Plain (.boolean b) .boolean
  | number (i) : Plain (.number i) .number
  | string (s) : Plain (.string s) .string
  | error {v} : Plain v .any → Plain (.error v) .error
  | any {tag v} : tag ∈ [Ty.none, .boolean, .number, .string, .error] → Plain v tag → Plain (.variant tag v) .any
  | union {tag v l r} : tag ∈ [Ty.none, .boolean, .number, .string, .error] →
      tag ∈ unionMembers (.union l r) → Plain v tag → Plain (.variant tag v) (.union l r)

/-! ## Relation to the type system -/

theorem Plain.hasType {m : Module} {v : Val} {c : Ty} (h : Plain v c) : HasType m v c := by
  have atom : ∀ tag ∈ [Ty.none, .boolean, .number, .string, .error],
      Canon m.ctx.types tag tag ∧ NotUnion tag ∧ tag ≠ .any := by
    intro tag ht
    simp only [List.mem_cons, List.not_mem_nil, or_false] at ht
    rcases ht with rfl | rfl | rfl | rfl | rfl
    · exact ⟨canon_none, by simp [NotUnion], by simp⟩
    · exact ⟨canon_boolean, by simp [NotUnion], by simp⟩
    · exact ⟨canon_number, by simp [NotUnion], by simp⟩
    · exact ⟨canon_string, by simp [NotUnion], by simp⟩
    · exact ⟨canon_error, by simp [NotUnion], by simp⟩
  induction h with
  | none => exact .none
  | boolean b => exact .boolean b
  | number b => exact .number b
  | string b => exact .string b
  | error _ ih => exact .error ih
  | any ht _ ih =>
    obtain ⟨h1, h2, h3⟩ := atom _ ht
    exact .variant (Or.inl rfl) (.mk (Or.inl rfl) h1 h2 h3 ih)
  | union ht hm _ ih =>
    obtain ⟨h1, h2, h3⟩ := atom _ ht
    exact .variant (Or.inr ⟨_, _, rfl⟩) (.mk (Or.inr hm) h1 h2 h3 ih)

mutual
theorem HasType.represents {m : Module} : ∀ {v : Val} {c : Ty}, HasType m v c → Represents m.ctx v c
  | _, _, .none => .none
  | _, _, .boolean b => .boolean b
  | _, _, .number b => .number b
  | _, _, .string b => .string b
  | _, _, .error h => .error h.represents
  | _, _, .record h1 h2 => .record h1 fun x c v hx hv => (h2 x c v hx hv).represents
  | _, _, .closure _ h2 h3 _ _ => .closure (by rw [h2, h3.length_eq])
  | _, _, .foreign _ _ => .foreign
  | _, _, .element _ _ _ => .element
  | _, _, .spawned _ _ _ => .spawned
  | _, _, .list _ _ => .list
  | _, _, .map _ _ h1 h2 => .map (fun p hp => (h1 p hp).tagged) fun p hp => (h2 p hp).tagged
  | _, c, .variant h1 h2 => by
    have h3 := h2.tagged
    rcases h1 with rfl | ⟨l, r, rfl⟩
    · exact .any h3
    · exact .union h3
theorem IsVariantOf.tagged {m : Module} : ∀ {v : Val} {c : Ty}, IsVariantOf m v c → Tagged m.ctx v c
  | _, _, .mk h1 _ h3 h4 h5 => .mk h1 h4 h3 h5.represents
end

theorem lastLookup_of_nodup {β : Type} {xs : List (String × β)} (h : (xs.map (·.1)).Nodup) {x : String} {b : β}
    (hm : (x, b) ∈ xs) : lastLookup xs x = some b := by
  unfold lastLookup
  have hr : (xs.reverse.map (·.1)).Nodup := by rw [List.map_reverse]; exact List.nodup_reverse.mpr h
  have hm' : (x, b) ∈ xs.reverse := List.mem_reverse.mpr hm
  generalize xs.reverse = ys at hr hm'
  induction ys with
  | nil => simp at hm'
  | cons y ys ih =>
    rw [List.find?_cons]
    rw [List.map_cons, List.nodup_cons] at hr
    rcases List.mem_cons.mp hm' with h | h
    · subst h; simp
    · have : (y.1 == x) = false := by
        rw [beq_eq_false_iff_ne]
        intro he
        exact hr.1 (List.mem_map.mpr ⟨_, h, he.symm⟩)
      rw [this]
      exact ih hr.2 h

theorem analyze_nodup {n : Nat} {m m' : Module} (h : analyze n m = .ok m') :
    (m.definitions.map (·.name)).Nodup := by
  unfold analyze at h
  split at h
  · cases h
  · rename_i hd
    have hl : (m.definitions.map (·.name)).dedup.length = (m.definitions.map (·.name)).length := by simpa using hd
    have := (List.dedup_sublist (m.definitions.map (·.name))).eq_of_length hl
    rw [← this]
    exact List.nodup_dedup _

theorem vars_definition {n : Nat} {m m' : Module} (h : analyze n m = .ok m') {d : Definition}
    (hd : d ∈ m.definitions) : m.vars d.name = some (lambdaType d.params d.result) := by
  rw [vars_eq]
  have : lastLookup (m.definitions.map fun d => (d.name, d)) d.name = some d := by
    refine lastLookup_of_nodup ?_ (List.mem_map.mpr ⟨d, hd, rfl⟩)
    rw [List.map_map]
    exact analyze_nodup h
  rw [this]
  rfl

/-- Calls of the functions of an accepted module. -/
theorem callFunction_ok {n : Nat} {m m' : Module} (h : analyze n m = .ok m') (ht : TameModule m) {W : World}
    (hw : WorldOk m' W) {d : Definition} (hd : d ∈ m.definitions) {as : List Ty} {c : Ty}
    (hc : Canon m.ctx.types (lambdaType d.params d.result) (.function as c)) {args : List Val}
    (ha : List.Forall₂ (HasType m') args as) (a k : Nat) :
    OutOk m' Option.none (HasType m' · c) (callFunction W m' a k d.name args) := by
  have A := analyzed h
  have hm := moduleOk_of_analyze h ht
  have S := evaluator_sound hm hw a k
  have hn : m'.vars d.name = some (lambdaType d.params d.result) := by
    rw [A.vars_eq]
    exact vars_definition h hd
  rw [← A.ctx_eq] at hc
  unfold callFunction
  exact OutOk.bind (lookup_ok hm envOk_empty hn hc) fun f hf => S.apply hf ha

/-! ## The property -/

/-- C47. Calling a function of an accepted module with arguments of the declared types never gets stuck, and
what it results in has the representation of the declared result type. The functions the module imports are
assumed to keep to their types (`WorldOk`), and programs with the constructs that `Tame` lists are left out:
for those the claim is false, see below. -/
theorem c47_accepted_programs_do_not_go_wrong_partial {n : Nat} {m m' : Module} (h : analyze n m = .ok m')
    (ht : TameModule m) {W : World} (hw : WorldOk m' W) {d : Definition} (hd : d ∈ m.definitions)
    {as : List Ty} {c : Ty} (hc : Canon m.ctx.types (lambdaType d.params d.result) (.function as c))
    {args : List Val} (ha : List.Forall₂ (HasType m') args as) (a k : Nat) (log : Log) :
    callFunction W m' a k d.name args log = .more ∨
      ∃ v log', callFunction W m' a k d.name args log = .val v log' ∧ HasType m' v c ∧ Represents m.ctx v c := by
  have := callFunction_ok h ht hw hd hc ha a k log
  cases hr : callFunction W m' a k d.name args log with
  | val v log' =>
    rw [hr] at this
    have h2 : HasType m' v c := this
    exact Or.inr ⟨v, log', rfl, h2, (analyzed h).ctx_eq ▸ h2.represents⟩
  | ret v log' =>
    rw [hr] at this
    obtain ⟨_, h1, _⟩ := this
    cases h1
  | stuck => rw [hr] at this; exact this.elim
  | more => exact Or.inl rfl

/-- C47 for modules without imports, called with plain data. -/
theorem c47_closed_programs_partial {n : Nat} {m m' : Module} (h : analyze n m = .ok m')
    (ht : TameModule m) (hi : m.declarations = []) (W : World) {d : Definition} (hd : d ∈ m.definitions)
    {args : List Val} (ha : List.Forall₂ (fun v (p : String × Ty) => ∃ c, Canon m.ctx.types p.2 c ∧ Plain v c)
      args d.params) (a k : Nat) (log : Log) :
    callFunction W m' a k d.name args log = .more ∨
      ∃ v log' c, callFunction W m' a k d.name args log = .val v log' ∧ Canon m.ctx.types d.result c ∧ Represents m.ctx v c := by
  have A := analyzed h
  have hw : WorldOk m' W := by
    intro n x d' as c args hx
    rw [A.declarations, hi] at hx
    simp [lastLookup] at hx
  obtain ⟨cf, hcf⟩ := A.vars d.name (lambdaType d.params d.result) (vars_definition h hd)
  obtain ⟨as, c, rfl, h1, h2⟩ := canon_function_inv hcf
  have ha' : List.Forall₂ (HasType m') args as := by
    clear hcf
    generalize d.params = ps at ha h1
    induction ha generalizing as with
    | nil => cases h1; exact .nil
    | cons hp _ ih =>
      cases h1 with
      | cons h3 h4 =>
        obtain ⟨c, h5, h6⟩ := hp
        rw [h3.det h5]
        exact .cons h6.hasType (ih _ h4)
  rcases c47_accepted_programs_do_not_go_wrong_partial h ht hw hd hcf ha' a k log with h3 | ⟨v, log', h3, _, h5⟩
  · exact Or.inl h3
  · exact Or.inr ⟨v, log', c, h3, h2, h5⟩

/-- What lists deliver: deconstructing a list of an accepted program never gets stuck, and evaluating its
first element results in a value of the element type, tagged. -/
theorem c47_list_elements_partial {n : Nat} {m m' : Module} (h : analyze n m = .ok m') (ht : TameModule m)
    {W : World} (hw : WorldOk m' W) {v : Val} {c : Ty} (hv : HasType m' v (.list c)) (a k l : Nat) (log log' : Log) :
    ∃ items, v = .list items ∧ ((evaluator W m' a k).uncons items log = .more ∨
      (∃ log₁, (evaluator W m' a k).uncons items log = .val Option.none log₁) ∨
      ∃ item rest log₁, (evaluator W m' a k).uncons items log = .val (some (item, rest)) log₁ ∧
        HasType m' (.list rest) (.list c) ∧
        ((evaluator W m' a l).force item log' = .more ∨
          ∃ w log₂, (evaluator W m' a l).force item log' = .val w log₂ ∧ Tagged m.ctx w c)) := by
  have A := analyzed h
  have hm := moduleOk_of_analyze h ht
  obtain ⟨items, h1, h2, h3⟩ := hv.list_inv
  refine ⟨items, h1, ?_⟩
  have h4 := (evaluator_sound hm hw a k).uncons h2 h3 log
  cases hr : (evaluator W m' a k).uncons items log with
  | more => exact Or.inl rfl
  | stuck => rw [hr] at h4; exact h4.elim
  | ret v _ => rw [hr] at h4; obtain ⟨_, h5, _⟩ := h4; cases h5
  | val o log₁ =>
    rw [hr] at h4
    cases o with
    | none => exact Or.inr (Or.inl ⟨log₁, rfl⟩)
    | some p =>
      obtain ⟨item, rest⟩ := p
      obtain ⟨h5, h6, h7⟩ : Forcible item ∧ ItemOk m' item c ∧ ∀ j ∈ rest, ItemOk m' j c := h4 item rest rfl
      refine Or.inr (Or.inr ⟨item, rest, log₁, rfl, .list h2 h7, ?_⟩)
      have h8 := (evaluator_sound hm hw a l).force h2 h5 h6 log'
      cases hf : (evaluator W m' a l).force item log' with
      | more => exact Or.inl rfl
      | stuck => rw [hf] at h8; exact h8.elim
      | ret v _ => rw [hf] at h8; obtain ⟨_, h5, _⟩ := h8; cases h5
      | val w log₂ =>
        rw [hf] at h8
        have h9 : IsVariantOf m' w c := h8
        exact Or.inr ⟨w, log₂, rfl, A.ctx_eq ▸ h9.tagged⟩

/-! ## A program the property applies to -/

/-- Some behaviour of everything outside. -/
def exampleWorld : World where
  arithmetic _ i _ := i
  add i j := i + j
  compare _ i j := decide (i < j)
  equalNumbers i j := i == j
  equal _ _ := false
  reflectEqual _ _ := Option.none
  debug _ := []
  count n := n.toUInt64
  pick _ _ := 0
  call _ _ _ := .none

/-- ```
type maybe = number | none

f = \(a maybe, b number | error) number | error {
  c = b?
  l = [number c, ...[number e() for e, d in [number 1], [number 2]]]

  if [h, ...t] = l {
    h() + if y = a as number { y } else if none { 0 }
  } else {
    0
  }
}
``` -/
def exampleProgram : Module where
  types := ⟨[], [("maybe", .union .number .none)]⟩
  declarations := []
  definitions := [⟨"f", [("a", .reference "maybe"), ("b", .union .number .error)], .union .number .error,
    .let_ (some "c") none (.try_ none (.variable "b"))
      (.let_ (some "l") none (.list .number [.single (.variable "c"),
          .multiple (.comprehension .number (.call none (.variable "e") [])
            ⟨["e", "d"], [(none, .list .number [.single (.number 1)]), (none, .list .number [.single (.number 2)])],
              none⟩ [])])
        (.ifList none (.variable "l") "h" "t"
          (.addition none (.call none (.variable "h") [])
            (.ifType "y" (.variable "a") [(.number, .variable "y"), (.none, .number 0)] none))
          (.number 0)))⟩]

theorem exampleProgram_tame : TameModule exampleProgram := by
  intro d hd
  simp only [exampleProgram, List.mem_singleton] at hd
  subst hd
  refine .lambdaTry ?_ ?_
  · intro h
    have h2 : Canon exampleProgram.ctx.types (.union .number .error) (.union .error .number) :=
      ⟨.union .number .error, .union .number .error, by decide⟩
    have := h.det h2
    cases this
  · refine .let_ (.try_ (.var _)) (.let_ (.list ?_ ?_) (.ifList (.var _) (.addition (.call (.var _) (by simp))
      (.ifType (.var _) ?_)) (.number _)))
    · intro e he
      simp at he
      subst he
      exact .var _
    · intro e he
      simp at he
      subst he
      refine .comprehension (.call (.var _) (by simp)) (by simp [Apart]; exact .mk (by simp) (by simp [kids, listElem]; exact .mk (by simp) (by simp [kids]))) ?_ (by simp)
      intro p hp i hi
      simp only [List.mem_singleton] at hp
      subst hp
      simp only [List.mem_cons, List.not_mem_nil, or_false] at hi
      rcases hi with rfl | rfl <;>
        exact .list (by intro e he; simp at he; subst he; exact .number _) (by intro e he; simp at he)
    · intro p hp
      simp only [List.mem_cons, List.not_mem_nil, or_false] at hp
      rcases hp with rfl | rfl
      · exact .var _
      · exact .number _

/-- Whether evaluation gets stuck. -/
def Result.isStuck {α : Type} : Result α → Bool
  | .stuck => true
  | _ => false

/-- The result of a call in the analyzed module. -/
noncomputable def analyzeAndCall (n : Nat) (m : Module) (W : World) (x : String) (args : List Val) :
    Option (Result Val) :=
  match analyze n m with
  | .ok m' => some (callFunction W m' n n x args [])
  | _ => Option.none

/-- A test for concrete results. -/
def isNumberVariant (i : UInt64) : Option (Result Val) → Bool
  | some (.val (.variant .number (.number j)) _) => i == j
  | _ => false

/-- A test for concrete results. -/
def isErrorVariant : Option (Result Val) → Bool
  | some (.val (.variant .error (.error _)) _) => true
  | _ => false

example : isNumberVariant 7 (analyzeAndCall 20 exampleProgram exampleWorld "f"
    [.variant .number (.number 3), .variant .number (.number 4)]) = true := by decide +kernel

example : isNumberVariant 4 (analyzeAndCall 20 exampleProgram exampleWorld "f"
    [.variant .none .none, .variant .number (.number 4)]) = true := by decide +kernel

example : isErrorVariant (analyzeAndCall 20 exampleProgram exampleWorld "f"
    [.variant .none .none, .variant .error (.error (.variant .none .none))]) = true := by decide +kernel

/-- The hypotheses of `c47_closed_programs_partial` hold for it. -/
example (i j : UInt64) (a k : Nat) (log : Log) : ∃ m', analyze 20 exampleProgram = .ok m' ∧
    (callFunction exampleWorld m' a k "f" [.variant .number (.number i), .variant .number (.number j)] log = .more ∨
    ∃ v log', callFunction exampleWorld m' a k "f"
        [.variant .number (.number i), .variant .number (.number j)] log = .val v log' ∧
      Represents exampleProgram.ctx v (.union .error .number)) := by
  have hok : (match analyze 20 exampleProgram with | .ok _ => true | _ => false) = true := by decide +kernel
  cases h : analyze 20 exampleProgram with
  | ok m' =>
    refine ⟨m', rfl, ?_⟩
    have hmaybe : Canon exampleProgram.ctx.types (.reference "maybe") (.union .none .number) :=
      ⟨.union .number .none, .reference (t := .union .number .none) (by decide) (.union .number .none), by decide⟩
    have herr : Canon exampleProgram.ctx.types (.union .number .error) (.union .error .number) :=
      ⟨.union .number .error, .union .number .error, by decide⟩
    rcases c47_closed_programs_partial h exampleProgram_tame rfl exampleWorld (d := exampleProgram.definitions[0])
      (by simp [exampleProgram]) (args := [.variant .number (.number i), .variant .number (.number j)])
      (.cons ⟨_, hmaybe, .union (by decide) (by decide) (.number i)⟩
        (.cons ⟨_, herr, .union (by decide) (by decide) (.number j)⟩ .nil)) a k log with h1 | ⟨v, log', c, h1, h2, h3⟩
    · exact Or.inl h1
    · exact Or.inr ⟨v, log', h1, h2.det herr ▸ h3⟩
  | err e => rw [h] at hok; cases hok
  | more => rw [h] at hok; cases hok

/-! ## Programs that are accepted and go wrong -/

theorem wrong_of {n : Nat} {m : Module} {W : World} {x : String} {args : List Val}
    (h : (analyzeAndCall n m W x args).any Result.isStuck = true) :
    ∃ m', analyze n m = .ok m' ∧ callFunction W m' n n x args [] = .stuck := by
  unfold analyzeAndCall at h
  cases ha : analyze n m with
  | ok m' =>
    rw [ha] at h
    refine ⟨m', rfl, ?_⟩
    cases hc : callFunction W m' n n x args [] with
    | stuck => rfl
    | _ => simp [hc, Result.isStuck] at h
  | err e => rw [ha] at h; cases h
  | more => rw [ha] at h; cases h

/-- `f = \(x (\() number) | error) number | error { go(x?)() }`. -/
def spawnTry : Module where
  types := ⟨[], []⟩
  declarations := []
  definitions := [⟨"f", [("x", .union (.function [] .number) .error)], .union .number .error,
    .call none (.builtInCall none .spawn [.try_ none (.variable "x")]) []⟩]

/-- The restriction of `?` in arguments of `go` is needed: they are compiled into the body of a thunk
(`lib/hir-mir/src/built_in_call.rs:181-249`), and so `?` in them returns from the thunk instead of the
function, and the error becomes the result of the thunk although its type is `number`. -/
theorem c47_go_with_try_goes_wrong : ∃ m', analyze 20 spawnTry = .ok m' ∧
    callFunction exampleWorld m' 20 20 "f" [.variant .error (.error (.variant .none .none))] [] = .stuck :=
  wrong_of (by decide +kernel)

/-- `f = \(x number) number { if [h, ...t] = [number z() for y, z in [number 1], [number x]] { h() } else { 0 } }`
with a given name in place of `y`. -/
def iterateeScope (y : String) : Module where
  types := ⟨[], []⟩
  declarations := []
  definitions := [⟨"f", [("x", .number)], .number,
    .ifList none (.comprehension .number (.call none (.variable "z") [])
        ⟨[y, "z"], [(none, .list .number [.single (.number 1)]), (none, .list .number [.single (.variable "x")])],
          none⟩ [])
      "h" "t" (.call none (.variable "h") []) (.number 0)⟩]

/-- Where a name of a branch occurs in a later iteratee, the passes disagree on what it means: type checking
(`lib/hir/src/analysis/type_checker.rs:306-336`) binds the names while it goes through the iteratees, while
inference, coercion and compilation read all iteratees in the scope outside. So a program that runs is
rejected when the bound name, which is not even used, is chosen to be `x`. -/
theorem c47_iteratee_scope_counterexample :
    (∃ m', analyze 20 (iterateeScope "y") = .ok m' ∧
      ∃ log, callFunction exampleWorld m' 20 20 "f" [.number 3] [] = .val (.number 3) log) ∧
    ∃ e, analyze 20 (iterateeScope "x") = .err e := by
  constructor
  · have h : (match analyzeAndCall 20 (iterateeScope "y") exampleWorld "f" [.number 3] with
      | some (.val (.number 3) _) => true | _ => false) = true := by decide +kernel
    unfold analyzeAndCall at h
    cases ha : analyze 20 (iterateeScope "y") with
    | ok m' =>
      simp only [ha] at h
      refine ⟨m', rfl, ?_⟩
      split at h
      · rename_i log h1
        exact ⟨log, by simpa using h1⟩
      · cases h
    | err e => simp [ha] at h
    | more => simp [ha] at h
  · have h : (match analyze 20 (iterateeScope "x") with | .err _ => true | _ => false) = true := by decide +kernel
    cases ha : analyze 20 (iterateeScope "x") with
    | err e => exact ⟨e, rfl⟩
    | ok m' => simp [ha] at h
    | more => simp [ha] at h

/-- `f = \(x {number: none} | error) number | error { if [k, ...ks] = keys(x?) { k() } else { 0 } }`. -/
def keysTry : Module where
  types := ⟨[], []⟩
  declarations := []
  definitions := [⟨"f", [("x", .union (.map .number .none) .error)], .union .number .error,
    .ifList none (.builtInCall none .keys [.try_ none (.variable "x")]) "k" "ks"
      (.call none (.variable "k") []) (.number 0)⟩]

/-- The restriction of `?` in arguments of `keys`, `values` and `race` is needed: they are evaluated in a
function of their own that results in a list and not in a variant, so that the compiler rejects the code it
generates for them only when it checks the types of the intermediate representation. -/
theorem c47_keys_with_try_goes_wrong : ∃ m', analyze 20 keysTry = .ok m' ∧
    callFunction exampleWorld m' 20 20 "f" [.variant .error (.error (.variant .none .none))] [] = .stuck :=
  wrong_of (by decide +kernel)

/-- `f = \(x number | error) error { y = x?; error(y) }` and `g = \() any { source(f(error(none))) }`. -/
def errorTry : Module where
  types := ⟨[], []⟩
  declarations := []
  definitions := [⟨"f", [("x", .union .number .error)], .error,
      .let_ (some "y") none (.try_ none (.variable "x")) (.builtInCall none .error [.variable "y"])⟩,
    ⟨"g", [], .any, .builtInCall none .source [.call none (.variable "f") [.builtInCall none .error [.none]]]⟩]

/-- The restriction of `?` in functions whose result type is just `error` is needed: the early return is a
variant, the type of the function is not. -/
theorem c47_try_in_error_function_goes_wrong : ∃ m', analyze 20 errorTry = .ok m' ∧
    callFunction exampleWorld m' 20 20 "g" [] [] = .stuck :=
  wrong_of (by decide +kernel)

end Verif.Hir
