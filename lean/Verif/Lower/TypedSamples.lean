import Verif.Lower.TypedProperties
import Verif.Lower.Properties

/-!
# A module that meets the hypotheses of C65, and one that does not
-/

namespace Verif.Lower

open Verif.Hir (Ty Ctx Expr Module Definition RecordField Vars Canon Typed)
open Verif.Mir.Typed (TExpr TExprs TAlts TOp TDefinition TDeclaration TModule)
open Verif.Names (children)
open Verif

/-! ## Checks of hypotheses -/

def everyVisited (p : Expr → Bool) : Nat → Expr → Bool
  | 0, _ => false
  | n + 1, e => p e && (children e).all (everyVisited p n)

theorem everyVisited_spec {p : Expr → Bool} {n : Nat} {e x : Expr} (h : everyVisited p n e = true) (hx : Visited x e) : p x = true := by
  induction hx generalizing n with
  | here =>
    cases n with
    | zero => cases h
    | succ n => simp only [everyVisited, Bool.and_eq_true] at h; exact h.1
  | child hy _ ih =>
    cases n with
    | zero => cases h
    | succ n =>
      simp only [everyVisited, Bool.and_eq_true, List.all_eq_true] at h
      exact ih (h.2 _ hy)

theorem canon_of_canonicalize {A : Hir.Aliases} {a : Nat} {t c : Ty} (h : Hir.canonicalize a A t = .ok c) : Canon A t c := by
  exact Canon.of_ok h

theorem canonicalize_le {A : Hir.Aliases} {a b : Nat} {t c : Ty} (hab : a ≤ b) (h : Hir.canonicalize a A t = .ok c) :
    Hir.canonicalize b A t = .ok c := by
  induction hab with
  | refl => exact h
  | step _ ih => 
    have := Hir.canonicalize_mono A t ‹_›
    rw [ih] at this
    exact this.ok rfl

theorem ok?_le {A : Hir.Aliases} {a b : Nat} {t c : Ty} (hab : a ≤ b) (h : ok? (Hir.canonicalize a A t) = some c) :
    ok? (Hir.canonicalize b A t) = some c := by
  rw [canonicalize_le hab (ok?_eq h)]; rfl

theorem unionMemberSet_le {A : Hir.Aliases} {a b : Nat} {t : Ty} {us : List Ty} (hab : a ≤ b)
    (h : ok? (Hir.unionMemberSet a A t) = some us) : ok? (Hir.unionMemberSet b A t) = some us := by
  have h := ok?_eq h
  obtain ⟨c, hc, h⟩ := Res.bind_eq_ok.1 h
  rw [Hir.unionMemberSet, canonicalize_le hab hc]
  cases h
  rfl

theorem collectFrom_le {a b : Nat} {e : Expr} {ts : List Ty} (hab : a ≤ b) (h : collectFrom a e = some ts) : collectFrom b e = some ts := by
  induction hab with
  | refl => exact h
  | step _ ih => exact collectFrom_mono _ ih

theorem variantTypes_le {a b n k : Nat} {m : Module} {ts : List Ty} (hab : a ≤ b) (hnk : n ≤ k) (h : variantTypes a n m = some ts) :
    variantTypes b k m = some ts := by
  simp only [variantTypes, Option.bind_eq_bind, Option.bind_eq_some_iff, Option.some.injEq] at h ⊢
  obtain ⟨tss, h1, ms, h2, h3⟩ := h
  exact ⟨tss, mapM_mono (fun d _ ts h => collectFrom_le hnk h) h1, ms, mapM_mono (fun t _ us h => unionMemberSet_le hab h) h2, h3⟩

theorem informationTypes_le {a b n k : Nat} {m : Module} {ts : List Ty} (hab : a ≤ b) (hnk : n ≤ k) (h : informationTypes a n m = some ts) :
    informationTypes b k m = some ts := by
  simp only [informationTypes, Option.bind_eq_bind, Option.bind_eq_some_iff, Option.some.injEq] at h ⊢
  obtain ⟨tss, h1, ms, h2, h3⟩ := h
  exact ⟨tss, variantTypes_le hab hnk h1, ms, mapM_mono (fun t _ us h => ok?_le hab h) h2, h3⟩

/-- Collected types do not depend on bounds. -/
theorem collisionless_of {K : Config} {m : Module} (a n : Nat) {ts : List Ty} (h : informationTypes a n m = some ts)
    (hc : NoCollisions K ts) : Collisionless K m := by
  intro b k us hu
  have h1 := informationTypes_le (Nat.le_max_left a b) (Nat.le_max_left n k) h
  have h2 := informationTypes_le (Nat.le_max_right a b) (Nat.le_max_right n k) hu
  rw [h1] at h2
  cases h2
  exact hc

def noCollisions (K : Config) (ts : List Ty) : Bool :=
  ts.all fun c => hirTypeId K c != "default" && ts.all fun d => decide (c = d) ||
    hirTypeId K c != hirTypeId K d && !(boxed c && boxed d && typeName K c == typeName K d)

theorem noCollisions_spec {K : Config} {ts : List Ty} (h : noCollisions K ts = true) : NoCollisions K ts := by
  simp only [noCollisions, List.all_eq_true, Bool.and_eq_true, Bool.or_eq_true, bne_iff_ne, ne_eq, decide_eq_true_eq,
    Bool.not_eq_true', beq_iff_eq] at h
  refine ⟨fun c hc d hd e => ?_, fun c hc d hd b1 b2 e => ?_, fun c hc => (h c hc).1⟩
  · rcases (h c hc).2 d hd with h | h
    · exact h
    · exact absurd e h.1
  · rcases (h c hc).2 d hd with h | h
    · exact h
    · simp [b1, b2, e] at h

def lowerableCheck (a : Nat) (C : Ctx) : Expr → Bool
  | .builtInCall _ f _ => decide (f = .error) || decide (f = .source)
  | .ifList .. => false
  | .ifMap .. => false
  | .list .. => false
  | .comprehension .. => false
  | .map .. => false
  | .equality (some t) _ _ _ =>
    match Hir.canonicalize a C.types t with
    | .ok .number => true
    | .ok .string => true
    | _ => false
  | .update _ _ fields => !fields.isEmpty
  | _ => true

theorem lowerableCheck_spec {a : Nat} {C : Ctx} {e : Expr} (h : lowerableCheck a C e = true) : lowerable C e := by
  unfold lowerableCheck at h
  split at h
  all_goals try (cases h; done)
  · simpa [lowerable] using h
  · split at h
    · exact .inl (Canon.of_ok ‹_›)
    · exact .inr (Canon.of_ok ‹_›)
    · cases h
  · simpa [lowerable, List.isEmpty_iff] using h
  · cases e <;> first | trivial | exact absurd rfl (by apply_assumption) | skip
    case equality t _ _ _ _ _ _ _ _ _ h _ =>
      cases t with
      | none => trivial
      | some t => exact absurd rfl (h _ _ _ _)

def canonicalizes (a : Nat) (A : Hir.Aliases) (t : Ty) : Bool :=
  match Hir.canonicalize a A t with
  | .ok _ => true
  | _ => false

theorem canonicalizes_spec {a : Nat} {A : Hir.Aliases} {t : Ty} (h : canonicalizes a A t = true) : ∃ c, Canon A t c := by
  unfold canonicalizes at h
  split at h
  · exact ⟨_, Canon.of_ok ‹_›⟩
  · cases h

/-- Whether a module is in the modelled part. -/
def lowerableModule (a n : Nat) (m : Module) : Bool :=
  (m.definitions.all fun d => everyVisited (lowerableCheck a m.ctx) n d.body) &&
  (m.declarations.all fun d => d.2.1.all (canonicalizes a m.ctx.types) && canonicalizes a m.ctx.types d.2.2) &&
  (m.types.records.all fun r => r.2.all fun f => canonicalizes a m.ctx.types f.type) &&
  (match variantTypes a n m with
  | some vs => vs.all fun
    | .record n => m.types.records.any fun r => r.1 == n
    | _ => true
  | none => false)

theorem lowerableModule_spec {a n : Nat} {m : Module} (h : lowerableModule a n m = true) : LowerableModule m := by
  simp only [lowerableModule, Bool.and_eq_true, List.all_eq_true] at h
  obtain ⟨⟨⟨h1, h2⟩, h3⟩, h4⟩ := h
  refine ⟨fun d hd x hx => lowerableCheck_spec (everyVisited_spec (h1 d hd) hx),
    fun d hd => ⟨fun t ht => canonicalizes_spec ((h2 d hd).1 t ht), canonicalizes_spec (h2 d hd).2⟩,
    fun r hr f hf => canonicalizes_spec (h3 r hr f hf), ?_⟩
  intro t ht c hc n' hn
  split at h4
  case h_2 => cases h4
  case h_1 vs hv =>
    have : Ty.record n' ∈ vs := by
      simp only [variantTypes, Option.bind_eq_bind, Option.bind_eq_some_iff, Option.some.injEq] at hv
      obtain ⟨tss, h5, ms, h6, rfl⟩ := hv
      have : t ∈ tss.flatten ++ m.types.records.flatMap fun r => r.2.map (·.type) := by
        rcases ht with ⟨d, hd, x, hx, ht⟩ | ⟨r, hr, f, hf, rfl⟩
        · obtain ⟨us, hus, he⟩ := mapM_target h5 hd
          exact List.mem_append_left _ (List.mem_flatten.2 ⟨us, hus, collectFrom_visited he hx t ht⟩)
        · exact List.mem_append_right _ (List.mem_flatMap.2 ⟨r, hr, List.mem_map.2 ⟨f, hf, rfl⟩⟩)
      obtain ⟨us, hus, he⟩ := mapM_target h6 this
      obtain ⟨c', hc', he⟩ := Res.bind_eq_ok.1 (ok?_eq he)
      rw [hc.det (Canon.of_ok hc')] at hn
      cases he
      exact List.mem_flatten.2 ⟨_, hus, (Hir.mem_btreeSet _ _).2 hn⟩
    have := List.all_eq_true.1 h4 _ this
    simp only [List.any_eq_true, beq_iff_eq] at this
    obtain ⟨r, hr, e⟩ := this
    exact List.mem_map.2 ⟨r, hr, e⟩

/-- Whether names in a module are as assumed. -/
def nameable (K : ReflectConfig) (X : Extras) (n : Nat) (m : Module) : Bool :=
  decide (m.types.records.map (·.1)).Nodup && (m.types.records.all fun r => !reserved r.1 && decide (r.2.map (·.name)).Nodup) &&
  decide (functionNames m).Nodup &&
  ((functionNames m).all fun x => !internal x && !reserved x && !["__debug", "__race", "__spawn"].contains x) &&
  (m.definitions.all fun d => everyVisited (fun x => (binds x).all fun y => !internal y && y != K.stringEqual) n d.body &&
    d.params.all fun p => !internal p.1 && p.1 != K.stringEqual) &&
  (X.exposed.all fun x => (functionNames m).contains x) &&
  (preludeFunctions K).all fun p => m.declarations.contains p

theorem nameable_spec {K : ReflectConfig} {X : Extras} {n : Nat} {m : Module} (h : nameable K X n m = true) : Nameable K X m := by
  simp only [nameable, Bool.and_eq_true, List.all_eq_true, decide_eq_true_eq, Bool.not_eq_true', bne_iff_ne, ne_eq,
    List.contains_iff_mem, List.contains_eq_mem, decide_eq_false_iff_not] at h
  obtain ⟨⟨⟨⟨⟨⟨h1, h2⟩, h3⟩, h4⟩, h5⟩, h6⟩, h7⟩ := h
  refine ⟨h1, fun r hr => (h2 r hr).1, fun r hr => (h2 r hr).2, h3, fun x hx => ⟨(h4 x hx).1.1, (h4 x hx).1.2, (h4 x hx).2⟩,
    fun d hd => ⟨fun x hx y hy => ?_, fun y hy => ?_⟩, h6, h7⟩
  · have := everyVisited_spec (h5 d hd).1 hx
    simp only [List.all_eq_true, Bool.and_eq_true, Bool.not_eq_true', bne_iff_ne, ne_eq] at this
    exact this y hy
  · obtain ⟨p, hp, rfl⟩ := List.mem_map.1 hy
    exact (h5 d hd).2 p hp

/-! ## A module -/

def typedSampleConfig : ReflectConfig where
  hash := id
  stringEqual := "equal"
  listType := "list"
  mapType := "map"
  listDebug := "list debug"
  listEqual := "list equal"
  mapDebug := "map debug"
  mapEqual := "map equal"
  numberDebug := "number debug"

def typedSampleExtras : Extras := ⟨fun x => x == "g", ["h"], fun n => n == "list" || n == "map", id⟩

/-- ```
type r {a number, b string | none}

f = \(x number | error, s string) number | error {
  y = x?
  z = r{b: s, a: g(y)}
  k = \(n number) number { n + z.a }

  if s == "a" { k(1) } else { r{...z, a: 2}.a + h(k) }
}

h = \(k \(number) number | none) number {
  if k = k as \(number) number { k(3) } else if none { 0 }
}
```
with a foreign function `g`; `h` is exposed. -/
def typedSampleSource : Module where
  types := ⟨[("r", [⟨"a", .number⟩, ⟨"b", .union .string .none⟩]), ("list", []), ("map", [])], []⟩
  declarations := preludeFunctions typedSampleConfig ++ [("g", ([.number], .number))]
  definitions := [⟨"f", [("x", .union .number .error), ("s", .string)], .union .number .error,
    .let_ (some "y") none (.try_ none (.variable "x"))
      (.let_ (some "z") none (.record (.reference "r") [("b", .variable "s"), ("a", .call none (.variable "g") [.variable "y"])])
        (.let_ (some "k") none (.lambda [("n", .number)] .number
            (.addition none (.variable "n") (.deconstruct none (.variable "z") "a")))
          (.if_ (.equality none .equal (.variable "s") (.string [97]))
            (.call none (.variable "k") [.number 1])
            (.addition none (.deconstruct none (.update (.reference "r") (.variable "z") [("a", .number 2)]) "a")
              (.call none (.variable "h") [.variable "k"])))))⟩,
    ⟨"h", [("k", .union (.function [.number] .number) .none)], .number,
      .ifType "k" (.variable "k") [(.function [.number] .number, .call none (.variable "k") [.number 3]), (.none, .number 0)] none⟩]

/-- The analyzed module. -/
def typedSampleModule : Module :=
  match Hir.analyze 20 typedSampleSource with
  | .ok m => m
  | _ => ⟨⟨[], []⟩, [], []⟩

theorem typedSample_analyzed : Hir.analyze 20 typedSampleSource = .ok typedSampleModule := by
  have hok : (match Hir.analyze 20 typedSampleSource with | .ok _ => true | _ => false) = true := by decide +kernel
  unfold typedSampleModule
  cases h : Hir.analyze 20 typedSampleSource with
  | ok m => rfl
  | err e => rw [h] at hok; cases hok
  | more => rw [h] at hok; cases hok

theorem typedSampleSource_tame : Hir.TameModule typedSampleSource := by
  intro d hd
  simp only [typedSampleSource, List.mem_cons, List.not_mem_nil, or_false] at hd
  rcases hd with rfl | rfl
  · refine .lambdaTry ?_ ?_
    · intro h
      have h2 : Hir.Canon typedSampleSource.ctx.types (.union .number .error) (.union .error .number) :=
        ⟨.union .number .error, .union .number .error, by decide⟩
      have := h.det h2
      cases this
    · refine .let_ (.try_ (.var _)) (.let_ (.record ?_) (.let_ (.lambda (.addition (.var _) (.deconstruct (.var _))))
        (.if_ (.equality (.var _) (.string _)) (.call (.var _) ?_) (.addition (.deconstruct (.update (.var _) ?_))
          (.call (.var _) ?_)))))
      all_goals intro f hf; simp only [List.mem_cons, List.not_mem_nil, or_false] at hf
      · rcases hf with rfl | rfl
        · exact .var _
        · refine .call (.var _) ?_
          intro f hf; simp only [List.mem_cons, List.not_mem_nil, or_false] at hf
          subst hf; exact .var _
      · subst hf; exact .number _
      · subst hf; exact .number _
      · subst hf; exact .var _
  · refine .lambda (.ifType (.var _) ?_)
    intro f hf; simp only [List.mem_cons, List.not_mem_nil, or_false] at hf
    rcases hf with rfl | rfl
    · refine .call (.var _) ?_
      intro f hf; simp only [List.mem_cons, List.not_mem_nil, or_false] at hf
      subst hf; exact .number _
    · exact .number _

theorem typedSample_nameable : Nameable typedSampleConfig typedSampleExtras typedSampleModule :=
  nameable_spec (n := 20) (by decide +kernel)

theorem typedSample_collisionless : Collisionless typedSampleConfig.toConfig typedSampleModule := by
  have h : (match informationTypes 20 20 typedSampleModule with
    | some ts => noCollisions typedSampleConfig.toConfig ts
    | none => false) = true := by decide +kernel
  cases h' : informationTypes 20 20 typedSampleModule with
  | none => rw [h'] at h; cases h
  | some ts => rw [h'] at h; exact collisionless_of 20 20 h' (noCollisions_spec h)

theorem typedSample_lowerable : LowerableModule typedSampleModule := lowerableModule_spec (a := 20) (n := 20) (by decide +kernel)

/-- The module is lowered, and passes the type check. -/
example : ∃ N, ∀ a n, N ≤ a → N ≤ n → ∃ t, compileModuleT typedSampleConfig typedSampleExtras a n typedSampleModule = some t ∧
    Mir.Typed.checkModule t = true :=
  c65_total_partial typedSample_analyzed typedSampleSource_tame typedSample_nameable typedSample_collisionless typedSample_lowerable

/-- It has the two functions, three functions for each of seven types, and three for other types. -/
example : (compileModuleT typedSampleConfig typedSampleExtras 20 20 typedSampleModule).map
    (fun t => (t.definitions.length, t.types.length, Mir.Typed.checkModule t)) = some (26, 6, true) := by decide +kernel

/-- Its source functions are those of the lowering of C51. -/
example : ∃ t p, compileModuleT typedSampleConfig typedSampleExtras 20 20 typedSampleModule = some t ∧
    compileModule typedSampleConfig.toConfig 20 20 typedSampleModule = some p ∧
    p.globals = (t.definitions.take typedSampleModule.definitions.length).map (·.erase (tagId typedSampleConfig.toTypedConfig)) := by
  obtain ⟨t, ht⟩ := Option.isSome_iff_exists.mp
    (show (compileModuleT typedSampleConfig typedSampleExtras 20 20 typedSampleModule).isSome = true by decide +kernel)
  obtain ⟨p, h1, h2⟩ := c65_erased ht
  exact ⟨t, p, ht, h1, h2⟩

/-! ## Two fields of one name -/

/-- ```
type q {x number, x string}

f = \() q {
  q{x: 1}
}
``` -/
def fieldsSource : Module where
  types := ⟨[("q", [⟨"x", .number⟩, ⟨"x", .string⟩]), ("list", []), ("map", [])], []⟩
  declarations := preludeFunctions typedSampleConfig
  definitions := [⟨"f", [], .reference "q", .record (.reference "q") [("x", .number 1)]⟩]

/-- C65: names of fields of a record are not checked to differ: a module with a record with two fields of one name is accepted, and
the type check of what it is lowered to fails. -/
theorem c65_fields_counterexample : ∃ m t, Hir.analyze 20 fieldsSource = .ok m ∧ Hir.TameModule fieldsSource ∧ LowerableModule m ∧
    Collisionless typedSampleConfig.toConfig m ∧ (functionNames m).Nodup ∧ (m.types.records.map (·.1)).Nodup ∧
    compileModuleT typedSampleConfig typedSampleExtras 20 20 m = some t ∧ Mir.Typed.checkModule t = false := by
  have h : (match Hir.analyze 20 fieldsSource with
    | .ok m => lowerableModule 20 20 m && (match informationTypes 20 20 m with
        | some ts => noCollisions typedSampleConfig.toConfig ts
        | none => false) && decide (functionNames m).Nodup && decide (m.types.records.map (·.1)).Nodup &&
      (match compileModuleT typedSampleConfig typedSampleExtras 20 20 m with
        | some t => !Mir.Typed.checkModule t
        | none => false)
    | _ => false) = true := by decide +kernel
  split at h
  case h_2 => cases h
  case h_1 m hm =>
    simp only [Bool.and_eq_true, decide_eq_true_eq] at h
    obtain ⟨⟨⟨⟨h1, h2⟩, h3⟩, h4⟩, h5⟩ := h
    split at h5
    case h_2 => cases h5
    case h_1 t ht =>
      split at h2
      case h_2 => cases h2
      case h_1 ts hts =>
        refine ⟨m, t, hm, ?_, lowerableModule_spec h1, collisionless_of 20 20 hts (noCollisions_spec h2), h3, h4, ht, by simpa using h5⟩
        intro d hd
        simp only [fieldsSource, List.mem_cons, List.not_mem_nil, or_false] at hd
        subst hd
        refine .lambda (.record ?_)
        intro f hf
        simp only [List.mem_cons, List.not_mem_nil, or_false] at hf
        subst hf
        exact .number _

end Verif.Lower
