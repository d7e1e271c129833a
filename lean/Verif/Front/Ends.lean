import Verif.Front.Examples
import Verif.Names.Ends

/-
C70: checking a program ends.

Name resolution and the analysis recur over expressions and types, and types refer to types by name. The
models have a bound on the depth of the recursion, `more` being the outcome of a bound that is too low. Here:
for every program there is a bound from which on there is one outcome, and it is not `more`.
-/

namespace Verif.Front

open Verif

/-- **C70, the analysis.** The analysis of a module ends, whatever the module: its types may be recursive, its
aliases may form cycles, and names may be undefined. There is one outcome, the analyzed module or an error,
for all bounds that are large enough, and for all others the outcome is that they are not. -/
theorem c70_analysis_ends (m : Names.Module) :
    ∃ r, r ≠ .more ∧ ∃ N, (∀ n, N ≤ n → Names.analyze n m = r) ∧ ∀ n, n < N → Names.analyze n m = .more :=
  Names.analyze_ends m

/-- **C70, bounds do not matter.** The outcomes for two bounds that are large enough are the same. -/
theorem c70_one_outcome (m : Names.Module) {i j : Nat} (hi : Names.analyze i m ≠ .more)
    (hj : Names.analyze j m ≠ .more) : Names.analyze i m = Names.analyze j m := by
  obtain ⟨r, _, N, h, h0⟩ := Names.analyze_ends m
  have key : ∀ k, Names.analyze k m ≠ .more → Names.analyze k m = r := fun k hk =>
    h k (by by_contra hc; exact hk (h0 k (by omega)))
  rw [key i hi, key j hj]

/-- **C70, types.** The same for the analysis of C47, which leaves some validators out. -/
theorem c70_type_analysis_ends (m : Hir.Module) :
    ∃ r, r ≠ .more ∧ ∃ N, (∀ n, N ≤ n → Hir.analyze n m = r) ∧ ∀ n, n < N → Hir.analyze n m = .more := by
  show Res.Ends fun n => Hir.analyze n m
  unfold Hir.analyze
  refine .ite (.err _) ((Hir.forList_ends fun _ _ => Hir.typeExists_ends _ _).bind fun _ =>
    (Hir.forList_ends fun _ _ => Hir.forList_ends fun _ _ => Hir.typeExists_ends _ _).bind fun _ =>
    (Hir.forList_ends fun _ _ => Hir.typeExists_ends _ _).bind fun _ =>
    (Hir.forList_ends fun _ _ => Hir.typesExist_ends _ _).bind fun _ => ?_)
  cases h : Hir.validateAliases m.types with
  | false => exact .err _
  | true => exact (Res.Ends.mapList fun d _ => Hir.analyzeDefinition_ends (fun t => (Hir.types_end h t).1) _ d).bind fun _ => .ok _

/-- The outcomes of compiling a module from its text. -/
inductive Outcome where
  | accepted (c : Compiled)
  | syntaxError
  | invalidLiteralOrImport
  | rejected (e : Hir.Err)

/-- The outcome of compiling a module to the depths `d` and `n`; none if they are too low. -/
inductive HasOutcome (R : Rounding) (preludes before : List Names.Interface) (s : Source) (d n : Nat) : Outcome → Prop
  | accepted {m b r} : Grammar.parse s.text = some m →
      compileTree R d (s.file ++ ":") (s.interfaces before) preludes m = some b → Names.analyze n b = .ok r →
      HasOutcome R preludes before s d n (.accepted ⟨b, r⟩)
  | syntaxError : Grammar.parse s.text = none → HasOutcome R preludes before s d n .syntaxError
  | invalid {m} : Grammar.parse s.text = some m →
      compileTree R d (s.file ++ ":") (s.interfaces before) preludes m = none →
      HasOutcome R preludes before s d n .invalidLiteralOrImport
  | rejected {m b e} : Grammar.parse s.text = some m →
      compileTree R d (s.file ++ ":") (s.interfaces before) preludes m = some b → Names.analyze n b = .err e →
      HasOutcome R preludes before s d n (.rejected e)

theorem compileTree_steady (R : Rounding) (pre : String) (is : Grammar.ModulePath → Option Names.Interface)
    (ps : List Names.Interface) (m : Grammar.Module) : Names.Steady fun d => compileTree R d pre is ps m := by
  unfold compileTree
  cases importedModules is m.imports with
  | none => exact .const _
  | some js =>
    cases convertModule R m with
    | none => exact .const _
    | some h => exact Names.compile_steady pre h js ps

/-- **C70, modules.** Every text has one outcome: it is compiled, or there is an error, from some depth on. -/
theorem c70_compilation_ends (R : Rounding) (preludes before : List Names.Interface) (s : Source) :
    ∃ o, ∃ N, ∀ d n, N ≤ d → N ≤ n → ∀ o', HasOutcome R preludes before s d n o' ↔ o' = o := by
  cases hm : Grammar.parse s.text with
  | none =>
    refine ⟨.syntaxError, 0, fun d n _ _ o' => ⟨fun h => ?_, fun h => h ▸ .syntaxError hm⟩⟩
    cases h <;> simp_all
  | some m =>
    obtain ⟨D, hD⟩ := compileTree_steady R (s.file ++ ":") (s.interfaces before) preludes m
    cases hb : compileTree R D (s.file ++ ":") (s.interfaces before) preludes m with
    | none =>
      refine ⟨.invalidLiteralOrImport, D, fun d n hd _ o' => ⟨fun h => ?_, fun h => h ▸ .invalid hm ((hD d hd).trans hb)⟩⟩
      have := (hD d hd).trans hb
      cases h <;> simp_all
    | some b =>
      obtain ⟨r, hr, N, hN, _⟩ := Names.analyze_ends b
      have hd' : ∀ d, D ≤ d → compileTree R d (s.file ++ ":") (s.interfaces before) preludes m = some b :=
        fun d hd => (hD d hd).trans hb
      cases r with
      | more => exact absurd rfl hr
      | err e =>
        refine ⟨.rejected e, max D N, fun d n hd hn o' => ⟨fun h => ?_, fun h =>
          h ▸ .rejected hm (hd' d (by omega)) (hN n (by omega))⟩⟩
        have h1 := hd' d (by omega)
        have h2 := hN n (by omega)
        cases h <;> simp_all
      | ok r =>
        refine ⟨.accepted ⟨b, r⟩, max D N, fun d n hd hn o' => ⟨fun h => ?_, fun h =>
          h ▸ .accepted hm (hd' d (by omega)) (hN n (by omega))⟩⟩
        have h1 := hd' d (by omega)
        have h2 := hN n (by omega)
        cases h <;> simp_all

/-- The outcomes are those of the compiler. -/
theorem compileSource_iff {R : Rounding} {preludes before : List Names.Interface} {s : Source} {d n : Nat} {c : Compiled} :
    compileSource R d n preludes before s = some c ↔ HasOutcome R preludes before s d n (.accepted c) := by
  unfold compileSource
  constructor
  · intro h
    simp only [Option.bind_eq_bind, Option.bind_eq_some_iff] at h
    obtain ⟨m, hm, b, hb, h⟩ := h
    split at h <;> cases h
    exact .accepted hm hb (by assumption)
  · rintro ⟨hm, hb, hr⟩
    simp [hm, hb, hr]

/-- **C70, programs.** Compiling a program of any number of modules ends: there is a depth from which on all
of its modules are compiled, to the same modules, or one of them is rejected. -/
theorem c70_programs_end (R : Rounding) (preludes : List Names.Interface) :
    ∀ (ss : List Source) (before : List Names.Interface),
    ∃ r, ∃ N, ∀ d n, N ≤ d → N ≤ n → compileSources R d n preludes before ss = r
  | [], _ => ⟨some [], 0, fun _ _ _ _ => rfl⟩
  | s :: ss, before => by
    obtain ⟨o, N, hN⟩ := c70_compilation_ends R preludes before s
    have other : (∀ c, o ≠ .accepted c) → ∃ r, ∃ N, ∀ d n, N ≤ d → N ≤ n →
        compileSources R d n preludes before (s :: ss) = r := by
      intro ho
      refine ⟨none, N, fun d n hd hn => ?_⟩
      simp only [compileSources, Option.bind_eq_bind]
      cases hc : compileSource R d n preludes before s with
      | none => rfl
      | some c => exact absurd ((hN d n hd hn _).mp (compileSource_iff.mp hc)).symm (ho c)
    cases o with
    | accepted c =>
      obtain ⟨r, M, hM⟩ := c70_programs_end R preludes ss (before ++ [Names.interface c.resolved])
      refine ⟨r.map (c :: ·), max N M, fun d n hd hn => ?_⟩
      simp only [compileSources, Option.bind_eq_bind]
      rw [compileSource_iff.mpr ((hN d n (by omega) (by omega) _).mpr rfl), Option.bind_some,
        hM d n (by omega) (by omega)]
      cases r <;> rfl
    | syntaxError => exact other fun c => by simp
    | invalidLiteralOrImport => exact other fun c => by simp
    | rejected e => exact other fun c => by simp

/-! ## Programs with each outcome -/

/-- Two aliases in a cycle. -/
def cyclic : Source where
  file := "Cyclic.pen"
  text := "type a = b\ntype b = a | none\nf = \\(x a) a { x }\n".toList
  find := fun _ => none

/-- A record that refers to itself in a list, through an alias, and one without values. -/
def recursive (field : String) : Source where
  file := "Tree.pen"
  text := ("type tree { children nodes }\ntype nodes = " ++ field ++
    "\nf = \\(t tree) nodes { t.children }\n").toList
  find := fun _ => none

/-- The error a module is rejected with. -/
def errorOf (d n : Nat) (s : Source) : Option Hir.Err := do
  let m ← Grammar.parse s.text
  let b ← compileTree someRounding d (s.file ++ ":") (s.interfaces []) [] m
  match Names.analyze n b with
  | .err e => some e
  | _ => none

theorem errorOf_outcome {d n : Nat} {s : Source} {e : Hir.Err} (h : errorOf d n s = some e) :
    HasOutcome someRounding [] [] s d n (.rejected e) := by
  simp only [errorOf, Option.bind_eq_bind, Option.bind_eq_some_iff] at h
  obtain ⟨m, hm, b, hb, h⟩ := h
  split at h <;> cases h
  exact .rejected hm hb (by assumption)

deriving instance DecidableEq for Hir.Err

/-- A module of each outcome; for the first, lower depths do not suffice. -/
example :
    (∃ c, HasOutcome someRounding [] [] (recursive "[tree]") 9 9 (.accepted c)) ∧
    (¬ ∃ o, HasOutcome someRounding [] [] (recursive "[tree]") 9 1 o) ∧
    HasOutcome someRounding [] [] cyclic 9 9 (.rejected .recursiveTypeAlias) ∧
    HasOutcome someRounding [] [] (recursive "tree") 9 9 (.rejected .impossibleRecord) ∧
    HasOutcome someRounding [] [] (recursive "[") 9 9 .syntaxError := by
  refine ⟨?_, ?_, errorOf_outcome (by decide +kernel), errorOf_outcome (by decide +kernel),
    .syntaxError (by decide +kernel)⟩
  · have : (compileSource someRounding 9 9 [] [] (recursive "[tree]")).isSome = true := by decide +kernel
    obtain ⟨c, hc⟩ := Option.isSome_iff_exists.mp this
    exact ⟨c, compileSource_iff.mp hc⟩
  · have h : (Grammar.parse (recursive "[tree]").text).map (fun m =>
        (compileTree someRounding 9 ((recursive "[tree]").file ++ ":") ((recursive "[tree]").interfaces []) [] m).map
          fun b => match Names.analyze 1 b with
            | .more => true
            | _ => false) = some (some true) := by decide +kernel
    rintro ⟨o, ho⟩
    cases ho <;> simp_all

/-- **C70, the order of the checks matters.** On the types of `cyclic`, whose aliases the analysis rejects before
it canonicalizes any type (`lib/hir/src/analysis.rs:43-50`), canonicalization would never end. -/
theorem c70_cycles_have_no_canonical_types :
    let A := Hir.collectAliases ⟨[], [("a", .reference "b"), ("b", .union (.reference "a") .none)]⟩
    ∀ n, Hir.canonicalize n A (.reference "a") = .more := by
  intro A
  have ha : Hir.resolve A "a" = .ok (.reference "b") := by decide +kernel
  have hb : Hir.resolve A "b" = .ok (.union (.reference "a") .none) := by decide +kernel
  have key : ∀ n, Hir.canonicalize n A (.reference "a") = .more ∧ Hir.canonicalize n A (.reference "b") = .more ∧
      Hir.canonicalize n A (.union (.reference "a") .none) = .more ∧
      ∀ s, Hir.collectTypes n A (.reference "a") s = .more ∧ Hir.collectTypes n A (.reference "b") s = .more ∧
        Hir.collectTypes n A (.union (.reference "a") .none) s = .more := by
    intro n
    induction n with
    | zero => exact ⟨rfl, rfl, rfl, fun _ => ⟨rfl, rfl, rfl⟩⟩
    | succ n ih =>
      obtain ⟨h1, h2, h3, h4⟩ := ih
      refine ⟨?_, ?_, ?_, fun s => ⟨?_, ?_, ?_⟩⟩
      · simp only [Hir.canonicalize, ha, Res.ok_bind, h2]
      · simp only [Hir.canonicalize, hb, Res.ok_bind, h3]
      · simp only [Hir.canonicalize, (h4 []).2.2]; rfl
      · simp only [Hir.collectTypes, ha, Res.ok_bind, (h4 s).2.1]
      · simp only [Hir.collectTypes, hb, Res.ok_bind, (h4 s).2.2]
      · simp only [Hir.collectTypes, (h4 s).1]; rfl
  exact fun n => (key n).1

end Verif.Front
