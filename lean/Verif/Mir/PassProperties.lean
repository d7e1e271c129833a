import Verif.Mir.ConversionLemmas
import Verif.Mir.AlphaUnique
import Verif.Mir.PipelineLemmas

/-
Properties C20-C24 of passes over the mid-level intermediate representation.

A pass preserves a program if, for every world, fuel, global function and arguments from native code, the transformed
program's run ends as the source's run does: with the same observable value and the same foreign calls in the same
order, or out of the same fuel. Nothing is claimed for runs with a type error.
-/
namespace Verif.Mir

/-- The pass does not change what a program does. -/
def Preserves (pass : Program → Program) (p : Program) : Prop :=
  ∀ (w : World) (fuel : Nat) (g : Name) (args : List Obs), p.run w captureAll fuel g args ≠ .stuck →
    ((pass p).run w captureAll fuel g args).outcome = (p.run w captureAll fuel g args).outcome

theorem Preserves.comp {f g : Program → Program} {p : Program} (hf : Preserves f p) (hg : Preserves g (f p)) :
    Preserves (fun p => g (f p)) p := by
  intro w fuel n args hs
  have h1 := hf w fuel n args hs
  have h2 : (f p).run w captureAll fuel n args ≠ .stuck := by
    intro h
    rw [h] at h1
    revert h1 hs
    generalize p.run w captureAll fuel n args = r
    cases r <;> simp [R.outcome]
  rw [hg w fuel n args h2, h1]

theorem Preserves.congr_pass {f g : Program → Program} {p : Program} (h : f p = g p) :
    Preserves f p = Preserves g p := by
  unfold Preserves
  rw [h]

/-- A world where arithmetic returns its first operand plus its second, and foreign calls return nothing. -/
def sampleWorld : World where
  arithmetic _ a b := a + b
  comparison _ a b := a == b
  foreign _ _ _ := .none

/-! ### C20: only free variables matter -/

theorem R.outcome_eq {p : Program} {r r' : R Value} (h : RRel (idK p) (VRel (idK p)) r r')
    (h' : RRel (idK p) (VRel (idK p)) r' r) : r.outcome = r'.outcome := by
  cases h with
  | stuck =>
    cases h' with
    | stuck => rfl
  | timeout => rfl
  | ok h => simp only [R.outcome, h.obs]
  | ret h => simp only [R.outcome, h.obs]

theorem EnvRel.of_agree (p : Program) {live : Name → Prop} {ρ ρ' : Env} (h : ∀ x, live x → ρ x = ρ' x) :
    EnvRel (idK p) id live ρ ρ' := by
  intro x hx v hv
  refine ⟨v, ?_, VRel.refl p v⟩
  have hv' : lookup p ρ x = some v := hv
  show lookup p ρ' x = some v
  unfold lookup at hv' ⊢
  rw [← h x hx]
  exact hv'

/-- If two environments agree on the free variables of an expression, its evaluation ends in the same way in both,
whether closures capture everything or only their environments. -/
theorem c20_free_variables (w : World) (p : Program) (n : Nat) (e : Expr) (ρ ρ' : Env) (log : Log)
    (h : ∀ x ∈ free e, ρ x = ρ' x) (capture : List Name → Env → Env)
    (hc : capture = captureAll ∨ capture = captureEnvironment) :
    (eval w p capture (apply w p capture n) ρ e log).outcome =
      (eval w p capture (apply w p capture n) ρ' e log).outcome := by
  have hcap : Capturing (idK p) capture := by
    rcases hc with rfl | rfl
    · exact captureAll_capturing _
    · exact captureEnvironment_capturing p
  have hsim := free_sim (S := ⟨idK p, w, capture, capture, _, _, rfl, idK_calls w p capture hcap n⟩) p rfl rfl hcap e
    (· ∈ free e) (fun x hx => hx)
  exact R.outcome_eq (hsim ρ ρ' log (.of_agree p h)) (hsim ρ' ρ log (.of_agree p fun x hx => (h x hx).symm))

/-- The hypothesis is met by environments that differ: `let y = x in y + z` does not depend on `y`. -/
example : (∀ x ∈ free (.let_ "y" (.variable "x") (.op (.arithmetic .add) (.cons (.variable "y") (.cons (.variable "z") .nil)))),
      (Env.set (Env.set (Env.set (fun _ => none) "x" (.number 1)) "z" (.number 2)) "y" .none) x =
      (Env.set (Env.set (Env.set (fun _ => none) "z" (.number 2)) "x" (.number 1)) "y" (.boolean true)) x) := by
  intro x hx
  have : x = "x" ∨ x = "z" := by
    simp [free, freeExprs] at hx
    exact hx
  rcases this with rfl | rfl <;> rfl

/-- A variable that is not reported as free is not needed at all: evaluation of an expression without free variables
does not depend on the environment. -/
theorem c20_closed (w : World) (p : Program) (n : Nat) (e : Expr) (ρ ρ' : Env) (log : Log) (h : free e = []) :
    (eval w p captureAll (apply w p captureAll n) ρ e log).outcome =
      (eval w p captureAll (apply w p captureAll n) ρ' e log).outcome :=
  c20_free_variables w p n e ρ ρ' log (by simp [h]) captureAll (Or.inl rfl)

example : free (.letRec "f" [] ["x"] false (.op .call (.cons (.variable "f") (.cons (.variable "x") .nil)))
    (.op .call (.cons (.variable "f") (.cons (.literal .none) .nil)))) = [] := by decide

/-! ### C21: flattening of string concatenations -/

theorem c21_concatenation (p : Program) : Preserves flattenProgram p := by
  intro w fuel g args hs
  exact run_eq (convertK flattenConcatenation p) w captureAll captureAll fuel
    (convert_calls w p (flatten_converting w _) fuel) g args hs

/-- After the pass, no operand of a concatenation is a concatenation. -/
def flat : Exprs → Prop
  | .nil => True
  | .cons e es => concatenationOperands e = none ∧ flat es

theorem flat_append {es fs : Exprs} (he : flat es) (hf : flat fs) : flat (es.append fs) := by
  induction es using Exprs.rec (motive_1 := fun _ => True) (motive_3 := fun _ => True) with
  | nil => exact hf
  | cons e es _ ih => exact ⟨he.1, ih he.2⟩
  | _ => trivial

theorem splice_flat : ∀ {es : Exprs}, (∀ e ∈ es.toList, ∀ fs, concatenationOperands e = some fs → flat fs) →
    flat (splice es)
  | .nil, _ => trivial
  | .cons e es, h => by
    have ih : flat (splice es) := splice_flat fun e' he => h e' (by simp [Exprs.toList, he])
    simp only [splice]
    split
    · rename_i fs hfs
      exact flat_append (h e (by simp [Exprs.toList]) fs hfs) ih
    · rename_i hn
      exact ⟨hn, ih⟩

theorem flatten_flat {e : Expr} {es : Exprs} (hes : ∀ es, concatenationOperands e = some es →
      ∀ e ∈ es.toList, ∀ fs, concatenationOperands e = some fs → flat fs)
    (h : concatenationOperands (flattenConcatenation e) = some es) : flat es := by
  unfold flattenConcatenation at h
  split at h
  · rename_i fs hfs
    simp only [concatenationOperands, Option.some.injEq] at h
    subst h
    exact splice_flat (hes fs hfs)
  · rename_i hn
    rw [hn] at h; cases h

mutual
theorem convert_flat : ∀ (e : Expr) (es : Exprs),
    concatenationOperands (convertExpr flattenConcatenation e) = some es → flat es
  | .op o fs, es, h => by
    refine flatten_flat (e := .op o (convertExprs flattenConcatenation fs)) ?_ h
    intro gs hgs e he hs hhs
    have : gs = convertExprs flattenConcatenation fs := by
      cases o <;> simp_all [concatenationOperands]
    subst this
    exact convertExprs_flat fs e he hs hhs
  | .literal _, es, h | .variable _, es, h | .case _ _, es, h | .if_ _ _ _, es, h | .let_ _ _ _, es, h
  | .letRec _ _ _ _ _ _, es, h | .try_ _ _ _ _, es, h | .clone _ _, es, h | .drop _ _, es, h => by
    simp [convertExpr, flattenConcatenation, concatenationOperands] at h
theorem convertExprs_flat : ∀ (es : Exprs), ∀ e ∈ (convertExprs flattenConcatenation es).toList,
    ∀ fs, concatenationOperands e = some fs → flat fs
  | .nil, e, he, _, _ => by simp [convertExprs, Exprs.toList] at he
  | .cons e' es, e, he, fs, h => by
    simp only [convertExprs, Exprs.toList, List.mem_cons] at he
    rcases he with rfl | he
    · exact convert_flat e' fs h
    · exact convertExprs_flat es e he fs h
end

theorem c21_flat (e : Expr) (es : Exprs) (h : convertExpr flattenConcatenation e = .op .concatenation es) : flat es :=
  convert_flat e es (by rw [h]; rfl)

/-- `"a" ++ ("b" ++ x) ++ "c"` in a function of `x`. -/
def sampleConcatenation : Program where
  foreign := []
  globals := [⟨"f", ["x"], false, .op .concatenation (.cons (.literal (.string [97]))
    (.cons (.op .concatenation (.cons (.literal (.string [98])) (.cons (.variable "x") .nil)))
      (.cons (.literal (.string [99])) .nil)))⟩]
  typeInformation := id

example : sampleConcatenation.run sampleWorld captureAll 1 "f" [.string [120]] = .ok (.string [97, 98, 120, 99]) [] ∧
    (flattenProgram sampleConcatenation).globals.map (·.body) = [.op .concatenation (.cons (.literal (.string [97]))
      (.cons (.literal (.string [98])) (.cons (.variable "x") (.cons (.literal (.string [99])) .nil))))] :=
  ⟨rfl, rfl⟩

/-! ### C22: alpha conversion -/

/-- All names of a program are names that can be in source code (which have no suffixes made of a colon and a number). -/
def SourceNames (p : Program) : Prop := ∀ d ∈ p.globals, ∀ x ∈ d.args ++ names d.body, SourceName x

theorem c22_alpha_conversion (p : Program) (h : SourceNames p) : Preserves alphaProgram p := by
  intro w fuel g args hs
  exact run_eq (alphaK p) w captureAll captureAll fuel (alpha_calls w p h fuel) g args hs

/-- After the pass, no two binders in the body of a function have the same name, and none has the name of a global
function. Missing: arguments of global functions, see `c22_argument_bound_again`. -/
theorem c22_unique_partial (p : Program) (h : SourceNames p) (hd : ∀ d ∈ p.globals, distinctArguments d.body) :
    ∀ d ∈ (alphaProgram p).globals, (binders d.body).Nodup ∧
      ∀ x ∈ binders d.body, SourceName x → p.isGlobal x = false := by
  intro d hm
  simp only [alphaProgram, List.mem_map] at hm
  obtain ⟨d', hd', rfl⟩ := hm
  have hf := alpha_fresh d'.body id p.nameCounts (fun x hx => h d' hd' x (by simp [hx])) (hd d' hd')
  refine ⟨hf.nodup, ?_⟩
  intro x hx hsx
  obtain ⟨y, k, _, hk, _, he⟩ := hf.fresh x hx
  obtain ⟨rfl, rfl⟩ := alphaName_source hsx he
  unfold Program.nameCounts at hk
  split at hk
  · omega
  · rename_i hg
    simpa using hg

/-- `\(x) { x = x + x; x = x + x; x }` -/
def sampleShadowing : Program where
  foreign := []
  globals := [⟨"f", ["y"], false,
    .let_ "x" (.op (.arithmetic .add) (.cons (.variable "y") (.cons (.variable "y") .nil)))
      (.let_ "x" (.op (.arithmetic .add) (.cons (.variable "x") (.cons (.variable "x") .nil)))
        (.let_ "f" (.variable "x") (.variable "f")))⟩]
  typeInformation := id

example : SourceNames sampleShadowing ∧ (∀ d ∈ sampleShadowing.globals, distinctArguments d.body) ∧
    sampleShadowing.run sampleWorld captureAll 1 "f" [.number 3] = .ok (.number 12) [] ∧
    (alphaProgram sampleShadowing).globals.map (binders ·.body) = [["x", "x:1", "f:1"]] := by
  refine ⟨?_, ?_, by rfl, by decide⟩
  · intro d hd x hx
    simp only [sampleShadowing, List.mem_singleton] at hd
    subst hd
    refine sourceName_of_no_colon ?_
    simp only [names, namesExprs, List.mem_append, List.mem_cons] at hx
    simp at hx
    have : x = "x" ∨ x = "y" ∨ x = "f" := by grind
    rcases this with rfl | rfl | rfl <;> decide
  · intro d hd
    simp only [sampleShadowing, List.mem_singleton] at hd
    subst hd
    simp [distinctArguments, distinctArgumentsExprs]

/-- `\(x) { x = x + x; x }`: an argument of a global function, bound again. -/
def sampleArgument : Program where
  foreign := []
  globals := [⟨"f", ["x"], false,
    .let_ "x" (.op (.arithmetic .add) (.cons (.variable "x") (.cons (.variable "x") .nil))) (.variable "x")⟩]
  typeInformation := id

/-- The full claim is false of the code: the conversion does not count arguments of global functions. -/
theorem c22_argument_bound_again :
    (alphaProgram sampleArgument).globals.map (fun d => d.args ++ binders d.body) = [["x", "x"]] := by decide

/-! ### C23: A-normal form -/

/-- In every function, bound names are different from each other and from free names, and no name is one that
normalization generates. -/
def HygienicProgram (p : Program) : Prop := ∀ d ∈ p.globals, HygienicE d.body

theorem c23_anf (p : Program) (h : HygienicProgram p) : Preserves anfProgram p := by
  intro w fuel g args hs
  exact run_eq (anfK p) w captureAll captureAll fuel (anf_calls w p h fuel) g args hs

/-- Normalization as the compiler does it, with the removal of aliases in every function. -/
theorem c23_normalization (p : Program) (h : HygienicProgram p) (hn : ∀ d ∈ p.globals, noEnvironments d.body) :
    Preserves normalizeProgram p := by
  rw [Preserves.congr_pass (g := fun p => removeAliasesProgram (anfProgram p))
    (normalizeProgram_eq p fun d hd => ⟨h d hd, hn d hd⟩)]
  refine Preserves.comp (c23_anf p h) ?_
  intro w fuel g args hs
  refine run_eq (aliasK (anfProgram p)) w captureAll captureAll fuel (alias_calls w _ ?_ fuel) g args hs
  intro d hd
  obtain ⟨d', hd', m, rfl⟩ := anfGlobals_mem id p.globals 0 d hd
  exact split_safe (h d' hd') m

/-- The result is in A-normal form, and no variable is bound to another one. -/
theorem c23_normal_form (p : Program) (h : HygienicProgram p) (hn : ∀ d ∈ p.globals, noEnvironments d.body) :
    ∀ d ∈ (normalizeProgram p).globals, normal true d.body ∧ noAliases d.body := by
  rw [normalizeProgram_eq p fun d hd => ⟨h d hd, hn d hd⟩]
  intro d hd
  simp only [removeAliasesProgram, List.mem_map] at hd
  obtain ⟨d1, h1, rfl⟩ := hd
  obtain ⟨d2, h2, m, rfl⟩ := anfGlobals_mem id p.globals 0 d1 h1
  exact ⟨removeAliases_normal _ id true (split_normal_plug d2.body m), removeAliases_noAliases _ id⟩

theorem isGlobal_flatten (p : Program) : (flattenProgram p).isGlobal = p.isGlobal := by
  funext x
  exact isGlobal_map p (fun d => { d with body := convertExpr flattenConcatenation d.body }) (fun _ => rfl) x

theorem wellNamed_flatten {p : Program} (h : ∀ d ∈ p.globals, WellNamed p d) :
    ∀ d ∈ (flattenProgram p).globals, WellNamed (flattenProgram p) d := by
  intro d hd
  simp only [flattenProgram, convertProgram, List.mem_map] at hd
  obtain ⟨d, hd, rfl⟩ := hd
  have hw := h d hd
  have hs := convert_names d.body
  exact ⟨by simp only [hs.binders]; exact hw.bound, by simp only [hs.names]; exact hw.source,
    by simp only [hs.free, isGlobal_flatten]; exact hw.closed, by simp only [hs.binders]; exact hw.arguments,
    hs.distinct hw.distinct, hs.environments hw.environments⟩

theorem alpha_program_hygienic {p : Program} (h : ∀ d ∈ p.globals, WellNamed p d) :
    HygienicProgram (alphaProgram p) ∧ ∀ d ∈ (alphaProgram p).globals, noEnvironments d.body := by
  constructor <;> intro d hd <;> simp only [alphaProgram, List.mem_map] at hd <;> obtain ⟨d, hd, rfl⟩ := hd
  · exact alpha_hygienic (h d hd)
  · exact alpha_noEnvironments _ _ _ (h d hd).environments

/-- The first passes of the compiler together (lib/mir-fmm/src/lib.rs:32-35), for all well-named programs. The only
restriction on what users can write is that arguments of global functions are not bound again in their bodies. -/
theorem c23_pipeline (p : Program) (h : ∀ d ∈ p.globals, WellNamed p d) :
    Preserves (fun p => normalizeProgram (alphaProgram (flattenProgram p))) p := by
  have h1 := wellNamed_flatten h
  refine Preserves.comp (f := flattenProgram) (g := fun p => normalizeProgram (alphaProgram p)) (c21_concatenation p) ?_
  refine Preserves.comp (f := alphaProgram) (g := normalizeProgram)
    (c22_alpha_conversion _ fun d hd x hx => (h1 d hd).source x hx) ?_
  obtain ⟨h2, h3⟩ := alpha_program_hygienic h1
  exact c23_normalization _ h2 h3

/-! ### C24: alias removal -/

/-- In every function, no name is bound twice or both bound and free. Missing: other functions, for which it is false,
see `c24_argument_bound_again`. -/
theorem c24_alias_removal_partial (p : Program) (h : ∀ d ∈ p.globals, SafeE id d.body) :
    Preserves removeAliasesProgram p := by
  intro w fuel g args hs
  exact run_eq (aliasK p) w captureAll captureAll fuel (alias_calls w p h fuel) g args hs

/-- `\(x) { y = x; \(z) { u = y; u + z }(g(y + x)) }`, with a foreign function `g`. -/
def sampleNormalization : Program where
  foreign := ["g"]
  globals := [⟨"f", ["x"], false,
    .let_ "y" (.variable "x") (.letRec "h" [] ["z"] false
      (.let_ "u" (.variable "y") (.op (.arithmetic .add) (.cons (.variable "u") (.cons (.variable "z") .nil))))
      (.op .call (.cons (.variable "h") (.cons (.op .call (.cons (.variable "g")
        (.cons (.op (.arithmetic .add) (.cons (.variable "y") (.cons (.variable "x") .nil))) .nil))) .nil))))⟩]
  typeInformation := id

theorem sampleNormalization_wellNamed : ∀ d ∈ sampleNormalization.globals, WellNamed sampleNormalization d := by
  intro d hd
  simp only [sampleNormalization, List.mem_singleton] at hd
  subst hd
  refine ⟨by decide, ?_, by decide, by decide, by simp [distinctArguments, distinctArgumentsExprs],
    by simp [noEnvironments, noEnvironmentsExprs]⟩
  intro x hx
  refine sourceName_of_no_colon ?_
  revert x
  decide

example : ∀ d ∈ sampleNormalization.globals, HygienicE d.body ∧ SafeE id d.body := by
  intro d hd
  simp only [sampleNormalization, List.mem_singleton] at hd
  subst hd
  refine ⟨⟨by decide, by decide, ?_⟩, ⟨by decide, by decide⟩⟩
  rintro x hx ⟨i, rfl⟩
  have : ':' ∉ (anfName i).toList := by
    revert hx
    generalize anfName i = y
    intro hy
    rw [← List.mem_append] at hy
    revert y
    decide
  simp [anfName] at this

example : (normalizeProgram sampleNormalization).globals.map (·.body) = [
    .letRec "h" [] ["z"] false
      (.op (.arithmetic .add) (.cons (.variable "x") (.cons (.variable "z") .nil)))
      (.let_ "anf:v:0" (.op (.arithmetic .add) (.cons (.variable "x") (.cons (.variable "x") .nil)))
        (.let_ "anf:v:1" (.op .call (.cons (.variable "g") (.cons (.variable "anf:v:0") .nil)))
          (.op .call (.cons (.variable "h") (.cons (.variable "anf:v:1") .nil)))))] := by rfl

/-- `\(x) { y = x; x = 1; y }` -/
def sampleAlias : Program where
  foreign := []
  globals := [⟨"f", ["x"], false,
    .let_ "y" (.variable "x") (.let_ "x" (.literal (.number 1)) (.variable "y"))⟩]
  typeInformation := id

/-- Alias removal changes what this function returns, and alpha conversion does not prevent that: arguments of global
functions are not renamed, nor are binders with the same names. -/
theorem c24_argument_bound_again :
    sampleAlias.run sampleWorld captureAll 1 "f" [.number 0] = .ok (.number 0) [] ∧
    (normalizeProgram (alphaProgram (flattenProgram sampleAlias))).run sampleWorld captureAll 1 "f" [.number 0] =
      .ok (.number 1) [] := ⟨rfl, rfl⟩

end Verif.Mir
