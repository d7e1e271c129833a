import Verif.Front.Examples
import Verif.Lower.Check

/-
C68: from the texts of the modules of a program to reference counted code.
-/

namespace Verif.Front

open Verif

section

variable {R : Rounding} {d n : Nat} {preludes : List Names.Interface}

/-- What name resolution results in is what the analysis is about. -/
theorem compileSources_analyze (hp : ∀ i ∈ preludes, Good i) {ss : List Source} {cs : List Compiled}
    (h : compileSources R d n preludes [] ss = some cs) {c : Compiled} (hc : c ∈ cs) :
    Hir.analyze n c.resolved.toHir = .ok c.analyzed := by
  obtain ⟨s, _, hk⟩ := forall₂_right (compileSources_known hp (by simp) h rfl) c hc
  obtain ⟨m, is, h', _, _, hw, hg, _, h6, h7⟩ := hk.facts
  exact Names.analyze_hir hw (fun i hi => (hg i hi).1) (fun i hi => (hg i hi).2) h6 h7

/-- **C68, compiled programs run.** If all modules of a program are accepted, whatever their texts are, and
one of them is lowered, then it goes through the middle end, and a call of one of its functions with data of
the types of its arguments never goes wrong on a heap, however the functions of other modules and foreign
ones behave as long as they result in values of their types: it never uses freed memory, results in data of
the type of its result if it ends, and leaves no memory but that of the result. (Missing: what is missing in
`c51_accepted_programs_run_partial`, that is, modules with constructs that are not lowered here and those
excluded by `TameModule`, `PlainModule` and `TidyModule`.) -/
theorem c68_compiled_programs_run_partial (hp : ∀ i ∈ preludes, Good i) {ss : List Source} {cs : List Compiled}
    (h : compileSources R d n preludes [] ss = some cs) {c : Compiled} (hc : c ∈ cs)
    (ht : Hir.TameModule c.resolved.toHir) {K : Lower.Config} {a k k' : Nat} {S : List Hir.Ty}
    (hm : Lower.PlainModule K a k S c.analyzed) (hti : Lower.TidyModule K k' c.analyzed) {p : Mir.Program}
    (hl : Lower.compileModule K a k c.analyzed = some p) :
    ∃ q, Mir.middleEnd p = some q ∧ ∀ {W : Hir.World} {w : Mir.World}, Lower.System K a S c.analyzed W w →
      ∀ {f : Hir.Definition}, f ∈ c.resolved.toHir.definitions → ∀ {as : List Hir.Ty} {r : Hir.Ty},
      Hir.Canon c.resolved.toHir.ctx.types (Hir.lambdaType f.params f.result) (.function as r) →
      ∀ {vs : List Hir.Val}, List.Forall₂ (Hir.HasType c.analyzed) vs as → ∀ {os : List Mir.Obs} {us : List Mir.Value},
      Mir.Obs.valueList os = some us → List.Forall₂ (Lower.Rel K a S c.analyzed) vs us → ∀ fuel : Nat,
      ((q.hrun w fuel f.name os).outcome = some .timeout ∨
        ∃ o log v, (q.hrun w fuel f.name os).outcome = some (.value o log) ∧ Lower.ObsRel K a S c.analyzed v o ∧
          Hir.Represents c.resolved.toHir.ctx v r) ∧
      q.hrun w fuel f.name os ≠ .fault ∧
      ∀ v heap log, q.hrun w fuel f.name os = .ok v heap log →
        ∃ heap', heap.release v.addrs = some heap' ∧ heap'.live = 0 :=
  Lower.c51_accepted_programs_run_partial (compileSources_analyze hp h hc) ht hm hti hl

end

/-! ## A program compiled from its texts -/

/-- The function of the prelude that compares strings (`lib/hir-mir/src/string_type_configuration.rs:7`,
`packages/prelude/String.pen`). -/
def stringPrelude : Names.Interface :=
  ⟨[], [], [⟨"prelude:_equalStrings", "_equalStrings", .function [.string, .string] .boolean⟩]⟩

theorem stringPrelude_good : Good stringPrelude := by
  refine ⟨⟨by simp [stringPrelude, Names.Full], by simp [stringPrelude], by simp [stringPrelude]⟩, ?_⟩
  exact ⟨by simp [stringPrelude], by simp [stringPrelude], by simp [stringPrelude, Names.Knows, Hir.collectReferences, Hir.collectReferencesList], by simp [stringPrelude]⟩

/-- Prices. -/
def till : Source where
  file := "Till.pen"
  text := ("import 'Shop { Make }\n" ++
    "type order { name string price number }\n" ++
    "Price = \\(x number | error, name string) number | error {\n" ++
    "  o = order{name: name, price: x?}\n" ++
    "  discount = \\(n number) number { n - o.price }\n\n" ++
    "  if o.name == \"tea\" { discount(1) } else { order{...o, price: 2}.price + apply(discount) }\n}\n" ++
    "apply = \\(f \\(number) number) number { f(3) }\n").toList
  find := main.find

theorem shop_compiled' : (compileSource someRounding 9 30 [stringPrelude] [] shop).map Compiled.interface =
    some shopInterface := by
  decide +kernel

/-- Type ids are not hashed here. -/
def tillConfig : Lower.Config := ⟨id, "prelude:_equalStrings"⟩

/-- What is assumed about the module holds. -/
theorem till_lowerable : ((compileSource someRounding 9 30 [stringPrelude] [shopInterface] till).map fun c =>
    (c.resolved.toHir.definitions.all fun f =>
      Hir.tame c.resolved.toHir.ctx.types 20 false (.lambda f.params f.result f.body)) &&
    Lower.checkLowerable tillConfig 20 20 [.number, .error] c.analyzed &&
    (Lower.compileModule tillConfig 20 20 c.analyzed).isSome) = some true := by
  decide +kernel

/-- The hypotheses of `c68_compiled_programs_run_partial` are met for the last module of the program. -/
example : ∃ cs c p, compileSources someRounding 9 30 [stringPrelude] [] [shop, till] = some cs ∧ c ∈ cs ∧
    "Till.pen:Price" ∈ c.resolved.toHir.definitions.map (·.name) ∧
    Hir.TameModule c.resolved.toHir ∧ Lower.PlainModule tillConfig 20 20 [.number, .error] c.analyzed ∧
    Lower.TidyModule tillConfig 20 c.analyzed ∧ Lower.compileModule tillConfig 20 20 c.analyzed = some p ∧
    ∃ q, Mir.middleEnd p = some q := by
  obtain ⟨c0, h0, e0⟩ := Option.map_eq_some_iff.mp shop_compiled'
  have hn : ((compileSource someRounding 9 30 [stringPrelude] [shopInterface] till).map fun c =>
      (c.resolved.toHir.definitions.map (·.name)).contains "Till.pen:Price") = some true := by decide +kernel
  obtain ⟨c, h1, e1⟩ := Option.map_eq_some_iff.mp till_lowerable
  rw [h1] at hn
  simp only [Bool.and_eq_true] at e1
  obtain ⟨⟨h2, h3⟩, h4⟩ := e1
  obtain ⟨p, h4⟩ := Option.isSome_iff_exists.mp h4
  have h5 : compileSources someRounding 9 30 [stringPrelude] [] [shop, till] = some [c0, c] := by
    have e0' : Names.interface c0.resolved = shopInterface := e0
    simp [compileSources, h0, e0', h1]
  have h6 := Hir.tameModule_sound h2
  obtain ⟨h7, h8⟩ := Lower.checkLowerable_sound h3
  obtain ⟨q, hq, _⟩ := c68_compiled_programs_run_partial (by simp [stringPrelude_good]) h5 (c := c) (by simp) h6 h7 h8 h4
  refine ⟨[c0, c], c, p, h5, by simp, ?_, h6, h7, h8, h4, q, hq⟩
  simpa using hn

end Verif.Front
