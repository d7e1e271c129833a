import Verif.Front.Order
import Verif.Front.Reading
import Verif.Grammar.FormatterExamples

/-
C68: from the texts of the modules of a program to analyzed modules.
-/

namespace Verif.Front

open Verif
open Verif.Names (Plain)

/-! ## Which modules are converted -/

/-- **C68, literals.** A module that is parsed is converted if and only if each of its binary and
hexadecimal number literals has a value below 2^64. -/
theorem c68_conversion_succeeds (R : Rounding) {s : List Char} {m : Grammar.Module}
    (h : Grammar.parse s = some m) :
    (∃ h', convertModule R m = some h') ↔ ∀ n ∈ numbersOfModule m, Fits n :=
  convertModule_iff R (Grammar.parse_made h)

/-- **C68, values of literals.** Binary and hexadecimal literals stand for the values of their digits,
rounded once. -/
theorem c68_literal_values (R : Rounding) {n : Grammar.Number} (h : Grammar.IsNumber n) :
    convertNumber R n = match n with
      | .binary s => if valueOf 2 s < 2 ^ 64 then some (R.natural (valueOf 2 s)) else none
      | .hexadecimal s => if valueOf 16 s < 2 ^ 64 then some (R.natural (valueOf 16 s)) else none
      | .floatingPoint s => some (R.decimal s) :=
  convertNumber_spec R h

/-! ## What conversion keeps -/

/-- **C68, what is written.** The HIR of a module that is parsed says what is written in it: its functions
have the names, arguments and types of those of the text, in their order, and their bodies read like those
of the text, name by name, literal by literal, type by type and operator by operator; and so for its
records, type aliases and foreign functions. -/
theorem c68_conversion_keeps_what_is_written (R : Rounding) {s : List Char} {m : Grammar.Module}
    (h : Grammar.parse s = some m) {h' : Names.Module} (hc : convertModule R m = some h') :
    List.Forall₂ (fun (f : Grammar.FunctionDefinition) (f' : Names.FunctionDefinition) =>
      f'.name = text f.name ∧
      List.Forall₂ (fun (p : Grammar.Name × Grammar.Ty) (p' : String × Hir.Ty) =>
        p'.1 = text p.1 ∧ typeWords p'.2 = writtenType p.2) f.lambda.arguments f'.params ∧
      typeWords f'.result = writtenType f.lambda.result ∧
      Reads f'.body (tokensBlock R f.lambda.body)) m.functions h'.definitions ∧
    h'.types.map (fun t => (t.name, t.fields.map fun f => (f.name, typeWords f.type))) =
      (m.types.filterMap fun | .record x fs => some (x, fs) | .alias_ _ _ => none).map
        (fun t => (text t.1, t.2.map fun f => (text f.1, writtenType f.2))) ∧
    h'.aliases.map (fun t => (t.name, typeWords t.type)) =
      (m.types.filterMap fun | .record _ _ => none | .alias_ x t => some (x, t)).map
        (fun t => (text t.1, writtenType t.2)) ∧
    h'.foreigns.map (fun f => (f.name, typeWords f.type)) =
      m.foreignImports.map (fun f => (text f.name, writtenType f.type)) := by
  have hm := (Grammar.parse_made h).2.2.2
  simp only [convertModule, Option.bind_eq_bind, Option.bind_eq_some_iff, Option.some.injEq] at hc
  obtain ⟨fs, hc, rfl⟩ := hc
  have key : ∀ (gs : List Grammar.FunctionDefinition) (fs : List Names.FunctionDefinition),
      (∀ g ∈ gs, Grammar.IsIdentifier g.name ∧ g.lambda.expression.Made) → convertFunctions R gs = some fs →
      List.Forall₂ (fun (f : Grammar.FunctionDefinition) (f' : Names.FunctionDefinition) =>
      f'.name = text f.name ∧
      List.Forall₂ (fun (p : Grammar.Name × Grammar.Ty) (p' : String × Hir.Ty) =>
        p'.1 = text p.1 ∧ typeWords p'.2 = writtenType p.2) f.lambda.arguments f'.params ∧
      typeWords f'.result = writtenType f.lambda.result ∧
      Reads f'.body (tokensBlock R f.lambda.body)) gs fs := by
    intro gs
    induction gs with
    | nil => intro fs _ h; cases h; exact .nil
    | cons g gs ih =>
      intro fs hg h
      simp only [convertFunctions, convertFunction, Option.bind_eq_bind, Option.bind_eq_some_iff,
        Option.some.injEq] at h
      obtain ⟨f, ⟨b, h1, rfl⟩, fs', h2, rfl⟩ := h
      refine .cons ⟨rfl, ?_, convertType_reads _, convertBlock_reads ?_ h1⟩
        (ih _ (fun g' hg' => hg g' (List.mem_cons_of_mem _ hg')) h2)
      · generalize g.lambda.arguments = as
        induction as with
        | nil => exact .nil
        | cons a as ih' => exact .cons ⟨rfl, convertType_reads _⟩ ih'
      · exact (hg g List.mem_cons_self).2.2.2
  refine ⟨key _ _ hm hc, ?_, ?_, ?_⟩
  · dsimp only
    generalize m.types = ts
    induction ts with
    | nil => rfl
    | cons t ts ih =>
      cases t with
      | record x fs => simpa [convertRecordDefinition, List.filterMap_cons, convertType_reads] using ih
      | alias_ x t => simpa [convertRecordDefinition, List.filterMap_cons] using ih
  · dsimp only
    generalize m.types = ts
    induction ts with
    | nil => rfl
    | cons t ts ih =>
      cases t with
      | record x fs => simpa [convertAlias, List.filterMap_cons] using ih
      | alias_ x t => simpa [convertAlias, convertType_reads] using ih
  · simp [convertType_reads]

/-! ## Programs -/

section

variable {R : Rounding} {d n : Nat} {preludes : List Names.Interface}

theorem forall₂_zip {α β : Type} {P : α → β → Prop} : ∀ {as : List α} {bs : List β}, List.Forall₂ P as bs →
    ∀ p ∈ as.zip bs, P p.1 p.2
  | _, _, .nil, _, h => by simp at h
  | _, _, .cons h hs, p, hp => by
    rw [List.zip_cons_cons, List.mem_cons] at hp
    rcases hp with rfl | hp
    · exact h
    · exact forall₂_zip hs p hp

/-- **C68, programs do not go wrong.** If all modules of a program are accepted, whatever their texts
are, then calls of their functions with values of the types of their arguments do not go wrong and
result in values of the types of their results. (Missing: what is missing in
`c47_accepted_programs_do_not_go_wrong_partial`, that is, `TameModule`.) -/
theorem c68_programs_do_not_go_wrong_partial (hp : ∀ i ∈ preludes, Good i) {ss : List Source}
    {cs : List Compiled} (h : compileSources R d n preludes [] ss = some cs) {c : Compiled} (hc : c ∈ cs)
    (ht : Hir.TameModule c.resolved.toHir) {W : Hir.World} (hW : Hir.WorldOk c.analyzed W)
    {f : Hir.Definition} (hf : f ∈ c.resolved.toHir.definitions) {as : List Hir.Ty} {r : Hir.Ty}
    (hcn : Hir.Canon c.resolved.toHir.ctx.types (Hir.lambdaType f.params f.result) (.function as r))
    {args : List Hir.Val} (hargs : List.Forall₂ (Hir.HasType c.analyzed) args as) (a k : Nat)
    (log : Hir.Log) :
    Hir.callFunction W c.analyzed a k f.name args log = .more ∨
      ∃ v log', Hir.callFunction W c.analyzed a k f.name args log = .val v log' ∧
        Hir.HasType c.analyzed v r ∧ Hir.Represents c.resolved.toHir.ctx v r := by
  obtain ⟨s, _, hk⟩ := forall₂_right (compileSources_known hp (by simp) h rfl) c hc
  obtain ⟨m, is, h', _, _, hw, hg, _, h6, h7⟩ := hk.facts
  exact Names.c47_source_modules_partial hw (fun i hi => (hg i hi).1) (fun i hi => (hg i hi).2) h6 h7 ht hW
    hf hcn hargs a k log

/-- **C68, names.** The functions of an accepted module of a program are those written in its text, in
their order, with types and bodies in which every name stands for what `meaning` and `typeMeaning` say: a
definition of the module itself, else an imported one, else a foreign function, else a name of the
language; local variables stand for themselves. Imports are those of the modules their paths are found
at, under the names given to them or the last components of their paths. -/
theorem c68_names (hp : ∀ i ∈ preludes, Good i) {ss : List Source} {cs : List Compiled}
    (h : compileSources R d n preludes [] ss = some cs) {s : Source} {c : Compiled} (hc : (s, c) ∈ ss.zip cs) :
    ∃ m is h', Grammar.parse s.text = some m ∧ convertModule R m = some h' ∧
      Imports s (cs.map fun c => Names.interface c.resolved) m.imports is ∧
      List.Forall₂ (fun (f : Grammar.FunctionDefinition) (f' : Names.FunctionDefinition) =>
        f'.name = s.file ++ ":" ++ text f.name ∧
        (f'.isPublic = true ↔ ∃ x xs, f.name = x :: xs ∧ x.isUpper = true) ∧
        f'.params = f.lambda.arguments.map (fun p =>
          (text p.1, Names.typeMeaning (s.file ++ ":") h' is (convertType p.2))) ∧
        f'.result = Names.typeMeaning (s.file ++ ":") h' is (convertType f.lambda.result) ∧
        ∃ e, convertBlock R f.lambda.body = some e ∧
          ∀ k ≤ d, Names.outline k (f.lambda.arguments.map fun p => text p.1).reverse f'.body =
            (Names.outline k (f.lambda.arguments.map fun p => text p.1).reverse e).resolve
              (Names.meaning (s.file ++ ":") h' is) (Names.typeMeaning (s.file ++ ":") h' is))
        m.functions c.resolved.definitions := by
  obtain ⟨m, is, h', h1, h2, hw, hg, h5, h6, h7⟩ :=
    (forall₂_zip (compileSources_known hp (by simp) h rfl) _ hc).facts
  refine ⟨m, is, h', h1, h2, h5, ?_⟩
  have hf := Names.c53_functions d _ h' _ is preludes hw (full_file _) (fun i hi => (hg i hi).1) h6
  have hcv : List.Forall₂ (fun f f' => convertFunction R f = some f') m.functions h'.definitions := by
    simp only [convertModule, Option.bind_eq_bind, Option.bind_eq_some_iff, Option.some.injEq] at h2
    obtain ⟨fs, h2, rfl⟩ := h2
    have key : ∀ (gs : List Grammar.FunctionDefinition) (fs : List Names.FunctionDefinition),
        convertFunctions R gs = some fs → List.Forall₂ (fun f f' => convertFunction R f = some f') gs fs := by
      intro gs
      induction gs with
      | nil => intro fs h; cases h; exact .nil
      | cons g gs ih =>
        intro fs h
        simp only [convertFunctions, Option.bind_eq_bind, Option.bind_eq_some_iff, Option.some.injEq] at h
        obtain ⟨f, h1, fs', h2, rfl⟩ := h
        exact .cons h1 (ih _ h2)
    exact key _ _ h2
  have hall : ∀ {gs : List Grammar.FunctionDefinition} {fs fs' : List Names.FunctionDefinition},
      List.Forall₂ (fun f f' => convertFunction R f = some f') gs fs → ∀ {P : Names.FunctionDefinition →
      Names.FunctionDefinition → Prop}, List.Forall₂ P fs fs' →
      List.Forall₂ (fun g f' => ∃ f, convertFunction R g = some f ∧ P f f') gs fs' := by
    intro gs fs fs' ha
    induction ha generalizing fs' with
    | nil => intro P hb; cases hb; exact .nil
    | cons h1 _ ih =>
      intro P hb
      cases hb with
      | cons h2 hb => exact .cons ⟨_, h1, h2⟩ (ih hb)
  refine (hall hcv hf).imp ?_
  rintro g f' ⟨f, hg', e1, _, e3, e4, e5, e6⟩
  simp only [convertFunction, Option.bind_eq_bind, Option.bind_eq_some_iff, Option.some.injEq] at hg'
  obtain ⟨e, he, rfl⟩ := hg'
  refine ⟨e1, ?_, ?_, e5, e, he, ?_⟩
  · rw [e3]
    cases g.name <;> simp [isNamePublic]
  · rw [e4, List.map_map]; rfl
  · intro k hk
    have := e6 k hk
    simpa [List.map_map, Function.comp_def] using this

/-! ## Private fields -/

theorem resolved_types {D : Nat} {pre : String} {h b : Names.Module} {is : List Names.Import}
    (hw : Names.Written h) (hi : ∀ i ∈ is.map (·.interface) ++ preludes, i.Compiled)
    (hc : Names.compile D pre h is preludes = some b) {n : Nat} {r : Hir.Module}
    (ha : Names.analyze n b = .ok r) {t u : Names.TypeDefinition} (ht : t ∈ h.types) (hu : u ∈ h.types)
    (he : t.name = u.name) : t.isOpen = u.isOpen := by
  have hn : (b.types.map (·.name) ++ b.aliases.map (·.name)).Nodup := by
    unfold Names.analyze at ha
    split at ha
    · cases ha
    · split at ha
      · cases ha
      · rename_i _ hl
        simp only [not_not] at hl
        have hl' : (b.types.map (·.name) ++ b.aliases.map (·.name)).dedup.length =
            (b.types.map (·.name) ++ b.aliases.map (·.name)).length := by
          rw [hl]; simp
        exact List.dedup_eq_self.mp ((List.dedup_sublist _).eq_of_length hl')
  have hn' := (List.nodup_append.mp hn).1
  rw [Names.compile_target hw hi hc] at hn'
  simp only [Names.target, List.map_append, List.map_map] at hn'
  have := List.inj_on_of_nodup_map (List.nodup_append.mp hn').2.1 ht hu (by simp [he])
  rw [this]

/-- The interface of a prelude: its types are called after the file `prelude`. -/
def FromPrelude (i : Names.Interface) : Prop := ∀ t ∈ i.types, ∃ x, Plain x ∧ t.name = "prelude:" ++ x

theorem fromPrelude_declares {i : Names.Interface} (h : FromPrelude i) {file x : String} (hx : Plain x)
    (hf : file ≠ "prelude") (o : Bool) : i.Declares ((file ++ ":") ++ x) o := by
  intro u hu e
  obtain ⟨y, hy, e'⟩ := h u hu
  rw [e'] at e
  have := Names.c53_full_names_distinct "prelude" file y x hy hx e
  exact absurd this.1.symm hf

/-- All interfaces of a program agree on which records are open. -/
theorem compileSources_declares (hp : ∀ i ∈ preludes, Good i) {file x : String} {o : Bool} (hx : Plain x)
    (hd : ∀ i ∈ preludes, i.Declares ((file ++ ":") ++ x) o) :
    ∀ {ss : List Source} {before : List Names.Interface} {cs : List Compiled}, (∀ i ∈ before, Good i) →
    (∀ i ∈ before, i.Declares ((file ++ ":") ++ x) o) →
    (∀ s ∈ ss, s.file = file → ∀ m h, Grammar.parse s.text = some m → convertModule R m = some h →
      ∃ t ∈ h.types, t.name = x ∧ t.isOpen = o) →
    compileSources R d n preludes before ss = some cs →
    List.Forall₂ (fun s c => ∃ m is h, Grammar.parse s.text = some m ∧ convertModule R m = some h ∧
      Names.Written h ∧ (∀ i ∈ is.map (·.interface) ++ preludes, Good i) ∧
      (∀ i ∈ is.map (·.interface) ++ preludes, i.Declares ((file ++ ":") ++ x) o) ∧
      Names.compile d (s.file ++ ":") h is preludes = some c.resolved ∧
      Names.analyze n c.resolved = .ok c.analyzed) ss cs
  | [], _, _, _, _, _, h => by cases h; exact .nil
  | s :: ss, before, cs, hb, hbd, hs, h => by
    simp only [compileSources, Option.bind_eq_bind, Option.bind_eq_some_iff, Option.some.injEq] at h
    obtain ⟨c, h1, cs', h2, rfl⟩ := h
    have hgood := (compileSource_known hp hb (List.prefix_refl _) h1).2
    obtain ⟨m, g1, g2, g3⟩ := compileSource_some h1
    obtain ⟨is, h', g4, g5, g6⟩ := compileTree_some g2
    have hw := convertModule_written (Grammar.parse_made g1) g5
    have hg := good_imports hp hb g4
    have hgd : ∀ i ∈ is.map (·.interface) ++ preludes, i.Declares ((file ++ ":") ++ x) o := by
      intro i hi
      rcases List.mem_append.mp hi with hi | hi
      · obtain ⟨j, hj, rfl⟩ := List.mem_map.mp hi
        obtain ⟨k, _, hk⟩ := importedModules_interface g4 j hj
        simp only [Source.interfaces, Option.bind_eq_some_iff] at hk
        obtain ⟨y, _, hy⟩ := hk
        exact hbd _ (List.mem_of_getElem? hy)
      · exact hd i hi
    have hdecl : (Names.interface c.resolved).Declares ((file ++ ":") ++ x) o := by
      refine Names.c54_interfaces_agree d _ h' _ is preludes hw (fun i hi => (hg i hi).1) g6 _ _ ?_ hgd
      intro u hu e
      obtain ⟨e1, e2⟩ := Names.c53_full_names_distinct s.file file u.name x (hw.types u hu).2.1 hx e
      obtain ⟨t, ht, e3, rfl⟩ := hs s List.mem_cons_self e1 m h' g1 g5
      exact resolved_types hw (fun i hi => (hg i hi).1) g6 g3 hu ht (e2.trans e3.symm)
    refine .cons ⟨m, is, h', g1, g5, hw, hg, hgd, g6, g3⟩
      (compileSources_declares hp hx hd ?_ ?_ (fun s hs' => hs s (List.mem_cons_of_mem _ hs')) h2)
    · simpa [or_imp, forall_and] using ⟨hb, hgood⟩
    · simpa [or_imp, forall_and] using ⟨hbd, hdecl⟩

/-- **C68, private fields.** If the text of a module of a program defines a record type with a field
whose name does not begin with a capital letter, then no other module of the program constructs or
updates a record of this type or reads one of its fields, through whatever modules it got the type.
(Missing: conditions of list comprehensions, of which this is false, see
`c54_condition_reads_private_field`.) -/
theorem c68_private_fields_partial (hp : ∀ i ∈ preludes, Good i ∧ FromPrelude i) {ss : List Source}
    {cs : List Compiled} (h : compileSources R d n preludes [] ss = some cs)
    (hn : (ss.map (·.file)).Nodup) (hpre : "prelude" ∉ ss.map (·.file))
    {s s' : Source} {c : Compiled} (hs : s ∈ ss) (hc : (s', c) ∈ ss.zip cs) (hne : s ≠ s')
    {m : Grammar.Module} (hm : Grammar.parse s.text = some m)
    {x : Grammar.Name} {fs : List (Grammar.Name × Grammar.Ty)} (ht : .record x fs ∈ m.types)
    {y : Grammar.Name × Grammar.Ty} (hy : y ∈ fs) (hpriv : ¬ ∃ a as, y.1 = a :: as ∧ a.isUpper = true)
    {f : Names.FunctionDefinition} (hf : f ∈ c.resolved.definitions) {e : Hir.Expr}
    (he : Names.Body n c.resolved f e) {z : Hir.Expr} (hz : Names.OccursUnconditional z e) {t : Hir.Ty}
    (hzt : Names.recordType z = some t) :
    ¬ Hir.Canon c.resolved.toHir.ctx.types t (.record ((s.file ++ ":") ++ text x)) := by
  have hx : Plain (text x) := plain_text ((Grammar.parse_made hm).2.2.1 _ ht).1
  have hclosed : fs.all (fun f => isNamePublic f.1) = false := by
    rw [Bool.eq_false_iff]
    intro hall
    rw [List.all_eq_true] at hall
    apply hpriv
    have := hall y hy
    revert this
    cases y.1 <;> simp [isNamePublic]
  have hinj : ∀ a ∈ ss, a.file = s.file → a = s := fun a ha e =>
    List.inj_on_of_nodup_map hn ha hs e
  have hfile : s.file ≠ "prelude" := fun e => hpre (e ▸ List.mem_map_of_mem hs)
  have key : ∀ a ∈ ss, a.file = s.file → ∀ m' h, Grammar.parse a.text = some m' →
      convertModule R m' = some h → ∃ t ∈ h.types, t.name = text x ∧ t.isOpen = false := by
    intro a ha e m' h' h1 h2
    rw [hinj a ha e, hm] at h1
    cases h1
    simp only [convertModule, Option.bind_eq_bind, Option.bind_eq_some_iff, Option.some.injEq] at h2
    obtain ⟨gs, _, rfl⟩ := h2
    exact ⟨_, List.mem_filterMap.mpr ⟨_, ht, rfl⟩, rfl, hclosed⟩
  have hall := compileSources_declares (R := R) (d := d) (n := n) (o := false) (fun i hi => (hp i hi).1) hx
    (fun i hi => fromPrelude_declares (hp i hi).2 hx hfile _) (ss := ss) (before := []) (by simp) (by simp)
    key h
  obtain ⟨m', is, h', _, _, hw, hg, hgd, g6, g7⟩ := forall₂_zip hall _ hc
  intro hcan
  obtain ⟨name, hc', ho⟩ := Names.c54_record_operations_partial d _ h' _ is preludes hw
    (fun i hi => (hg i hi).1) g6 n _ g7 f hf e he z hz t hzt
  cases hcan.det hc'
  rcases ho with ⟨u, hu, e'⟩ | ⟨i, hi', u, hu, e', ho⟩
  · have := (Names.c53_full_names_distinct s.file s'.file (text x) u.name hx (hw.types u hu).2.1 e').1
    exact hne (hinj s' (List.of_mem_zip hc).1 this.symm).symm
  · have := hgd i hi' u hu e'
    rw [ho] at this
    cases this

/-! ## Formatting -/

/-- **C68, formatting keeps meanings.** If a module is compiled, then every formatting of its text is
compiled to the same functions, foreign functions and types, and knows the same functions and types of
others. (Missing: modules with imports that offer one name with two meanings, for which this is false,
see `c68_formatting_changes_meaning`, and the modules excluded by `Module.Safe`.) -/
theorem c68_formatting_keeps_meaning_partial {s t : List Char} {m : Grammar.Module}
    (hs : Grammar.parse s = some m) (hm : m.Safe) (ht : Grammar.Formatted m t) {pre : String}
    {interfaces : Grammar.ModulePath → Option Names.Interface} {is : List Names.Import}
    (hi : importedModules interfaces m.imports = some is) (ho : OffersOne is)
    (hc : ∀ i ∈ is.map (·.interface) ++ preludes, i.Compiled) {b : Names.Module}
    (hb : compileTree R d pre interfaces preludes m = some b) :
    ∃ m' b', Grammar.parse t = some m' ∧ compileTree R d pre interfaces preludes m' = some b' ∧
      SameMeaning b b' := by
  obtain ⟨m', h1, h2, h3, h4, h5⟩ := Grammar.c57_format_then_parse_partial hs hm ht
  obtain ⟨is', h', g1, g2, g3⟩ := compileTree_some hb
  cases hi.symm.trans g1
  obtain ⟨ls, hl, hsame⟩ := importedModules_same h2 hi
  have hcv : convertModule R m' = some h' := by
    rw [← g2]
    unfold convertModule
    rw [h3, h4, h5]
  obtain ⟨b', hb', hsm⟩ := compile_same (convertModule_written (Grammar.parse_made hs) g2) hsame ho hc g3
  refine ⟨m', b', h1, ?_, hsm⟩
  simp only [compileTree, hl, hcv]
  exact hb'

end

end Verif.Front
