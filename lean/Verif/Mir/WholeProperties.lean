import Verif.Mir.ReadyShape
import Verif.Mir.RcProperties

/- C50: all passes of the middle end together. -/
namespace Verif.Mir

/-! ### Global names after lambda lifting -/

theorem liftProgram_isGlobal_inv (p : Program) {x : Name} (h : (liftProgram p).isGlobal x = true) :
    p.isGlobal x = true ∨ ∃ i f, x = liftName i f := by
  simp only [Program.isGlobal, Bool.or_eq_true] at h ⊢
  rcases h with h | h
  · exact Or.inl (Or.inl h)
  · obtain ⟨d, hd⟩ := Option.isSome_iff_exists.mp h
    simp only [Program.find, liftProgram, List.find?_append] at hd
    cases hf : (liftGlobals p.globals ⟨[], 0⟩).1.find? (·.name == x) with
    | some c =>
      have h1 := liftGlobals_find p.globals ⟨[], 0⟩ x
      rw [hf] at h1
      exact Or.inl (Or.inr h1.symm)
    | none =>
      rw [hf, Option.none_or] at hd
      have hm := List.mem_of_find?_eq_some hd
      have hx : d.name = x := by simpa using List.find?_some hd
      have hn := liftGlobals_numbered p.globals ⟨[], 0⟩ (by intro i hi; simp at hi)
      obtain ⟨i, hi, rfl⟩ := List.getElem_of_mem hm
      obtain ⟨f, hf⟩ := hn i hi
      exact Or.inr ⟨i, f, hx.symm.trans hf⟩

/-! ### Programs from the front end -/

/-- What the front end guarantees, apart from arguments of global functions that are bound again (`WellNamed.arguments`). -/
structure FrontEnd (p : Program) : Prop where
  /-- Names in functions. -/
  named : ∀ d ∈ p.globals, WellNamed p d
  /-- Names of global functions are not ones that passes generate. -/
  globals : ∀ x, p.isGlobal x = true → Plain x ∧ SourceName x
  /-- Arguments of a global function are different, and are not names that lambda lifting generates or names of global
  functions. -/
  args : ∀ d ∈ p.globals, d.args.Nodup ∧ ∀ x ∈ d.args, Plain x ∧ ¬ p.isGlobal x = true
  /-- The shape of expressions. -/
  bodies : ∀ d ∈ p.globals, shaped d.body

theorem FrontEnd.flatten {p : Program} (h : FrontEnd p) : FrontEnd (flattenProgram p) where
  named := wellNamed_flatten h.named
  globals x hx := h.globals x (by rwa [isGlobal_flatten] at hx)
  args d hd := by
    rw [isGlobal_flatten]
    simp only [flattenProgram, convertProgram, List.mem_map] at hd
    obtain ⟨d, hd, rfl⟩ := hd
    exact h.args d hd
  bodies d hd := by
    simp only [flattenProgram, convertProgram, List.mem_map] at hd
    obtain ⟨d, hd, rfl⟩ := hd
    exact convert_shaped _ (h.bodies d hd)

theorem FrontEnd.sane {p : Program} (h : FrontEnd p) : SaneProgram (normalizeProgram (alphaProgram p)) :=
  normalizeProgram_sane (alphaProgram_sane h.named (fun x hx => (h.globals x hx).1) fun d hd x hx => ((h.args d hd).2 x hx).1)

theorem alphaProgram_isGlobal (p : Program) (x : Name) : (alphaProgram p).isGlobal x = p.isGlobal x :=
  isGlobal_map p (fun d => { d with body := (alpha d.body id p.nameCounts).1 }) (fun _ => rfl) x

/-- Names that a normalized function binds are not its arguments, global functions, or bound twice. -/
theorem normalized_binders {p : Program} (h : FrontEnd p) {d : Global} (hd : d ∈ p.globals) (m : Nat) :
    let e := removeAliases id (split (removeAliases id) (alpha d.body id p.nameCounts).1 m).plug
    (binders e).Nodup ∧ ∀ x ∈ binders e, x ∉ d.args ∧ Plain x ∧ ¬ p.isGlobal x = true := by
  intro e
  have hw := h.named d hd
  have hy := alpha_hygienic hw
  have hf := alpha_fresh d.body id p.nameCounts (fun x hx => hw.source x (by simp [hx])) hw.distinct
  have hcount : ∀ x, (binders e).count x ≤ (binders (alpha d.body id p.nameCounts).1).count x +
      (anfNames m (split (removeAliases id) (alpha d.body id p.nameCounts).1 m).next).count x := by
    intro x
    refine Nat.le_trans (removeAliases_count _ id x) ?_
    rw [Split.plug, binders_plug, List.count_append]
    exact split_binders _ (fun e x => removeAliases_count e id x) _ m x
  refine ⟨?_, ?_⟩
  · rw [List.nodup_iff_count]
    intro x
    refine Nat.le_trans (hcount x) ?_
    have h1 := List.nodup_iff_count.mp hy.nodup x
    have h2 := List.nodup_iff_count.mp
      (nodup_anfNames m (split (removeAliases id) (alpha d.body id p.nameCounts).1 m).next) x
    by_cases hx : x ∈ binders (alpha d.body id p.nameCounts).1
    · rw [List.count_eq_zero_of_not_mem (l := anfNames _ _) (fun h => by
        obtain ⟨i, _, _, rfl⟩ := mem_anfNames.mp h
        exact hy.plain _ (Or.inl hx) ⟨i, rfl⟩)]
      exact h1
    · rw [List.count_eq_zero_of_not_mem hx]
      omega
  · intro x hx
    have hc : 0 < (binders e).count x := List.count_pos_iff.mpr hx
    have := hcount x
    rcases Nat.lt_or_ge 0 ((binders (alpha d.body id p.nameCounts).1).count x) with hb | hb
    · have hb := List.count_pos_iff.mp hb
      obtain ⟨z, k, hz, hk, _, rfl⟩ := hf.fresh x hb
      obtain ⟨y, hy', k', he⟩ := alpha_from d.body id p.nameCounts _ hb
      obtain ⟨rfl, rfl⟩ := alphaName_inj hz (hw.source y (by
        simp only [List.mem_append]; exact Or.inr (binders_names _ _ hy'))) he
      refine ⟨?_, alphaName_plain (hw.bound z hy') k, ?_⟩
      · intro ha
        obtain ⟨h1, _⟩ := alphaName_source (hw.source (alphaName z k) (by simp [ha])) rfl
        rw [h1] at ha
        exact hw.arguments z ha hy'
      · intro hg
        obtain ⟨h1, rfl⟩ := alphaName_source (h.globals _ hg).2 rfl
        rw [h1] at hg
        unfold Program.nameCounts at hk
        rw [if_pos hg] at hk
        omega
    · have hm : 0 < (anfNames m (split (removeAliases id) (alpha d.body id p.nameCounts).1 m).next).count x := by omega
      obtain ⟨i, _, _, rfl⟩ := mem_anfNames.mp (List.count_pos_iff.mp hm)
      exact ⟨fun ha => anfName_not_source i (hw.source _ (by simp [ha])), anfName_plain i,
        fun hg => anfName_not_source i (h.globals _ hg).2⟩

theorem normalized_free {p : Program} (h : FrontEnd p) {d : Global} (hd : d ∈ p.globals) (m : Nat) :
    ∀ x ∈ free (removeAliases id (split (removeAliases id) (alpha d.body id p.nameCounts).1 m).plug),
      x ∈ d.args ∨ p.isGlobal x = true := by
  intro x hx
  have hr : ∀ e x, x ∈ free (removeAliases id e) → x ∈ free e := by
    intro e x hx
    obtain ⟨y, hy, rfl⟩ := removeAliases_free e id x hx
    exact hy
  have h1 := hr _ x hx
  rw [Split.plug, free_plug] at h1
  have h2 := split_free _ hr _ _ x h1
  obtain ⟨y, hy, h3⟩ := alpha_free _ _ _ _ h2
  rw [h3]
  exact (h.named d hd).closed y hy

/-- Results of the passes before are what reference counting expects. -/
theorem normalized_fit {p : Program} (h : FrontEnd p) :
    let t := liftProgram (inferProgram (normalizeProgram (alphaProgram p)))
    ∀ d ∈ t.globals, FitGlobal (fun x => t.isGlobal x = true) d := by
  intro t
  have hlift : LiftableProgram (inferProgram (normalizeProgram (alphaProgram p))) := inferProgram_liftable h.sane
  have hglobal : ∀ x, (inferProgram (normalizeProgram (alphaProgram p))).isGlobal x = p.isGlobal x := fun x => by
    rw [inferProgram_isGlobal, normalizeProgram_isGlobal, alphaProgram_isGlobal]
  have hinv : ∀ x, t.isGlobal x = true → p.isGlobal x = true ∨ ∃ i f, x = liftName i f := fun x hx => by
    have := liftProgram_isGlobal_inv _ hx
    rwa [hglobal] at this
  have hplain : ∀ x, Plain x → ¬ p.isGlobal x = true → ¬ t.isGlobal x = true := by
    intro x hx hg ht
    rcases hinv x ht with h1 | ⟨i, f, rfl⟩
    · exact hg h1
    · exact hx.2 i f rfl
  have hfv : ∀ y i, ¬ t.isGlobal (fvName y i) = true := by
    intro y i ht
    rcases hinv _ ht with h1 | ⟨j, f, h1⟩
    · exact (h.globals _ h1).1.1 y i rfl
    · exact fvName_ne_liftName y i j f h1
  have hnamed : Named (fun x => t.isGlobal x = true)
      (liftGlobals (inferProgram (normalizeProgram (alphaProgram p))).globals ⟨[], 0⟩).2 := by
    intro d hd
    have := liftProgram_in _ hlift d hd
    simp only [Program.isGlobal, Bool.or_eq_true]
    exact Or.inr (by rw [this]; rfl)
  have hbodies : ∀ d ∈ (inferProgram (normalizeProgram (alphaProgram p))).globals,
      liftable d.args d.body ∧ FitGlobal (fun x => t.isGlobal x = true) d ∧ ∀ x ∈ d.args, Plain x := by
    intro d hd
    refine ⟨hlift.bodies d hd, ?_, hlift.args d hd⟩
    simp only [inferProgram, List.mem_map] at hd
    obtain ⟨d3, hd3, rfl⟩ := hd
    have hnormal := (c23_normal_form (alphaProgram p) (alpha_program_hygienic h.named).1
      (alpha_program_hygienic h.named).2 d3 hd3).1
    obtain ⟨d2, hd2, m, rfl⟩ := anfGlobals_mem _ _ 0 d3 hd3
    simp only [alphaProgram, List.mem_map] at hd2
    obtain ⟨d1, hd1, rfl⟩ := hd2
    obtain ⟨ha1, ha2⟩ := h.args d1 hd1
    have hargs : ∀ x ∈ d1.args, ¬ t.isGlobal x = true := fun x hx => hplain x (ha2 x hx).1 (ha2 x hx).2
    refine ⟨ha1, hargs, ?_⟩
    have hpost : ∀ e, shaped e → shaped (removeAliases id e) := fun e he => removeAliases_shaped e id he
    have hs := split_shaped hpost _ m (alpha_shaped d1.body id p.nameCounts (h.bodies d1 hd1))
    obtain ⟨hb1, hb2⟩ := normalized_binders h hd1 m
    refine infer_fit _ true d1.args d1.args (hpost _ (shaped_plug _ hs.1 hs.2)) hnormal {
      nodup := hb1
      disjoint := fun x hx => (hb2 x hx).1
      closed := fun x _ hx => hx
      bound := fun x hx => (normalized_free h hd1 m x hx).imp id fun hg => ?_
      binders := fun x hx => hplain x (hb2 x hx).2.1 (hb2 x hx).2.2
      known := hargs }
    exact liftProgram_isGlobal _ hlift (by rwa [hglobal])
  have hfit := liftGlobals_fit hfv _ ⟨[], 0⟩ hbodies hnamed
  intro d hd
  rcases List.mem_append.mp hd with hd | hd
  · exact hfit.1 d hd
  · exact (hfit.2 d hd).resolve_left (by simp)

/-- What C27, C28 and C29 expect of a program, the passes before reference counting guarantee. -/
theorem earlierPasses_ready {p : Program} (h : FrontEnd p) : (earlierPasses p).ready ∧ (earlierPasses p).scoped := by
  have := normalized_fit h.flatten
  exact ⟨fun d hd => ⟨(this d hd).1, (this d hd).2.2.1⟩, fun d hd => ⟨(this d hd).2.1, (this d hd).2.2.2⟩⟩

/-! ### C50: the middle end -/

/-- All passes in their order, without type checks: lib/mir-fmm/src/lib.rs:32-41. `none` is an error of reference counting
or of its validation. -/
def middleEnd (p : Program) : Option Program := (rcProgram (earlierPasses p)).filter validateProgram

/-- The middle end does not reject programs. -/
theorem c50_accepts_partial (p : Program) (h : FrontEnd p) : ∃ q, middleEnd p = some q := by
  obtain ⟨h1, h2⟩ := earlierPasses_ready h
  obtain ⟨q, hq, hv⟩ := c27_validate_partial _ h1 h2
  exact ⟨q, by simp [middleEnd, hq, hv]⟩

theorem middleEnd_eq {p q : Program} (h : middleEnd p = some q) : rcProgram (earlierPasses p) = some q := by
  unfold middleEnd at h
  rw [Option.filter_eq_some_iff] at h
  exact h.1

/-- A program that comes out of the middle end, run with a heap, does what the program that went in does without a heap:
it gives the same result after the same calls of native code. -/
theorem c50_behaviour_partial (p q : Program) (h : FrontEnd p) (hq : middleEnd p = some q) (w : World) (fuel : Nat) (g : Name)
    (args : List Obs) (hs : p.run w captureAll fuel g args ≠ .stuck) :
    (q.hrun w fuel g args).outcome = some (p.run w captureAll fuel g args).outcome := by
  rw [c28_heap_refines_partial _ q (earlierPasses_ready h).1 (middleEnd_eq hq)]
  exact congrArg some (c26_pipeline p h.named (fun x hx => (h.globals x hx).1)
    (fun d hd x hx => ((h.args d hd).2 x hx).1) w fuel g args hs)

/-- It never uses a block after it is freed, and when a call from native code returns, it leaves no block but those of the
result. -/
theorem c50_memory_partial (p q : Program) (h : FrontEnd p) (hq : middleEnd p = some q) (w : World) (fuel : Nat) (g : Name)
    (args : List Obs) :
    q.hrun w fuel g args ≠ .fault ∧
    ∀ v heap l, q.hrun w fuel g args = .ok v heap l → ∃ heap', heap.release v.addrs = some heap' ∧ heap'.live = 0 :=
  ⟨c28_no_use_after_free_partial _ q (earlierPasses_ready h).1 (middleEnd_eq hq) w fuel g args,
    fun v heap l => c29_no_leak_partial _ q (earlierPasses_ready h).1 (middleEnd_eq hq) w fuel g args v heap l⟩

/-! ### Examples -/

/-- `\(x, y, c) { f = \(z) { if x == z { y } else { f(z + y) } }; v = \(z) { x }; s = "a" + "b" + "c"; s = r{s, s};
t = if b = c? as boolean { b }; q{f(1), v, r{...s, 0: "d"}, t} }`, in which names are bound again. -/
def sampleWhole : Program where
  foreign := ["t"]
  globals := [⟨"g", ["x", "y", "c"], false,
    .letRec "f" [] ["z"] false
      (.if_ (.op (.comparison .equal) (.cons (.variable "x") (.cons (.variable "z") .nil))) (.variable "y")
        (.op .call (.cons (.variable "f")
          (.cons (.op (.arithmetic .add) (.cons (.variable "z") (.cons (.variable "y") .nil))) .nil))))
      (.letRec "v" [] ["z"] false (.variable "x")
        (.let_ "s" (.op .concatenation (.cons (.op .concatenation
              (.cons (.literal (.string [1])) (.cons (.literal (.string [2])) .nil))) (.cons (.literal (.string [3])) .nil)))
          (.let_ "s" (.op (.record "r") (.cons (.variable "s") (.cons (.variable "s") .nil)))
            (.let_ "t" (.case (.try_ (.variable "c") "e" "error" (.op (.variant "error") (.cons (.variable "e") .nil)))
                (.cons (some ["boolean"]) "b" (.variable "b") .nil))
              (.op (.record "q") (.cons (.op .call (.cons (.variable "f") (.cons (.literal (.number 1)) .nil)))
                (.cons (.variable "v") (.cons (.op (.update [0]) (.cons (.variable "s") (.cons (.literal (.string [4])) .nil)))
                  (.cons (.variable "t") .nil)))))))))⟩]
  typeInformation := id

theorem sampleWhole_frontEnd : FrontEnd sampleWhole where
  named d hd := by
    simp only [sampleWhole, List.mem_singleton] at hd
    subst hd
    refine ⟨by decide, ?_, by decide, by decide,
      by simp [distinctArguments, distinctArgumentsExprs, distinctArgumentsAlts],
      by simp [noEnvironments, noEnvironmentsExprs, noEnvironmentsAlts]⟩
    intro x hx
    refine sourceName_of_no_colon ?_
    revert x
    decide
  globals x hx := by
    have : ':' ∉ x.toList := by
      simp [sampleWhole, Program.isGlobal, Program.find] at hx
      rcases hx with rfl | rfl <;> decide
    exact ⟨plain_of_no_colon this, sourceName_of_no_colon this⟩
  args d hd := by
    simp only [sampleWhole, List.mem_singleton] at hd
    subst hd
    refine ⟨by decide, fun x hx => ⟨plain_of_no_colon ?_, ?_⟩⟩ <;> revert x <;> decide
  bodies d hd := by
    simp only [sampleWhole, List.mem_singleton] at hd
    subst hd
    simp [shaped, shapedExprs, shapedAlts, Op.shaped]

example : ∃ q, middleEnd sampleWhole = some q := c50_accepts_partial _ sampleWhole_frontEnd

/-- Both ways out. -/
example :
    (sampleWhole.run sampleWorld captureAll 9 "g" [.number 5, .number 2, .variant "boolean" (.boolean true)]).outcome =
      .value (.record "q" [.number 2, .function, .record "r" [.string [4], .string [1, 2, 3]], .boolean true]) [] ∧
    (sampleWhole.run sampleWorld captureAll 9 "g" [.number 5, .number 2, .variant "error" (.string [8])]).outcome =
      .value (.variant "error" (.string [8])) [] := ⟨rfl, rfl⟩

/-- The function `f` becomes a global one, and the inner `s` and `t` get new names. -/
example : (middleEnd sampleWhole).map (fun q => q.globals.map fun d => (d.name, d.args)) =
    some [("g", ["x", "y", "c"]), ("mir:lift:0:f", ["z", "x", "y"])] := by decide +kernel

end Verif.Mir
