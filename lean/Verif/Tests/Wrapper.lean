import Verif.Tests.Model
import Verif.Hir.SoundnessProperties

/-! # Wrappers of test functions after the analysis -/

namespace Verif.Tests

open Verif Hir Res

/-- The body of a wrapper after the analysis; `t` is the type of the function. -/
def analyzedBody (t : Ty) (f : String) : Expr :=
  .ifType "$result" (.call (some t) (.variable f) []) [(.none, .string [])]
    (some (some .error, .ifType "$message"
      (.builtInCall (some (.function [.error] .any)) .source [.variable "$result"])
      [(.string, .variable "$message")]
      (some (some .any, .string nonStringMessage))))

variable {C : Ctx} {Γ : Vars} {n : Nat}

theorem infer_variable_ok {x : String} {e : Expr} (h : infer n C Γ (.variable x) = .ok e) : e = .variable x := by
  cases n with
  | zero => cases h
  | succ n => simp only [infer, Res.ok.injEq] at h; exact h.symm

theorem infer_string_ok {x : List UInt8} {e : Expr} (h : infer n C Γ (.string x) = .ok e) : e = .string x := by
  cases n with
  | zero => cases h
  | succ n => simp only [infer, Res.ok.injEq] at h; exact h.symm

theorem extract_variable_ok {x : String} {t : Ty} (h : extract n C Γ (.variable x) = .ok t) : Γ x = some t := by
  cases n with
  | zero => cases h
  | succ n => exact orErr_ok h

/-- The type of a test function from what is left of it without `none`. -/
theorem difference_error {t r d : Ty} (ht : Canon C.types t r) (hn : Sub .none r)
    (h : typeDifference n C.types t .none = .ok (some d)) {cd : Ty} (hd : Canon C.types d cd) (hs : Sub cd .error) :
    Canon C.types (.union .none .error) r ∧ d = .error := by
  have h0 := typeDifference_ok h ht canon_none
  obtain ⟨_, h1⟩ := h0
  obtain ⟨_, h2⟩ := h1 d rfl
  have hs' : ∀ x ∈ unionMembers cd, x = .error := by
    rcases hs with hs | hs
    · cases hs
    · simpa [unionMembers] using hs
  rcases h2 with ⟨rfl, rfl⟩ | ⟨h2, cf, h3, h4, h5⟩
  · rw [hd.det canon_any] at hs'
    simp [unionMembers] at hs'
  · have := hd.det h3
    subst this
    have hne : unionMembers cd ≠ [] := members_ne_nil cd
    have herr : Ty.error ∈ unionMembers cd := by
      obtain ⟨x, hx⟩ := List.exists_mem_of_ne_nil _ hne
      rw [hs' x hx] at hx
      exact hx
    have hnone : Ty.none ∈ unionMembers r := by
      rcases hn with hn | hn
      · exact absurd hn h2
      · exact hn _ (by simp [unionMembers])
    have hmem : ∀ x, x ∈ unionMembers r ↔ x = .none ∨ x = .error := by
      intro x
      constructor
      · intro hx
        by_cases hxn : x = .none
        · exact Or.inl hxn
        · exact Or.inr (hs' x ((h5 x).mpr ⟨hx, by simpa [unionMembers] using hxn⟩))
      · rintro (rfl | rfl)
        · exact hnone
        · exact ((h5 _).mp herr).1
    constructor
    · obtain ⟨j, g1, _, _, g4, g5⟩ := (canon_none (A := C.types)).union (canon_error (A := C.types))
      have hj : j ≠ .any := fun h => by rcases g4 h with h | h <;> cases h
      have : r = j := canon_ext ht g1 fun x => by rw [hmem, g5 hj]; simp [unionMembers]
      rw [this]
      exact g1
    · obtain ⟨e, e1, e2⟩ := ht
      have h6 := Settles.unique (settles_of_eq (typeDifference_mono C.types t .none) h (by simp))
        (typeDifference_settles e1 .none)
      have ha : Ty.any ∉ atoms e := fun h => h2 (e2 ▸ (norm_eq_any_iff e).mpr h)
      have hat : btreeSet (atoms .none) = [.none] := rfl
      have hna : Ty.any ∉ atoms .none := by rw [← mem_btreeSet, hat]; simp
      rw [if_neg hna, if_neg ha] at h6
      have h7 : (btreeSet (atoms e)).filter (fun x => !(btreeSet (atoms .none)).contains x) = [.error] := by
        refine sorted_ext ((sorted_btreeSet _).filter _) (by simp) fun x => ?_
        subst e2
        have := hmem x
        rw [mem_unionMembers_norm _ ha] at this
        simp only [List.mem_filter, mem_btreeSet, this, hat]
        simp
        constructor
        · rintro ⟨rfl | rfl, h⟩
          · exact absurd rfl h
          · rfl
        · rintro rfl; simp
      rw [h7] at h6
      simpa [createUnion, reduce] using h6

/-! ## The inner part -/

/-- The inner part of a wrapper's body. -/
def innerBody : Expr :=
  .ifType "$message" (.builtInCall none .source [.variable "$result"])
      [(.string, .variable "$message")]
      (some (none, .string nonStringMessage))

/-- The inner part after inference. -/
def inferredInner : Expr :=
  .ifType "$message" (.builtInCall (some (.function [.error] .any)) .source [.variable "$result"])
      [(.string, .variable "$message")]
      (some (some .any, .string nonStringMessage))

theorem expectFunction_source {p : List Ty × Ty} (h : expectFunction n C.types (.function [.error] .any) = .ok p) :
    p = ([.error], .any) := by
  have h1 := expectFunction_ok h
  have h2 : Canon C.types (.function [.error] .any) (.function [.error] .any) :=
    Canon.function (.cons canon_error .nil) canon_any
  have := h1.det h2
  cases p
  simp only [Ty.function.injEq] at this
  rw [this.1, this.2]

theorem infer_inner {e : Expr} (h : infer n C Γ innerBody = .ok e) : e = inferredInner := by
  cases n with
  | zero => cases h
  | succ n =>
    simp only [innerBody, infer, Res.mapList, bind_eq_ok, Res.ok.injEq, List.map_cons, List.map_nil] at h
    obtain ⟨e1, h1, bs, ⟨b, ⟨b', hb, rfl⟩, _, rfl, rfl⟩, t, ht, u, hu, d, hd, d', hd', e3, h3, _, rfl, rfl⟩ := h
    have he1 : e1 = .builtInCall (some (.function [.error] .any)) .source [.variable "$result"] := by
      cases n with
      | zero => cases h1
      | succ n =>
        simp only [infer, Res.mapList, bind_eq_ok, Res.ok.injEq, builtInType] at h1
        obtain ⟨args, ⟨a, ha, _, rfl, rfl⟩, ts, _, t, rfl, rfl⟩ := h1
        rw [infer_variable_ok ha]
    subst he1
    have ht' : t = .any := by
      cases n with
      | zero => cases ht
      | succ n =>
        simp only [extract, bind_eq_ok, Res.ok.injEq, orErr] at ht
        obtain ⟨_, rfl, p, hp, rfl⟩ := ht
        rw [expectFunction_source hp]
    subst ht'
    have hu' : u = .string := by
      have := orErr_ok hu
      simpa [createUnion, reduce] using this.symm
    subst hu'
    have := orErr_ok hd'
    subst this
    obtain ⟨_, h4⟩ := typeDifference_ok hd canon_any canon_string
    obtain ⟨_, h5⟩ := h4 d' rfl
    have : d' = .any := by
      rcases h5 with h5 | h5
      · exact h5.2
      · exact absurd rfl h5.1
    subst this
    rw [infer_variable_ok hb, infer_string_ok h3]
    rfl

theorem extract_inner {t : Ty} (h : extract n C Γ inferredInner = .ok t) : t = .union .string .string := by
  cases n with
  | zero => cases h
  | succ n =>
    simp only [inferredInner, extract, Res.mapList, bind_eq_ok, Res.ok.injEq] at h
    obtain ⟨ts, ⟨b, hb, _, rfl, rfl⟩, _, _, u, hu, _, rfl, h⟩ := h
    have hb := extract_variable_ok hb
    simp only [Vars.insert, if_true, Option.some.injEq] at hb
    subst hb
    have hu' : u = .string := by
      cases n with
      | zero => cases hu
      | succ n => simp only [extract, Res.ok.injEq] at hu; exact hu.symm
    subst hu'
    simpa [orErr, createUnion, reduce] using h.symm

theorem check_inner {t d : Ty} (hd : Γ "$result" = some d) (h : check n C Γ inferredInner = .ok t) :
    ∃ c, Canon C.types d c ∧ Sub c .error := by
  cases n with
  | zero => cases h
  | succ n =>
    simp only [inferredInner, check, bind_eq_ok] at h
    obtain ⟨u, hu, _⟩ := h
    cases n with
    | zero => cases hu
    | succ n =>
      simp only [check, bind_eq_ok, orErr, Res.ok.injEq] at hu
      obtain ⟨_, rfl, p, hp, hu⟩ := hu
      have := expectFunction_source hp
      subst this
      simp only [List.length_cons, List.length_nil, ne_eq, not_true, if_false, List.zip_cons_cons,
        Res.mapList, bind_eq_ok] at hu
      obtain ⟨_, ⟨_, ⟨u', hu', hs⟩, _⟩, _⟩ := hu
      have : u' = d := by
        cases n with
        | zero => cases hu'
        | succ n =>
          have := orErr_ok hu'
          rw [hd] at this
          exact (Option.some.inj this).symm
      subst this
      obtain ⟨c, _, hc, _⟩ := expectSub_canon hs
      exact ⟨c, hc, expectSub_ok hs hc canon_error⟩

theorem coerceTo_same {e e' : Expr} {u c : Ty} (he : ∀ t, extract n C Γ e = .ok t → Canon C.types t c)
    (hu : Canon C.types u c) (h : coerceTo n C Γ e u = .ok e') : e' = e := by
  unfold coerceTo at h
  obtain ⟨t, h1, h⟩ := bind_eq_ok.1 h
  obtain ⟨b, h2, h⟩ := bind_eq_ok.1 h
  have := (equalCheck_ok h2 (he t h1) hu).mpr rfl
  subst this
  simpa using h.symm

/-- The inner part is not changed by coercion. -/
theorem coerce_inner {e : Expr} (hd : Γ "$result" = some .error) (h : coerce n C Γ inferredInner = .ok e) :
    e = inferredInner := by
  cases n with
  | zero => cases h
  | succ n =>
    have hss : Canon C.types (.union .string .string) .string := canon_string.union_same canon_string
    simp only [inferredInner, coerce, Res.mapList, bind_eq_ok, Res.ok.injEq, orErr] at h
    obtain ⟨t, ht, e1, h1, bs, ⟨b, ⟨b1, hb1, b2, hb2, rfl⟩, _, rfl, rfl⟩, _, rfl, e3, h3, e4, h4, _, rfl, rfl⟩ := h
    have := extract_inner ht
    subst this
    have he1 : e1 = .builtInCall (some (.function [.error] .any)) .source [.variable "$result"] := by
      cases n with
      | zero => cases h1
      | succ n =>
        simp only [coerce, bind_eq_ok, Res.ok.injEq, orErr] at h1
        obtain ⟨_, rfl, p, hp, as, has, rfl⟩ := h1
        have := expectFunction_source hp
        subst this
        simp only [List.zip_cons_cons, List.zip_nil_right, Res.mapList, bind_eq_ok, Res.ok.injEq] at has
        obtain ⟨a, ⟨a1, ha1, ha2⟩, _, rfl, rfl⟩ := has
        have : a1 = .variable "$result" := by
          cases n with
          | zero => cases ha1
          | succ n => simp only [coerce, Res.ok.injEq] at ha1; exact ha1.symm
        subst this
        rw [coerceTo_same (fun t ht => by
          have := extract_variable_ok ht
          rw [hd] at this
          cases this
          exact canon_error) canon_error ha2]
    subst he1
    have hb : b1 = .variable "$message" := by
      cases n with
      | zero => cases hb1
      | succ n => simp only [coerce, Res.ok.injEq] at hb1; exact hb1.symm
    subst hb
    have hb : b2 = .variable "$message" := coerceTo_same (fun t ht => by
      have := extract_variable_ok ht
      simp only [Vars.insert, if_true, Option.some.injEq] at this
      rw [← this]
      exact canon_string) hss hb2
    subst hb
    have he : e3 = .string nonStringMessage := by
      cases n with
      | zero => cases h3
      | succ n => simp only [coerce, Res.ok.injEq] at h3; exact h3.symm
    subst he
    have he : e4 = .string nonStringMessage := coerceTo_same (fun t ht => by
      cases n with
      | zero => cases ht
      | succ n =>
        simp only [extract, Res.ok.injEq] at ht
        rw [← ht]
        exact canon_string) hss h4
    subst he
    rfl

/-! ## The whole -/

theorem infer_wrapper {e : Expr} {f : String} {t : Ty} (hf : Γ f = some t) (h : infer n C Γ (wrapperBody f) = .ok e) :
    ∃ p d k, e = .ifType "$result" (.call (some t) (.variable f) []) [(.none, .string [])]
        (some (some d, inferredInner)) ∧
      expectFunction k C.types t = .ok p ∧ typeDifference n.pred C.types p.2 .none = .ok (some d) := by
  cases n with
  | zero => cases h
  | succ n =>
    simp only [wrapperBody, infer, Res.mapList, bind_eq_ok, Res.ok.injEq, List.map_cons, List.map_nil] at h
    obtain ⟨e1, h1, bs, ⟨b, ⟨b', hb, rfl⟩, _, rfl, rfl⟩, u, hu, v, hv, d, hd, d', hd', e3, h3, _, rfl, rfl⟩ := h
    have he1 : e1 = .call (some t) (.variable f) [] := by
      cases n with
      | zero => cases h1
      | succ n =>
        simp only [infer, Res.mapList, bind_eq_ok, Res.ok.injEq] at h1
        obtain ⟨g, hg, u', hu', as, rfl, rfl⟩ := h1
        have := infer_variable_ok hg
        subst this
        have := extract_variable_ok hu'
        rw [hf] at this
        cases this
        rfl
    subst he1
    have := infer_inner h3
    subst this
    have hv' : v = .none := by
      have := orErr_ok hv
      simpa [createUnion, reduce] using this.symm
    subst hv'
    have := orErr_ok hd'
    subst this
    cases n with
    | zero => cases hu
    | succ n =>
      simp only [extract, bind_eq_ok, Res.ok.injEq, orErr] at hu
      obtain ⟨_, rfl, p, hp, rfl⟩ := hu
      exact ⟨p, d', n, by rw [infer_string_ok hb], hp, hd⟩

theorem extract_wrapper {f : String} {t u : Ty}
    (h : extract n C Γ (analyzedBody t f) = .ok u) : u = .union .string (.union .string .string) := by
  cases n with
  | zero => cases h
  | succ n =>
    rw [analyzedBody, ← inferredInner] at h
    simp only [extract, Res.mapList, bind_eq_ok, Res.ok.injEq] at h
    obtain ⟨ts, ⟨b, hb, _, rfl, rfl⟩, _, _, u, hu, _, rfl, h⟩ := h
    have := extract_inner hu
    subst this
    have hb' : b = .string := by
      cases n with
      | zero => cases hb
      | succ n => simp only [extract, Res.ok.injEq] at hb; exact hb.symm
    subst hb'
    simpa [orErr, createUnion, reduce] using h.symm

theorem coerce_wrapper {f : String} {t : Ty} {e : Expr} (hp : Canon C.types t (.function [] r))
    (h : coerce n C Γ (analyzedBody t f) = .ok e) : e = analyzedBody t f := by
  cases n with
  | zero => cases h
  | succ n =>
    have hss : Canon C.types (.union .string .string) .string := canon_string.union_same canon_string
    have hsss : Canon C.types (.union .string (.union .string .string)) .string := canon_string.union_same hss
    rw [analyzedBody, ← inferredInner] at h
    simp only [coerce, Res.mapList, bind_eq_ok, Res.ok.injEq, orErr] at h
    obtain ⟨u, hu, e1, h1, bs, ⟨b, ⟨b1, hb1, b2, hb2, rfl⟩, _, rfl, rfl⟩, _, rfl, e3, h3, e4, h4, _, rfl, rfl⟩ := h
    have := extract_wrapper hu
    subst this
    have he1 : e1 = .call (some t) (.variable f) [] := by
      cases n with
      | zero => cases h1
      | succ n =>
        simp only [coerce, bind_eq_ok, Res.ok.injEq, orErr, List.zip_nil_left, Res.mapList] at h1
        obtain ⟨_, rfl, p, _, g, hg, _, rfl, rfl⟩ := h1
        cases n with
        | zero => cases hg
        | succ n => simp only [coerce, Res.ok.injEq] at hg; rw [← hg]
    subst he1
    have := coerce_inner (by simp [Vars.insert]) h3
    subst this
    have := coerceTo_same (fun t ht => by rw [extract_inner ht]; exact hss) hsss h4
    subst this
    have hb : b1 = .string [] := by
      cases n with
      | zero => cases hb1
      | succ n => simp only [coerce, Res.ok.injEq] at hb1; exact hb1.symm
    subst hb
    have hb : b2 = .string [] := coerceTo_same (fun t ht => by
      cases n with
      | zero => cases ht
      | succ n =>
        simp only [extract, Res.ok.injEq] at ht
        rw [← ht]
        exact canon_string) hsss hb2
    subst hb
    rfl

/-- **What the analysis accepts as a test**: a function of no arguments whose result type is `none | error`. -/
theorem wrapper_analyzed {x f : String} {t : Ty} {d' : Definition} (hf : Γ f = some t)
    (h : analyzeDefinition n C Γ ⟨x, [], .string, wrapperBody f⟩ = .ok d') :
    ∃ r, Canon C.types t (.function [] r) ∧ Canon C.types (.union .none .error) r ∧
      d' = ⟨x, [], .string, analyzedBody t f⟩ := by
  unfold analyzeDefinition at h
  simp only [Vars.insertAll] at h
  obtain ⟨e, h1, h⟩ := bind_eq_ok.1 h
  obtain ⟨u, h2, h⟩ := bind_eq_ok.1 h
  obtain ⟨_, _, h⟩ := bind_eq_ok.1 h
  obtain ⟨_, _, h⟩ := bind_eq_ok.1 h
  obtain ⟨e', h3, h⟩ := bind_eq_ok.1 h
  obtain ⟨e'', h4, h⟩ := bind_eq_ok.1 h
  obtain ⟨_, _, h⟩ := bind_eq_ok.1 h
  obtain ⟨_, _, h⟩ := bind_eq_ok.1 h
  cases h
  obtain ⟨p, d, k, rfl, hp, hd⟩ := infer_wrapper hf h1
  have hp := expectFunction_ok hp
  have hr : Canon C.types p.2 p.2 := hp.function_arg.2
  -- checking
  obtain ⟨ha, hn, cd, hcd, hs⟩ : p.1 = [] ∧ Sub .none p.2 ∧ ∃ cd, Canon C.types d cd ∧ Sub cd .error := by
    cases n with
    | zero => cases h2
    | succ n =>
      simp only [check, Res.mapList, orErr] at h2
      obtain ⟨u1, g1, h2⟩ := bind_eq_ok.1 h2
      obtain ⟨c1, g2, h2⟩ := bind_eq_ok.1 h2
      obtain ⟨g4, u2, g5⟩ : expectSub n C .none c1 = .ok () ∧
          ∃ u2, check n C (Γ.insert "$result" d) inferredInner = .ok u2 := by
        split at h2
        · simp only [bind_eq_ok, Res.ok.injEq] at h2
          obtain ⟨_, _, _, ⟨_, ⟨_, g4, _⟩, _⟩, _, rfl, u2, g5, _⟩ := h2
          exact ⟨g4, u2, g5⟩
        · simp only [bind_eq_ok, Res.ok.injEq] at h2
          obtain ⟨_, _, _, ⟨_, ⟨_, g4, _⟩, _⟩, _, rfl, u2, g5, _⟩ := h2
          exact ⟨g4, u2, g5⟩
        · cases h2
      obtain ⟨cd, g6, g7⟩ := check_inner (d := d) (by simp [Vars.insert]) g5
      have g8 : p.1 = [] ∧ u1 = p.2 := by
        cases n with
        | zero => cases g1
        | succ n =>
          simp only [check, bind_eq_ok, orErr, Res.ok.injEq, List.zip_nil_left, Res.mapList] at g1
          obtain ⟨_, rfl, q, hq, g1⟩ := g1
          have := (expectFunction_ok hq).det hp
          obtain ⟨q1, q2⟩ := q
          obtain ⟨p1, p2⟩ := p
          simp only [Ty.function.injEq] at this
          obtain ⟨rfl, rfl⟩ := this
          split at g1
          · cases g1
          · rename_i hl
            simp only [bind_eq_ok, Res.ok.injEq] at g1
            obtain ⟨_, _, _, _, _, _, rfl⟩ := g1
            refine ⟨?_, rfl⟩
            cases q1 with
            | nil => rfl
            | cons _ _ => simp at hl
      obtain ⟨g8, rfl⟩ := g8
      have g9 := (Canon.of_ok g2).det hr
      subst g9
      exact ⟨g8, expectSub_ok g4 canon_none hr.self, cd, g6, g7⟩
  obtain ⟨h5, rfl⟩ := difference_error hr hn hd hcd hs
  obtain ⟨as, r⟩ := p
  simp only at ha
  subst ha
  have := coerce_wrapper hp (e := e') h3
  subst this
  have := coerceTo_same (fun t ht => by
    rw [extract_wrapper ht]
    exact canon_string.union_same (canon_string.union_same canon_string)) canon_string h4
  subst this
  exact ⟨_, hp, h5, rfl⟩

end Verif.Tests
