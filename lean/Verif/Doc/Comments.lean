import Verif.Doc.Model
import Verif.Doc.Specification

/-
Which comments are documentation.
-/

namespace Verif.Doc

open Verif.Grammar

theorem onLinesFrom_iff {ds : List Comment} : ∀ {first : Nat}, OnLinesFrom first ds ↔
    ∀ i c, ds[i]? = some c → c.line = first + i := by
  induction ds with
  | nil => simp [OnLinesFrom]
  | cons d ds ih =>
    intro first
    simp only [OnLinesFrom, ih]
    constructor
    · rintro ⟨h1, h2⟩ i c hc
      cases i with
      | zero => cases hc; exact h1
      | succ i => have := h2 i c (by simpa using hc); omega
    · intro h
      exact ⟨h 0 d rfl, fun i c hc => by have := h (i + 1) c (by simpa using hc); omega⟩

theorem find_reverse {p : Nat → Bool} {l : List Nat} (hs : l.Pairwise (· < ·)) {i : Nat} :
    l.reverse.find? p = some i ↔ i ∈ l ∧ p i = true ∧ ∀ j ∈ l, i < j → p j = false := by
  induction l with
  | nil => simp
  | cons a l ih =>
    rw [List.pairwise_cons] at hs
    rw [List.reverse_cons, List.find?_append]
    cases hf : l.reverse.find? p with
    | none =>
      have hn : ∀ j ∈ l, p j = false := fun j hj => by
        have := List.find?_eq_none.mp hf j (List.mem_reverse.mpr hj)
        simpa using this
      simp only [Option.none_or, List.find?_cons, List.find?_nil]
      constructor
      · intro h
        split at h
        · cases h
          exact ⟨List.mem_cons_self, by assumption, fun j hj hlt => by
            rcases List.mem_cons.mp hj with rfl | hj
            · omega
            · exact hn j hj⟩
        · cases h
      · rintro ⟨h1, h2, h3⟩
        rcases List.mem_cons.mp h1 with rfl | h1
        · simp [h2]
        · rw [hn i h1] at h2; cases h2
    | some k =>
      simp only [Option.some_or]
      rw [← hf, ih hs.2]
      constructor
      · rintro ⟨h1, h2, h3⟩
        refine ⟨List.mem_cons_of_mem _ h1, h2, fun j hj hlt => ?_⟩
        rcases List.mem_cons.mp hj with rfl | hj
        · exact absurd (hs.1 i h1) (by omega)
        · exact h3 j hj hlt
      · rintro ⟨h1, h2, h3⟩
        rcases List.mem_cons.mp h1 with rfl | h1
        · have hkm := List.mem_reverse.mp (List.mem_of_find?_eq_some hf)
          have := h3 k (List.mem_cons_of_mem _ hkm) (hs.1 k hkm)
          rw [List.find?_some hf] at this
          cases this
        · exact ⟨h1, h2, fun j hj => h3 j (List.mem_cons_of_mem _ hj)⟩

theorem rposition_some {p : Comment → Bool} {cs : List Comment} {i : Nat} :
    rposition p cs = some i ↔ ∃ before c after, cs = before ++ c :: after ∧ before.length = i ∧ p c = true ∧
      ∀ d ∈ after, p d = false := by
  unfold rposition
  rw [find_reverse List.pairwise_lt_range]
  simp only [List.mem_range]
  constructor
  · rintro ⟨h1, h2, h3⟩
    refine ⟨cs.take i, cs[i], cs.drop (i + 1), ?_, by simp; omega, by simpa [List.getElem?_eq_getElem h1] using h2, ?_⟩
    · rw [List.cons_getElem_drop_succ, List.take_append_drop]
    · intro d hd
      obtain ⟨j, hj, rfl⟩ := List.getElem_of_mem hd
      rw [List.length_drop] at hj
      have := h3 (i + 1 + j) (by omega) (by omega)
      rw [List.getElem?_eq_getElem (by omega)] at this
      rw [List.getElem_drop]
      simpa using this
  · rintro ⟨before, c, after, rfl, rfl, h1, h2⟩
    refine ⟨by simp, by simpa using h1, fun j hj hlt => ?_⟩
    rw [List.getElem?_append_right (by omega)]
    obtain ⟨k, hk⟩ : ∃ k, j - before.length = k + 1 := ⟨j - before.length - 1, by omega⟩
    rw [hk, List.getElem?_cons_succ]
    cases hd : after[k]? with
    | none => rfl
    | some d => simpa using h2 d (List.mem_of_getElem? hd)

theorem lineOf_getElem {cs : List Comment} {i : Nat} {c : Comment} (h : cs[i]? = some c) : lineOf cs i = c.line := by
  simp [lineOf, h]

theorem lineOf_take {cs : List Comment} {n i : Nat} (h : i < n) : lineOf (cs.take n) i = lineOf cs i := by
  simp [lineOf, List.getElem?_take_of_lt h]

/-- Lines that follow each other. -/
theorem lines_run {cs : List Comment} {s n : Nat} (h : ∀ j, s < j → j < n → lineOf cs (j - 1) + 1 = lineOf cs j) :
    ∀ i, s + i < n → lineOf cs (s + i) = lineOf cs s + i
  | 0, _ => rfl
  | i + 1, hi => by
    have h1 := lines_run h i (by omega)
    have h2 := h (s + (i + 1)) (by omega) hi
    have e : s + (i + 1) - 1 = s + i := by omega
    rw [e] at h2
    omega

theorem onLinesFrom_drop {cs : List Comment} {s : Nat}
    (h : ∀ j, s < j → j < cs.length → lineOf cs (j - 1) + 1 = lineOf cs j) :
    OnLinesFrom (lineOf cs s) (cs.drop s) := by
  rw [onLinesFrom_iff]
  intro i c hc
  rw [List.getElem?_drop] at hc
  have hi : s + i < cs.length := (List.getElem?_eq_some_iff.mp hc).1
  rw [← lineOf_getElem hc, lines_run h i hi]

/-- Where the last run of consecutive lines starts. -/
theorem last_run {cs : List Comment} (hp : ∀ c ∈ cs, 1 ≤ c.line) (hne : cs ≠ []) {ds : List Comment} :
    cs.drop (((List.range' 1 (cs.length - 1)).reverse.find? fun i => lineOf cs (i - 1) ≠ lineOf cs i - 1).getD 0) = ds ↔
      ∃ before, cs = before ++ ds ∧ ds ≠ [] ∧ ∃ first, 1 ≤ first ∧ OnLinesFrom first ds ∧
        ∀ c, before.getLast? = some c → c.line + 1 ≠ first := by
  have hlen : 0 < cs.length := List.length_pos_iff.mpr hne
  have pos : ∀ i, i < cs.length → 1 ≤ lineOf cs i := fun i hi => by
    rw [lineOf_getElem (List.getElem?_eq_getElem hi)]
    exact hp _ (List.getElem_mem hi)
  have hr : (List.range' 1 (cs.length - 1)).Pairwise (· < ·) := List.pairwise_lt_range'
  have hm : ∀ i, i ∈ List.range' 1 (cs.length - 1) ↔ 1 ≤ i ∧ i < cs.length := fun i => by
    rw [List.mem_range'_1]; omega
  generalize hf : (List.range' 1 (cs.length - 1)).reverse.find? (fun i => decide (lineOf cs (i - 1) ≠ lineOf cs i - 1)) = f
  constructor
  · rintro rfl
    have key : ∃ s, f.getD 0 = s ∧ s < cs.length ∧ (0 < s → lineOf cs (s - 1) + 1 ≠ lineOf cs s) ∧
        ∀ j, s < j → j < cs.length → lineOf cs (j - 1) + 1 = lineOf cs j := by
      cases f with
      | none =>
        refine ⟨0, rfl, hlen, by simp, fun j h0 hj => ?_⟩
        have := List.find?_eq_none.mp hf j (List.mem_reverse.mpr ((hm j).mpr ⟨h0, hj⟩))
        have := pos j hj
        simp at *
        omega
      | some s =>
        obtain ⟨h1, h2, h3⟩ := (find_reverse hr).mp hf
        rw [hm] at h1
        refine ⟨s, rfl, h1.2, fun _ => ?_, fun j h0 hj => ?_⟩
        · have := pos s h1.2
          simp at h2
          omega
        · have := h3 j ((hm j).mpr ⟨by omega, hj⟩) h0
          have := pos j hj
          simp at *
          omega
    obtain ⟨s, hs, h1, h2, h3⟩ := key
    rw [hs]
    refine ⟨cs.take s, (List.take_append_drop s cs).symm, by simp; omega, lineOf cs s, pos s h1, onLinesFrom_drop h3, ?_⟩
    intro c hc
    rw [List.getLast?_eq_getElem?, List.length_take, Nat.min_eq_left (by omega)] at hc
    have h0 : 0 < s := by
      by_contra h
      have : s = 0 := by omega
      subst this
      simp at hc
    rw [List.getElem?_take_of_lt (by omega)] at hc
    rw [← lineOf_getElem hc]
    exact h2 h0
  · rintro ⟨before, rfl, hds, first, hfirst, hon, hb⟩
    rw [onLinesFrom_iff] at hon
    have hl : 0 < ds.length := List.length_pos_iff.mpr hds
    have line : ∀ i, i < ds.length → lineOf (before ++ ds) (before.length + i) = first + i := fun i hi => by
      have h1 : (before ++ ds)[before.length + i]? = some ds[i] := by
        rw [List.getElem?_append_right (by omega), Nat.add_sub_cancel_left, List.getElem?_eq_getElem hi]
      rw [lineOf_getElem h1]
      exact hon i _ (List.getElem?_eq_getElem hi)
    have later : ∀ j, before.length < j → j < (before ++ ds).length →
        decide (lineOf (before ++ ds) (j - 1) ≠ lineOf (before ++ ds) j - 1) = false := by
      intro j h0 hj
      rw [List.length_append] at hj
      have h1 := line (j - before.length) (by omega)
      have h2 := line (j - 1 - before.length) (by omega)
      rw [show before.length + (j - before.length) = j by omega] at h1
      rw [show before.length + (j - 1 - before.length) = j - 1 by omega] at h2
      rw [h1, h2]
      simp
      omega
    have hfs : f.getD 0 = before.length := by
      by_cases hbe : before = []
      · subst hbe
        have : f = none := by
          rw [← hf, List.find?_eq_none]
          intro j hj
          rw [List.mem_reverse, hm] at hj
          simpa using later j (by have := hj.1; simp; omega) hj.2
        rw [this]; rfl
      · have hbl : 0 < before.length := List.length_pos_iff.mpr hbe
        have : f = some before.length := by
          rw [← hf, find_reverse hr]
          refine ⟨(hm _).mpr ⟨hbl, by rw [List.length_append]; omega⟩, ?_, fun j hj h0 => later j h0 ((hm j).mp hj).2⟩
          have h1 := line 0 hl
          have h2 : before[before.length - 1]? = some (before.getLast hbe) := by
            rw [← List.getLast?_eq_getElem?, List.getLast?_eq_getLast_of_ne_nil hbe]
          have h3 : lineOf (before ++ ds) (before.length - 1) = (before.getLast hbe).line :=
            lineOf_getElem (by rw [List.getElem?_append_left (by omega)]; exact h2)
          have h4 := hb _ (List.getLast?_eq_getLast_of_ne_nil hbe)
          rw [Nat.add_zero] at h1
          simp only [h1, h3, decide_eq_true_eq]
          omega
        rw [this]; rfl
    rw [hfs, List.drop_left]

/-- The comments that document a definition. -/
theorem lastBlock_iff {cs : List Comment} (hc : Counted cs) {line : Nat} (hl : 1 ≤ line) {ds : List Comment} :
    lastBlock cs line = some ds ↔ IsBlockBefore cs line ds := by
  unfold lastBlock
  simp only [Option.bind_eq_bind, Option.bind_eq_some_iff, Option.some.injEq]
  constructor
  · rintro ⟨e, he, h⟩
    obtain ⟨before, c, after, rfl, rfl, h1, h2⟩ := rposition_some.mp he
    have ht : (before ++ c :: after).take (before.length + 1) = before ++ [c] := by
      rw [List.take_append, List.take_of_length_le (by omega)]
      simp
    rw [ht] at h
    obtain ⟨b, e1, e2, first, e3, e4, e5⟩ := (last_run (fun x hx => hc.positive x (by simp at hx ⊢; tauto)) (by simp)).mp h
    have hlast : (b ++ ds).getLast? = some c := by rw [← e1]; simp
    rw [List.getLast?_append_of_ne_nil _ e2, List.getLast?_eq_getElem?] at hlast
    have hcl := onLinesFrom_iff.mp e4 _ _ hlast
    have hdl : 0 < ds.length := List.length_pos_iff.mpr e2
    have h1 : c.line = line - 1 := by simpa using h1
    refine ⟨b, after, ?_, e2, first, e3, e4, by omega, fun d hd => ?_, e5⟩
    · rw [← e1]; simp
    · have hs := hc.sorted
      rw [List.pairwise_append] at hs
      have := (List.pairwise_cons.mp hs.2.1).1 d hd
      have := h2 d hd
      simp at this
      omega
  · rintro ⟨before, after, rfl, e2, first, e3, e4, e5, e6, e7⟩
    have hdl : 0 < ds.length := List.length_pos_iff.mpr e2
    obtain ⟨ds', c, rfl⟩ : ∃ xs x, ds = xs ++ [x] := ⟨ds.dropLast, ds.getLast e2, (List.dropLast_append_getLast e2).symm⟩
    have hcl := onLinesFrom_iff.mp e4 ds'.length c (by simp)
    simp only [List.length_append, List.length_cons, List.length_nil] at e5
    refine ⟨(before ++ ds').length, rposition_some.mpr ⟨before ++ ds', c, after, by simp, rfl, by simp; omega, fun d hd => ?_⟩, ?_⟩
    · have := e6 d hd
      simp
      omega
    · have ht : (before ++ (ds' ++ [c]) ++ after).take ((before ++ ds').length + 1) = before ++ (ds' ++ [c]) := by
        have : (before ++ ds').length + 1 = (before ++ (ds' ++ [c])).length := by simp; omega
        rw [this, List.take_left]
      rw [ht]
      exact (last_run (fun x hx => hc.positive x (List.mem_append_left _ hx)) (by simp)).mpr
        ⟨before, rfl, e2, first, e3, e4, e7⟩

/-- Where the first run of consecutive lines ends. -/
theorem firstBlock_iff {cs : List Comment} {line : Option Nat} {ds : List Comment} :
    firstBlock cs line = some ds ↔ IsFirstBlock cs ds ∧ line ≠ some (1 + ds.length) := by
  unfold firstBlock
  have run : cs.head?.map Comment.line = some 1 →
      ∀ ds, cs.take (((List.range' 1 (cs.length - 1)).find? fun i => lineOf cs (i - 1) + 1 ≠ lineOf cs i).getD cs.length) = ds ↔
        IsFirstBlock cs ds := by
    intro hh ds
    have hne : cs ≠ [] := by rintro rfl; cases hh
    have hlen : 0 < cs.length := List.length_pos_iff.mpr hne
    have h0 : lineOf cs 0 = 1 := by
      rw [List.head?_eq_getElem?] at hh
      simp [lineOf, hh]
    have hm : ∀ i, i ∈ List.range' 1 (cs.length - 1) ↔ 1 ≤ i ∧ i < cs.length := fun i => by
      rw [List.mem_range'_1]; omega
    generalize hf : (List.range' 1 (cs.length - 1)).find? (fun i => decide (lineOf cs (i - 1) + 1 ≠ lineOf cs i)) = f
    have key : ∃ n, f.getD cs.length = n ∧ 1 ≤ n ∧ n ≤ cs.length ∧ (n < cs.length → lineOf cs (n - 1) + 1 ≠ lineOf cs n) ∧
        ∀ j, 0 < j → j < n → lineOf cs (j - 1) + 1 = lineOf cs j := by
      cases f with
      | none =>
        refine ⟨cs.length, rfl, hlen, le_rfl, by omega, fun j h0 hj => ?_⟩
        have := List.find?_eq_none.mp hf j ((hm j).mpr ⟨h0, hj⟩)
        simpa using this
      | some n =>
        have hn := (hm n).mp (List.mem_of_find?_eq_some hf)
        refine ⟨n, rfl, hn.1, hn.2.le, fun _ => by simpa using List.find?_some hf, fun j h0 hj => ?_⟩
        rw [List.find?_eq_some_iff_append] at hf
        obtain ⟨hn1, as, bs, hab, hno⟩ := hf
        have hj' : j ∈ as := by
          have hjm : j ∈ as ++ n :: bs := hab ▸ (hm j).mpr ⟨h0, by omega⟩
          have hp : (as ++ n :: bs).Pairwise (· < ·) := hab ▸ List.pairwise_lt_range'
          rcases List.mem_append.mp hjm with h | h
          · exact h
          · rcases List.mem_cons.mp h with rfl | h
            · omega
            · have := (List.pairwise_cons.mp (List.pairwise_append.mp hp).2.1).1 j h
              omega
        simpa using hno j hj'
    obtain ⟨n, hn, h1, h2, h3, h4⟩ := key
    rw [hn]
    constructor
    · rintro rfl
      refine ⟨cs.drop n, (List.take_append_drop n cs).symm, by simp; exact ⟨by omega, hne⟩, ?_, fun c hc => ?_⟩
      · rw [onLinesFrom_iff]
        intro i c hc
        have hi : i < (cs.take n).length := (List.getElem?_eq_some_iff.mp hc).1
        rw [List.length_take] at hi
        rw [List.getElem?_take_of_lt (by omega)] at hc
        have := lines_run (s := 0) h4 i (by omega)
        rw [Nat.zero_add, h0] at this
        rw [← lineOf_getElem hc, this]
      · rw [List.head?_drop] at hc
        have hlt : n < cs.length := (List.getElem?_eq_some_iff.mp hc).1
        have := lines_run (s := 0) h4 (n - 1) (by omega)
        rw [Nat.zero_add, h0] at this
        have h3 := h3 hlt
        rw [lineOf_getElem hc, this] at h3
        rw [List.length_take]
        omega
    · rintro ⟨after, rfl, e1, e2, e3⟩
      rw [onLinesFrom_iff] at e2
      have hdl : 0 < ds.length := List.length_pos_iff.mpr e1
      have line : ∀ i, i < ds.length → lineOf (ds ++ after) i = 1 + i := fun i hi => by
        have : (ds ++ after)[i]? = some ds[i] := by
          rw [List.getElem?_append_left hi, List.getElem?_eq_getElem hi]
        rw [lineOf_getElem this]
        exact e2 i _ (List.getElem?_eq_getElem hi)
      have hnl : n = ds.length := by
        rcases Nat.lt_trichotomy n ds.length with hlt | heq | hgt
        · have a1 := line n hlt
          have a2 := line (n - 1) (by omega)
          have := h3 (by rw [List.length_append]; omega)
          omega
        · exact heq
        · rw [List.length_append] at h2
          have a1 := h4 ds.length hdl hgt
          rw [line (ds.length - 1) (by omega)] at a1
          have : (ds ++ after)[ds.length]? = some (after[0]'(by omega)) := by
            rw [List.getElem?_append_right le_rfl, Nat.sub_self, List.getElem?_eq_getElem]
          rw [lineOf_getElem this] at a1
          have := e3 (after[0]'(by omega)) (by rw [List.head?_eq_getElem?, List.getElem?_eq_getElem])
          omega
      rw [hnl, List.take_left]
  by_cases hh : cs.head?.map Comment.line = some 1
  · rw [if_neg (by simp [hh])]
    have last : ∀ ds, IsFirstBlock cs ds → ds.getLast?.map (fun c => c.line + 1) = some (1 + ds.length) := by
      rintro ds ⟨after, rfl, e1, e2, e3⟩
      have hdl : 0 < ds.length := List.length_pos_iff.mpr e1
      rw [List.getLast?_eq_getElem?, List.getElem?_eq_getElem (by omega)]
      have := onLinesFrom_iff.mp e2 (ds.length - 1) _ (List.getElem?_eq_getElem (by omega))
      simp only [Option.map_some, this, Option.some.injEq]
      omega
    constructor
    · intro h
      simp only at h
      split at h
      · cases h
      · rename_i hn
        cases h
        have hb := (run hh _).mp rfl
        exact ⟨hb, fun hl => hn ((last _ hb).trans hl.symm)⟩
    · rintro ⟨hb, hl⟩
      have e := (run hh ds).mpr hb
      simp only [e]
      rw [if_neg (fun h => hl (h.symm.trans (last _ hb)))]
  · rw [if_pos (by simpa using hh)]
    constructor
    · intro h; cases h
    · rintro ⟨⟨after, rfl, e1, e2, e3⟩, _⟩
      cases ds with
      | nil => exact absurd rfl e1
      | cons d ds => exact absurd (by simp [e2.1]) hh

/-- The comments of a text are counted. -/
theorem parseComments_counted {s : List Char} {cs : List Comment} (h : parseComments s = some cs) : Counted cs := by
  refine ⟨fun c hc => ?_, (parseComments_sound h).2⟩
  unfold parseComments at h
  split at h
  · cases h
    obtain ⟨x, _, rfl⟩ := List.mem_map.mp hc
    simp [lineAt]
  · cases h

end Verif.Doc
