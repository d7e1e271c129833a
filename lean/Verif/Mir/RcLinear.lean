import Verif.Mir.Linear
import Mathlib.Tactic.SplitIfs

/- Reference counting handles references correctly. -/
namespace Verif.Mir

theorem count_tok_cons {x y : Name} {D M : List Name} (h : (x :: D).Nodup) :
    (tok (x :: D) M).count y = (if y = x ∧ x ∈ M then 1 else 0) + (tok D M).count y := by
  rw [count_tok h, count_tok (List.nodup_cons.mp h).2]
  have := (List.nodup_cons.mp h).1
  by_cases hy : y = x
  · subst hy; simp [this]
  · simp [hy]

theorem lin_drop' {D D' xs : List Name} {e : Expr} {O O1 O' : Tokens} (h : lin D e O1 O')
    (hO : ∀ x, O.count x = (tok D' xs).count x + O1.count x) : lin D (dropVariables D' xs e) O O' :=
  lin_drop h (by ext x; rw [hO, Multiset.count_add]; rfl)

theorem mem_difference {xs ys : List Name} {x : Name} : x ∈ difference xs ys ↔ x ∈ xs ∧ x ∉ ys := by
  simp [difference]

theorem mem_altsMoved {M : List Name} {rs : List AltResult} {x : Name} (h : x ∈ altsMoved M rs) :
    x ∈ M ∨ ∃ r ∈ rs, x ∈ r.moved ∧ x ≠ r.name := by
  unfold altsMoved at h
  rw [List.mem_append] at h
  rcases h with h | h
  · split at h
    · cases h
    · exact Or.inl h
  · simp only [List.mem_flatMap, List.mem_filter, decide_eq_true_eq] at h
    obtain ⟨r, hr, h1, h2⟩ := h
    exact Or.inr ⟨r, hr, h1, h2⟩

theorem altsMoved_mem {M : List Name} {rs : List AltResult} {x : Name} {r : AltResult} (hr : r ∈ rs)
    (h1 : x ∈ r.moved) (h2 : x ≠ r.name) : x ∈ altsMoved M rs := by
  unfold altsMoved
  rw [List.mem_append]
  refine Or.inr ?_
  simp only [List.mem_flatMap, List.mem_filter, decide_eq_true_eq]
  exact ⟨r, hr, h1, h2⟩

/-- What holds of transformed alternatives. -/
def altsOk (D M : List Name) (rs : List AltResult) : Prop :=
  ∀ r ∈ rs, r.name ∉ D ∧ lin (r.name :: D) r.body (tok (r.name :: D) r.moved) (tok D M) ∧
    ∀ x ∈ M, x ≠ r.name → x ∈ r.moved

theorem lin_finishAlts {D M all : List Name} {O : Tokens} (hD : D.Nodup) : ∀ {rs : List AltResult}, altsOk D M rs →
    (∀ r ∈ rs, ∀ x ∈ D, x ∈ r.moved → x ∈ all) → O = tok D all → linAlts D (finishAlts D all rs) O (tok D M)
  | [], _, _, _ => trivial
  | r :: rs, h, ha, hO => by
    obtain ⟨hn, hl, hm⟩ := h r (by simp)
    have hD' : (r.name :: D).Nodup := List.nodup_cons.mpr ⟨hn, hD⟩
    refine ⟨⟨hn, fun hx => hn (mem_tok.mp hx).1, ?_⟩, lin_finishAlts hD (fun s hs => h s (by simp [hs]))
      (fun s hs => ha s (by simp [hs])) hO⟩
    rw [own_eq hn]
    refine lin_drop' hl fun x => ?_
    have hax := ha r (by simp) x
    rw [Multiset.count_cons, hO, count_tok_cons hD', count_tok_cons hD', count_tok hD, count_tok hD, count_tok hD]
    simp only [mem_difference, List.mem_append, List.mem_singleton]
    by_cases hx : x = r.name
    · subst hx; simp [hn]; split <;> simp_all
    · simp only [hx, or_false, false_and, if_false, Nat.zero_add]
      by_cases hxD : x ∈ D
      · simp only [hxD, true_and, true_implies] at hax ⊢
        by_cases h1 : x ∈ r.moved
        · simp [h1, hax h1]
        · by_cases h2 : x ∈ all <;> simp [h1, h2]
      · simp [hxD]

theorem atomsButLast_of_atoms : ∀ es : Exprs, es.atoms = true → es.atomsButLast = true
  | .nil, _ => rfl
  | .cons e es, h => by
    have ih := atomsButLast_of_atoms es
    cases e <;> simp only [Exprs.atoms, Bool.false_eq_true] at h <;> cases es <;>
      simp only [Exprs.atomsButLast] <;> exact ih h

theorem tok_filter {x : Name} {D : List Name} (hD : (x :: D).Nodup) (M : List Name) :
    tok (x :: D) (M.filter (· ≠ x)) = tok D M := by
  ext y
  rw [count_tok_cons hD, count_tok (List.nodup_cons.mp hD).2, count_tok (List.nodup_cons.mp hD).2]
  by_cases hy : y = x
  · subst hy; simp [(List.nodup_cons.mp hD).1]
  · simp [hy]

/-- The rest of a block after a variable is bound. -/
theorem let_body {x : Name} {D M M' : List Name} {b : Expr} (hD : (x :: D).Nodup)
    (hb : lin (x :: D) b (tok (x :: D) M') (tok D M)) (hM : ∀ y ∈ M.filter (· ≠ x), y ∈ M') :
    lin (x :: D) (if x ∈ M' then b else dropVariables (x :: D) [x] b)
      (x ::ₘ tok D (M ++ M'.filter (· ≠ x))) (tok D M) := by
  have hx := (List.nodup_cons.mp hD).1
  have hD0 := (List.nodup_cons.mp hD).2
  have key : ∀ y, (tok D (M ++ M'.filter (· ≠ x))).count y = (tok D M').count y := by
    intro y
    rw [count_tok hD0, count_tok hD0]
    by_cases hy : y ∈ D
    · have hne : y ≠ x := fun h => hx (h ▸ hy)
      have hyM := hM y
      simp only [List.mem_filter, decide_eq_true_eq] at hyM
      simp only [hy, true_and, List.mem_append, List.mem_filter, decide_eq_true_eq]
      by_cases h1 : y ∈ M
      · simp [h1, hyM ⟨h1, hne⟩]
      · simp [h1, hne]
    · simp [hy]
  split
  · rename_i h
    have : tok (x :: D) M' = x ::ₘ tok D (M ++ M'.filter (· ≠ x)) := by
      ext y
      rw [count_tok_cons hD, Multiset.count_cons, key]
      simp only [h, and_true]
      omega
    rw [← this]; exact hb
  · rename_i h
    refine lin_drop' hb fun y => ?_
    rw [Multiset.count_cons, key, count_tok_cons hD, count_tok_cons hD, count_tok hD0 [x]]
    by_cases hy : y = x
    · subst hy; simp [h, hx]; omega
    · simp [hy]

theorem count_erase (O : Tokens) (x y : Name) : (O.erase x).count y = O.count y - if y = x then 1 else 0 := by
  by_cases h : y = x
  · subst h; simp [Multiset.count_erase_self]
  · simp [Multiset.count_erase_of_ne h, h]

theorem tok_nil {D : List Name} (hD : D.Nodup) : tok D [] = 0 := by ext x; simp [count_tok hD]

theorem atoms_cons {e : Expr} {es : Exprs} (h : (Exprs.cons e es).atoms = true) :
    ((∃ l, e = .literal l) ∨ ∃ x, e = .variable x) ∧ es.atoms = true := by
  cases e <;> simp only [Exprs.atoms, Bool.false_eq_true] at h
  · exact ⟨Or.inl ⟨_, rfl⟩, h⟩
  · exact ⟨Or.inr ⟨_, rfl⟩, h⟩

theorem atomsButLast_cons {e : Expr} {es : Exprs} (h : (Exprs.cons e es).atomsButLast = true) :
    es.atomsButLast = true := by
  cases es with
  | nil => rfl
  | cons => cases e <;> simp only [Exprs.atomsButLast, Bool.false_eq_true] at h <;> exact h

theorem rcForward_mono : ∀ (es : Exprs) (D M : List Name), es.atoms = true → ∀ x ∈ M, x ∈ (rcForward D es M).2
  | .nil, _, _, _, _, h => h
  | .cons e es, D, M, ha, x, h => by
    obtain ⟨he, ha⟩ := atoms_cons ha
    simp only [rcForward]
    refine rcForward_mono es D _ ha x ?_
    rcases he with ⟨l, rfl⟩ | ⟨y, rfl⟩
    · exact h
    · simp only [rc]; split <;> simp [h]

theorem rcForward_lin : ∀ (es : Exprs) (D M : List Name), D.Nodup → es.atoms = true →
    ∀ (scalar first : Bool) (held M0 : List Name), (∀ x ∈ M0, x ∈ M) → (∀ x ∈ D, x ∈ M → x ∉ M0 → x ∈ held) →
    linExprs D scalar first held (rcForward D es M).1
      (tok D ((rcForward D es M).2.filter fun x => decide (x ∉ M ∨ x ∈ M0))) (tok D M0) ∧
      ∀ x ∈ M, x ∈ (rcForward D es M).2
  | .nil, D, M, hD, _, _, _, held, M0, h0, _ => by
    refine ⟨?_, fun _ h => h⟩
    change tok D M0 = _
    ext x
    rw [count_tok hD, count_tok hD]
    have := h0 x
    simp only [rcForward, List.mem_filter, decide_eq_true_eq]
    by_cases h1 : x ∈ M0
    · simp [h1, this h1]
    · by_cases h2 : x ∈ M <;> simp [h1, h2]
  | .cons e es, D, M, hD, ha, scalar, first, held, M0, h0, hh => by
    refine ⟨?_, rcForward_mono _ D M ha⟩
    obtain ⟨he, ha⟩ := atoms_cons ha
    have hq := quiet_rc hD M he
    rcases he with ⟨l, rfl⟩ | ⟨x, rfl⟩
    · refine Or.inr ⟨Or.inl hq, _, rfl, ?_⟩
      exact (rcForward_lin es D M hD ha scalar false _ M0 h0 hh).1
    · simp only [rcForward, rc] at hq ⊢
      split
      · rename_i hx
        simp only [if_pos hx] at hq
        have hxf := rcForward_mono es D M ha x hx.2
        have ih := fun held => rcForward_lin es D M hD ha scalar false held M0 h0
        have hcl : cloneVariables D [x] (.variable x) = .clone [x] (.variable x) := by
          unfold cloneVariables; rw [filter_singleton hD hx.1]; simp
        by_cases h1 : x ∈ M0
        · refine Or.inr ⟨Or.inl hq, _, ?_, (ih _ ?_).1⟩
          · rw [hcl]
            refine ⟨?_, Or.inr ⟨hx.1, by simp, ?_⟩⟩
            · intro y hy
              rw [List.mem_singleton] at hy
              subst hy
              exact mem_tok.mpr ⟨hx.1, by simp [hxf, h1]⟩
            · ext y; simp [Multiset.coe_singleton]
          · intro y h2 h3 h4
            exact List.mem_append.mpr (Or.inr (hh y h2 h3 h4))
        · exact Or.inl ⟨x, hcl, hx.1, hh x hx.1 hx.2 h1, (ih _ hh).1⟩
      · rename_i hx
        simp only [if_neg hx] at hq
        have ih := rcForward_lin es D (x :: M) hD ha scalar false ([x] ++ held) M0
          (fun y hy => List.mem_cons_of_mem _ (h0 y hy)) (by
            intro y h2 h3 h4
            rw [List.mem_cons] at h3
            rcases h3 with rfl | h3
            · simp
            · exact List.mem_append.mpr (Or.inr (hh y h2 h3 h4)))
        refine Or.inr ⟨Or.inl hq, _, ?_, ih.1⟩
        have hxf := rcForward_mono es D (x :: M) ha x (by simp)
        by_cases hxD : x ∈ D
        · have hxM : x ∉ M := fun h => hx ⟨hxD, h⟩
          have hx0 : x ∉ M0 := fun h => hxM (h0 x h)
          refine Or.inr ⟨hxD, mem_tok.mpr ⟨hxD, by simp [hxf, hxM]⟩, ?_⟩
          ext y
          rw [count_erase, count_tok hD, count_tok hD]
          by_cases hy : y = x
          · subst hy; simp [hx0, hxM, hxD, hxf]
          · simp [hy]
        · refine Or.inl ⟨hxD, ?_⟩
          ext y
          rw [count_tok hD, count_tok hD]
          by_cases hy : y = x
          · subst hy; simp [hxD]
          · simp [hy]

mutual
theorem rc_lin : ∀ (e : Expr) (D M : List Name), D.Nodup → ready D e →
    lin D (rc D e M).1 (tok D (rc D e M).2) (tok D M) ∧ ∀ x ∈ M, x ∈ (rc D e M).2
  | .literal l, D, M, hD, _ => ⟨rfl, fun _ h => h⟩
  | .variable x, D, M, hD, _ => by
    simp only [rc]
    split
    · rename_i h
      refine ⟨?_, fun _ h => h⟩
      show lin D (cloneVariables D [x] (.variable x)) (tok D M) (tok D M)
      refine lin_clone ?_ ?_
      · rw [filter_singleton hD h.1]
        intro y hy
        rw [List.mem_singleton] at hy
        exact hy ▸ mem_tok.mpr h
      · rw [filter_singleton hD h.1]
        refine Or.inr ⟨h.1, by simp, ?_⟩
        ext y
        simp [Multiset.coe_singleton]
    · rename_i h
      refine ⟨?_, fun _ h => List.mem_cons_of_mem _ h⟩
      by_cases hx : x ∈ D
      · have hM : x ∉ M := fun hM => h ⟨hx, hM⟩
        refine Or.inr ⟨hx, mem_tok.mpr ⟨hx, by simp⟩, ?_⟩
        ext y
        rw [count_erase, count_tok hD, count_tok hD]
        by_cases hy : y = x
        · subst hy; simp [hx, hM]
        · simp [hy]
      · refine Or.inl ⟨hx, ?_⟩
        ext y
        rw [count_tok hD, count_tok hD]
        by_cases hy : y = x
        · subst hy; simp [hx]
        · simp [hy]
  | .op o es, D, M, hD, h => by
    have hb := fun h1 => rcBackward_lin es D M hD h.2 o.scalar true [] h1
    have hd : o.distinct := by
      cases o <;> first | trivial | exact h.1.2
    have hone : es.toList.length ≤ 1 → es.atomsButLast = true := by
      cases es with
      | nil => simp [Exprs.atomsButLast]
      | cons e es => cases es with
        | nil => simp [Exprs.atomsButLast]
        | cons e es => simp [Exprs.toList]
    have hf := fun ha => rcForward_lin es D M hD ha o.scalar true [] M (fun _ h => h) (fun x _ h1 h2 => absurd h1 h2)
    have hatoms := atomsButLast_of_atoms es
    simp only [rc]
    split
    · rename_i hfo
      have ha : es.atoms = true := by
        cases o <;> first | exact absurd (show false = true from hfo) (by decide) | exact h.1.1 | exact h.1
      refine ⟨⟨hd, ?_⟩, (hf ha).2⟩
      have := (hf ha).1
      have he : tok D (List.filter (fun x => decide (x ∉ M ∨ x ∈ M)) (rcForward D es M).2) = tok D (rcForward D es M).2 := by
        ext x
        rw [count_tok hD, count_tok hD]
        simp
      rw [he] at this
      exact this
    · rename_i hfo
      have ha : es.atomsButLast = true ∧ (o.scalar = true ∨ es.toList.length ≤ 1 ∨ es.atoms = true) := by
        cases o <;>
          first
          | exact absurd rfl hfo
          | exact ⟨h.1, Or.inl rfl⟩
          | exact ⟨hatoms h.1, Or.inr (Or.inr h.1)⟩
          | exact ⟨hone h.1, Or.inr (Or.inl h.1)⟩
      refine ⟨⟨hd, (hb ?_).1⟩, (hb ?_).2⟩ <;>
      · rcases ha.2 with h1 | h1 | h1
        · exact Or.inl ⟨h1, ha.1⟩
        · exact Or.inr (Or.inl ⟨rfl, h1⟩)
        · exact Or.inr (Or.inr h1)
  | .case e as, D, M, hD, h => by
    obtain ⟨hne, he, has⟩ := h
    have hrs := rcAlts_lin as D M hD has
    have hsub : ∀ x ∈ D, x ∈ M → x ∈ altsMoved M (rcAlts D as M) := by
      intro x hxD hx
      cases hr : rcAlts D as M with
      | nil =>
        simp [altsMoved, hx]
      | cons r rs =>
        have := hrs r (by simp [hr])
        have hne : x ≠ r.name := fun h => this.1 (h ▸ hxD)
        exact altsMoved_mem (by simp) (this.2.2 x hx hne) hne
    have ih := rc_lin e D (M ++ altsMoved M (rcAlts D as M)) hD he
    simp only [rc]
    have hne' : finishAlts D (altsMoved M (rcAlts D as M)) (rcAlts D as M) ≠ .nil := by
      cases as with
      | nil => exact absurd rfl hne
      | cons => simp [rcAlts, finishAlts]
    refine ⟨⟨hne', _, ih.1, lin_finishAlts hD hrs ?_ ?_⟩, fun x hx => ih.2 x (by simp [hx])⟩
    · intro r hr x hxD hx
      exact altsMoved_mem hr hx fun h => (hrs r hr).1 (h ▸ hxD)
    · ext x
      rw [count_tok hD, count_tok hD]
      by_cases hxD : x ∈ D
      · have := hsub x hxD
        simp only [hxD, List.mem_append, true_and]
        by_cases h1 : x ∈ M
        · simp [h1, this h1]
        · simp [h1]
      · simp [hxD]
  | .if_ c t e, D, M, hD, h => by
    have iht := rc_lin t D M hD h.2.1
    have ihe := rc_lin e D M hD h.2.2
    have ihc := rc_lin c D ((rc D t M).2 ++ (rc D e M).2) hD h.1
    simp only [rc]
    refine ⟨⟨_, ihc.1, lin_drop' iht.1 fun x => ?_, lin_drop' ihe.1 fun x => ?_⟩,
      fun x hx => ihc.2 x (by simp [iht.2 x hx])⟩ <;>
    · simp only [count_tok hD, mem_difference, List.mem_append]
      by_cases h1 : x ∈ D <;> by_cases h2 : x ∈ (rc D t M).2 <;> by_cases h3 : x ∈ (rc D e M).2 <;> simp [h1, h2, h3]
  | .let_ x e b, D, M, hD, h => by
    obtain ⟨hx, he, hb⟩ := h
    have hD' : (x :: D).Nodup := List.nodup_cons.mpr ⟨hx, hD⟩
    have ihb := rc_lin b (x :: D) (M.filter (· ≠ x)) hD' hb
    simp only [rc, own_eq hx]
    have ihe := rc_lin e D (M ++ (rc (x :: D) b (M.filter (· ≠ x))).2.filter (· ≠ x)) hD he
    have hout := tok_filter hD' M
    rw [hout] at ihb
    refine ⟨⟨hx, fun h => hx (mem_tok.mp h).1, _, ihe.1, ?_⟩, fun y hy => ihe.2 y (by simp [hy])⟩
    exact let_body hD' ihb.1 ihb.2
  | .letRec f env args th body b, D, M, hD, h => by
    obtain ⟨hf, henv, hnd, hbody, hb⟩ := h
    have hD' : (f :: D).Nodup := List.nodup_cons.mpr ⟨hf, hD⟩
    have ihb := rc_lin b (f :: D) (M.filter (· ≠ f)) hD' hb
    have ihbody := rc_lin body (f :: env ++ args) [] hnd hbody
    rw [tok_filter hD' M] at ihb
    rw [tok_nil hnd] at ihbody
    simp only [rc, own_eq hf, ownAll_eq hnd]
    have hne : env.Nodup := (List.nodup_cons.mp hnd).2.sublist (List.sublist_append_left _ _)
    have hc := count_list hne
    refine ⟨lin_clone ?_ ?_, fun y hy => by simp [hy]⟩
    · intro y hy
      simp only [List.mem_filter, decide_eq_true_eq] at hy
      exact mem_tok.mpr ⟨hy.1, by simp [hy.2.1]⟩
    · refine ⟨hf, fun h => hf (mem_tok.mp h).1, henv, hnd, lin_drop' ihbody.1 ?_, _, ?_, let_body hD' ihb.1 ihb.2⟩
      · intro y
        rw [count_list hnd, count_tok hnd, count_tok hnd]
        simp only [mem_difference]
        by_cases h1 : y ∈ f :: env ++ args
        · by_cases h2 : y ∈ (rc (f :: env ++ args) body []).2 <;> simp only [h1, h2] <;> simp
        · simp only [h1]; simp
      · ext y
        have hy := henv y
        change ((tok D _) + _).count y = _
        rw [Multiset.count_add, Multiset.count_add, count_tok hD, count_tok hD, count_tok hD, hc]
        generalize hM' : M ++ List.filter (fun x => decide (x ≠ f)) (rc (f :: D) b (List.filter (fun x => decide (x ≠ f)) M)).2 = M'
        simp only [List.mem_filter, List.mem_append, decide_eq_true_eq]
        by_cases h1 : y ∈ env
        · simp only [h1, true_implies] at hy
          by_cases h2 : y ∈ M' <;> simp [h1, h2, hy]
        · by_cases h2 : y ∈ M' <;> simp [h1, h2]
  | .try_ e x t b, D, M, hD, h => by
    obtain ⟨hx, he, rfl⟩ := h
    have ihe := rc_lin e D M hD he
    have h1 : rc D (.op (.variant t) (.cons (.variable x) .nil)) [] = (.op (.variant t) (.cons (.variable x) .nil), [x]) := by
      simp [rc, isForward, rcBackward]
    have h2 : difference M M = [] := by simp [difference]
    simp only [rc, isForward, rcBackward]
    simp only [List.not_mem_nil, and_false, if_false, Bool.false_eq_true]
    have h3 : List.filter (fun x_1 => decide (x_1 ≠ x)) [x] = [] := by simp
    rw [h3]
    simp only [List.nil_append, h2]
    refine ⟨?_, ihe.2⟩
    rw [show ∀ e, dropVariables D [] e = e from fun e => by simp [dropVariables]]
    refine ⟨hx, ihe.1, lin_drop' (O1 := {x}) ⟨trivial, Or.inr ⟨Or.inl rfl, 0, Or.inr ⟨by simp, by simp, by simp⟩, rfl⟩⟩ fun y => ?_⟩
    rw [Multiset.count_cons, Multiset.count_singleton, count_tok hD, count_tok hD]
    simp [mem_difference]
  | .clone xs e, D, M, hD, h => h.elim
  | .drop xs e, D, M, hD, h => h.elim
theorem rcBackward_lin : ∀ (es : Exprs) (D M : List Name), D.Nodup → readyExprs D es → ∀ (scalar first : Bool) (held : List Name),
    (scalar = true ∧ es.atomsButLast = true ∨ first = true ∧ es.toList.length ≤ 1 ∨ es.atoms = true) →
    linExprs D scalar first held (rcBackward D es M).1 (tok D (rcBackward D es M).2) (tok D M) ∧
      ∀ x ∈ M, x ∈ (rcBackward D es M).2
  | .nil, D, M, hD, _, _, _, _, _ => ⟨rfl, fun _ h => h⟩
  | .cons e es, D, M, hD, h, scalar, first, held, hs => by
    simp only [rcBackward]
    have hcons : scalar = true ∧ es.atomsButLast = true ∨ false = true ∧ es.toList.length ≤ 1 ∨ es.atoms = true := by
      rcases hs with h1 | h1 | h1
      · exact Or.inl ⟨h1.1, atomsButLast_cons h1.2⟩
      · have : es = .nil := by cases es <;> simp [Exprs.toList] at h1 ⊢
        subst this
        exact Or.inr (Or.inr rfl)
      · exact Or.inr (Or.inr (atoms_cons h1).2)
    have ihs := fun held => rcBackward_lin es D M hD h.2 scalar false held hcons
    have ih := rc_lin e D (rcBackward D es M).2 hD h.1
    refine ⟨Or.inr ⟨?_, _, ih.1, (ihs _).1⟩, fun x hx => ih.2 x ((ihs []).2 x hx)⟩
    rcases hs with h1 | h1 | h1
    · exact Or.inr (Or.inr h1.1)
    · exact Or.inr (Or.inl h1.1)
    · exact Or.inl (quiet_rc hD _ (atoms_cons h1).1)
theorem rcAlts_lin : ∀ (as : Alts) (D M : List Name), D.Nodup → readyAlts D as → altsOk D M (rcAlts D as M)
  | .nil, _, _, _, _ => by intro r hr; cases hr
  | .cons ts x e as, D, M, hD, h => by
    have hx := h.1.1
    have hD' : (x :: D).Nodup := List.nodup_cons.mpr ⟨hx, hD⟩
    have ih := rc_lin e (x :: D) (M.filter (· ≠ x)) hD' h.1.2
    rw [tok_filter hD' M] at ih
    have ihs := rcAlts_lin as D M hD h.2
    intro r hr
    simp only [rcAlts, own_eq hx] at hr
    rw [List.mem_cons] at hr
    rcases hr with rfl | hr
    · exact ⟨hx, ih.1, fun y hy hne => ih.2 y (by simp [hy, hne])⟩
    · exact ihs r hr
end

/-- Transformed programs handle references correctly. -/
theorem rcGlobal_linear {d : Global} (hn : d.args.Nodup) (h : ready d.args d.body) : (rcGlobal d).linear := by
  have ih := rc_lin d.body d.args [] hn h
  refine ⟨hn, ?_⟩
  simp only [rcGlobal, ownAll_eq hn]
  refine lin_drop' (O1 := tok d.args (rc d.args d.body []).2) ?_ ?_
  · have : tok d.args [] = 0 := by ext x; simp [count_tok hn]
    rw [← this]; exact ih.1
  · intro y
    rw [count_list hn, count_tok hn, count_tok hn]
    simp only [mem_difference]
    by_cases h1 : y ∈ d.args
    · by_cases h2 : y ∈ (rc d.args d.body []).2 <;> simp [h1, h2]
    · simp [h1]

end Verif.Mir
