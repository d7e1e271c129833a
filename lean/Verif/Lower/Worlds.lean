import Verif.Lower.Programs

/-! # Worlds -/

namespace Verif.Lower

open Verif.Hir (Ty Ctx Expr Module Definition RecordField Val Out)
open Verif

variable {K : Config} {a : Nat} {S : List Ty} {m : Module}

mutual
/-- Native code sees the same of all representations of a value. -/
theorem Rel.obs_eq : ∀ {v : Val} {u u' : Mir.Value}, Rel K a S m v u → Rel K a S m v u' → u.obs = u'.obs
  | _, _, _, .none, h => by cases h; rfl
  | _, _, _, .boolean _, h => by cases h; rfl
  | _, _, _, .number _, h => by cases h; rfl
  | _, _, _, .string _, h => by cases h; rfl
  | _, _, _, .error h, h' => by
    cases h' with
    | error h' => simp only [Mir.Value.obs, Mir.Value.obsList, h.obs_eq h']
  | _, _, _, .record h1 h2, h' => by
    cases h' with
    | record g1 g2 =>
      rw [h1] at g1
      cases g1
      simp only [Mir.Value.obs, h2.obs_eq g2]
  | _, _, _, .closure _ _ _ _ _ _ _, h' => by cases h' <;> rfl
  | _, _, _, .definition _, h' => by
    generalize hv : Val.closure _ _ _ = v at h'
    cases h' <;> first | rfl | cases hv
  | _, _, _, .foreign _ _ _, h' => by cases h'; rfl
  | _, _, _, @Rel.variant _ _ _ _ tag _ _ _ h2, h' => by
    cases h' with
    | variant _ h' =>
      have := h2.obs_eq h'
      simp only [Mir.Value.obs, box_eq]
      by_cases hb : boxed tag = true <;> simp only [hb, if_true, if_false, Bool.false_eq_true, Mir.Value.obs, Mir.Value.obsList, this]
theorem RelFields.obs_eq : ∀ {fs : List (String × Val)} {ts : List RecordField} {us us' : List Mir.Value},
    RelFields K a S m fs ts us → RelFields K a S m fs ts us' → Mir.Value.obsList us = Mir.Value.obsList us'
  | _, _, _, _, .nil, h => by cases h; rfl
  | _, _, _, _, .cons h1 h2 h3, h => by
    cases h with
    | cons g1 g2 g3 =>
      rw [h1] at g1
      cases g1
      simp only [Mir.Value.obsList, h2.obs_eq g2, h3.obs_eq g3]
end

theorem obsRel_eq {v : Val} {o o' : Mir.Obs} (h : ObsRel K a S m v o) (h' : ObsRel K a S m v o') : o = o' := by
  obtain ⟨u, h1, rfl⟩ := h
  obtain ⟨u', h2, rfl⟩ := h'
  exact h1.obs_eq h2

theorem obsRels_eq : ∀ {vs : List Val} {os os' : List Mir.Obs}, List.Forall₂ (ObsRel K a S m) vs os →
    List.Forall₂ (ObsRel K a S m) vs os' → os = os'
  | _, _, _, .nil, .nil => rfl
  | _, _, _, .cons h hs, .cons h' hs' => by rw [obsRel_eq h h', obsRels_eq hs hs']

theorem eventRels_eq : ∀ {l : Hir.Log} {l' l'' : Mir.Log}, List.Forall₂ (EventRel K a S m) l l' →
    List.Forall₂ (EventRel K a S m) l l'' → l' = l''
  | _, _, _, .nil, .nil => rfl
  | _, _, _, @List.Forall₂.cons _ _ _ _ ⟨x, as, r⟩ _ _ h hs, @List.Forall₂.cons _ _ _ _ ⟨x', as', r'⟩ _ _ h' hs' => by
    rw [eventRels_eq hs hs']
    obtain ⟨h1, h2, h3⟩ := h
    obtain ⟨g1, g2, g3⟩ := h'
    simp only at h1 h2 h3 g1 g2 g3
    rw [← h1, ← g1, obsRels_eq h2 g2, obsRel_eq h3 g3]

theorem rels_obs : ∀ {vs : List Val} {us us' : List Mir.Value}, List.Forall₂ (Rel K a S m) vs us →
    List.Forall₂ (Rel K a S m) vs us' → Mir.Value.obsList us = Mir.Value.obsList us'
  | _, _, _, .nil, .nil => rfl
  | _, _, _, .cons h hs, .cons h' hs' => by simp only [Mir.Value.obsList, h.obs_eq h', rels_obs hs hs']

/-- Systems: numbers are what they are in `W`, the function that compares strings does, results of other functions do not
depend on its calls, and are values of the declared types. -/
structure System (K : Config) (a : Nat) (S : List Ty) (m : Module) (W : Hir.World) (w : Mir.World) : Prop where
  add : ∀ i j, w.arithmetic .add i j = W.add i j
  arithmetic : SameArithmetic W w
  compare : SameComparison W w
  equalNumbers : ∀ i j, w.comparison .equal i j = W.equalNumbers i j
  stringEqual : ∀ log s t, w.foreign log K.stringEqual [.string s, .string t] = .boolean (s == t)
  silent : ∀ l l' x os, x ≠ K.stringEqual → l.filter (fun e => e.name != K.stringEqual) = l'.filter (fun e => e.name != K.stringEqual) →
    w.foreign l x os = w.foreign l' x os
  results : ∀ x ∈ m.declarations.map (·.1), ∀ l os, ∃ u v, (w.foreign l x os).value = some u ∧
    Rel K a S m v u ∧ ∀ d as c, Hir.lastLookup m.declarations x = some d →
      Hir.Canon m.ctx.types (.function d.1 d.2) (.function as c) → Hir.HasType m v c

open Classical in
/-- For every such system there is a world of the source language that is the same for the program. -/
theorem System.world {W : Hir.World} {w : Mir.World} (h : System K a S m W w) :
    ∃ f, Agree K a S m { W with call := f } w ∧ Hir.WorldOk m { W with call := f } := by
  have pick : ∀ l x (vs : List Val), ∃ v, x ∈ m.declarations.map (·.1) →
      ((∀ l' us, x ≠ K.stringEqual → LogRel K a S m l l' → List.Forall₂ (Rel K a S m) vs us →
        ∃ u, (w.foreign l' x (Mir.Value.obsList us)).value = some u ∧ Rel K a S m v u) ∧
      ∀ d as c, Hir.lastLookup m.declarations x = some d →
        Hir.Canon m.ctx.types (.function d.1 d.2) (.function as c) → Hir.HasType m v c) := by
    intro l x vs
    by_cases hx : x ∈ m.declarations.map (·.1)
    · by_cases he : ∃ l' us, LogRel K a S m l l' ∧ List.Forall₂ (Rel K a S m) vs us
      · obtain ⟨l0, us0, g1, g2⟩ := he
        obtain ⟨u, v, h1, h2, h3⟩ := h.results x hx l0 (Mir.Value.obsList us0)
        refine ⟨v, fun _ => ⟨fun l' us hne hl hvs => ⟨u, ?_, h2⟩, h3⟩⟩
        rw [rels_obs hvs g2, h.silent l' l0 x _ hne (eventRels_eq hl g1)]
        exact h1
      · obtain ⟨u, v, h1, h2, h3⟩ := h.results x hx [] []
        exact ⟨v, fun _ => ⟨fun l' us _ hl hvs => (he ⟨l', us, hl, hvs⟩).elim, h3⟩⟩
    · exact ⟨.none, fun h => (hx h).elim⟩
  choose f hf using pick
  refine ⟨f, ⟨h.add, h.arithmetic, h.compare, h.equalNumbers, h.stringEqual, ?_⟩, ?_⟩
  · intro x hx hne l l' vs us hl hvs
    exact (hf l x vs hx).1 l' us hne hl hvs
  · intro l x d as c args hx hc _
    refine (hf l x args ?_).2 d as c hx hc
    unfold Hir.lastLookup at hx
    rw [Option.map_eq_some_iff] at hx
    obtain ⟨y, h1, _⟩ := hx
    have h2 := List.mem_of_find?_eq_some h1
    have h3 := List.find?_some h1
    exact List.mem_map.mpr ⟨y, by simpa using h2, by simpa using h3⟩

end Verif.Lower
