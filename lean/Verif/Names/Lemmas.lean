import Verif.Names.Resolve
import Verif.Names.Specification

/-! # Lemmas about outlines and the passes -/

namespace Verif.Names

open Verif.Hir

theorem hide_hide (xs Γ Γ' : List String) (σ : String → Expr) (h : ∀ x, x ∈ Γ' ↔ x ∈ xs ∨ x ∈ Γ) :
    hide xs (hide Γ σ) = hide Γ' σ := by
  funext x
  unfold hide
  by_cases h1 : x ∈ xs
  · simp [h1, h]
  · by_cases h2 : x ∈ Γ <;> simp [h1, h2, h]

theorem parts_mkCall (Γ : List String) (t : Option Ty) (f : Expr) (args : List Expr) :
    parts Γ (mkCall t f args)
      = some (.call none .none (args.map fun _ => .none), [t], (f :: args).map (Γ, ·)) := by
  cases f <;> rfl

theorem mapBranches_kind (rec : (String → Expr) → Expr → Expr) :
    ∀ (bs : List (Branch Expr)) (σ : String → Expr), (mapBranches rec σ bs).1.map branchKind = bs.map branchKind
      ∧ (mapBranches rec σ bs).1.flatMap branchTypes = bs.flatMap branchTypes
  | [], _ => ⟨rfl, rfl⟩
  | b :: bs, σ => by
    have := mapBranches_kind rec bs (hide b.names σ)
    constructor
    · simp only [mapBranches, List.map_cons, this.1]
      cases b with
      | mk n i c => cases c <;> simp [branchKind, Function.comp_def]
    · simp only [mapBranches, List.flatMap_cons, this.2]
      simp [branchTypes]

theorem mapBranches_parts (rec : (String → Expr) → Expr → Expr) (σ : String → Expr) :
    ∀ (bs : List (Branch Expr)) (Γ : List String),
      (branchParts Γ (mapBranches rec (hide Γ σ) bs).1).1
          = (branchParts Γ bs).1.map (fun p => (p.1, rec (hide p.1 σ) p.2))
        ∧ (branchParts Γ (mapBranches rec (hide Γ σ) bs).1).2 = (branchParts Γ bs).2
        ∧ (mapBranches rec (hide Γ σ) bs).2 = hide (branchParts Γ bs).2 σ
  | [], _ => ⟨rfl, rfl, rfl⟩
  | b :: bs, Γ => by
    have e : hide b.names (hide Γ σ) = hide (b.names.reverse ++ Γ) σ := hide_hide _ _ _ _ (by simp)
    have := mapBranches_parts rec σ bs (b.names.reverse ++ Γ)
    simp only [mapBranches, branchParts, e]
    refine ⟨?_, this.2.1, this.2.2⟩
    rw [this.1]
    cases b with
    | mk n i c => cases c <;> simp

/-- Transforming the variables of an expression transforms its parts, with the local variables of each part
kept. -/
theorem parts_mapVariables (rec : (String → Expr) → Expr → Expr) (hb : ∀ σ b, rec σ (.builtIn b) = .builtIn b)
    (σ : String → Expr) (Γ : List String) (e : Expr) {k ts ps} (h : parts Γ e = some (k, ts, ps)) :
    parts Γ (mapVariablesStep rec (hide Γ σ) e)
      = some (k, ts, ps.map fun p => (p.1, rec (hide p.1 σ) p.2)) := by
  cases e with
  | call t f args =>
    simp only [parts, Option.some.injEq, Prod.mk.injEq] at h
    obtain ⟨rfl, rfl, rfl⟩ := h
    simp [mapVariablesStep, parts_mkCall, Function.comp_def]
  | builtInCall t b args =>
    simp only [parts, Option.some.injEq, Prod.mk.injEq] at h
    obtain ⟨rfl, rfl, rfl⟩ := h
    simp [mapVariablesStep, parts, Function.comp_def, hb]
  | comprehension t e b bs =>
    simp only [parts, Option.some.injEq, Prod.mk.injEq] at h
    obtain ⟨rfl, rfl, rfl⟩ := h
    have h1 := mapBranches_kind rec (b :: bs) (hide Γ σ)
    have h2 := mapBranches_parts rec σ (b :: bs) Γ
    simp only [mapVariablesStep]
    revert h1 h2
    generalize mapBranches rec (hide Γ σ) (b :: bs) = r
    rcases r with ⟨_ | ⟨b', bs'⟩, σ'⟩
    · simp
    · intro h1 h2
      simp only [List.map_cons, List.cons.injEq] at h1
      simp only at h2
      simp only [parts, h1.1.1, h1.1.2, h1.2, h2.1, h2.2.1, h2.2.2, List.map_append, List.map_cons, List.map_nil]
  | ifList t l f r a b =>
    simp only [parts, Option.some.injEq, Prod.mk.injEq] at h
    obtain ⟨rfl, rfl, rfl⟩ := h
    simp [mapVariablesStep, parts, Function.comp_def, hide_hide [f, r] Γ (r :: f :: Γ) σ (by intro x; simp; grind)]
  | ifMap k v n m key a b =>
    simp only [parts, Option.some.injEq, Prod.mk.injEq] at h
    obtain ⟨rfl, rfl, rfl⟩ := h
    simp [mapVariablesStep, parts, Function.comp_def, hide_hide [n] Γ (n :: Γ) σ (by intro x; simp)]
  | ifType n a bs els =>
    simp only [parts, Option.some.injEq, Prod.mk.injEq] at h
    obtain ⟨rfl, rfl, rfl⟩ := h
    cases els <;> simp [mapVariablesStep, parts, Function.comp_def, hide_hide [n] Γ (n :: Γ) σ (by intro x; simp)]
  | lambda ps r b =>
    simp only [parts, Option.some.injEq, Prod.mk.injEq] at h
    obtain ⟨rfl, rfl, rfl⟩ := h
    simp [mapVariablesStep, parts, Function.comp_def,
      hide_hide (ps.map (·.1)) Γ ((ps.map (·.1)).reverse ++ Γ) σ (by intro x; simp)]
  | let_ n t a b =>
    simp only [parts, Option.some.injEq, Prod.mk.injEq] at h
    obtain ⟨rfl, rfl, rfl⟩ := h
    simp [mapVariablesStep, parts, Function.comp_def, hide_hide n.toList Γ (n.toList ++ Γ) σ (by intro x; simp)]
  | list t es =>
    simp only [parts, Option.some.injEq, Prod.mk.injEq] at h
    obtain ⟨rfl, rfl, rfl⟩ := h
    simp only [mapVariablesStep, parts, List.map_map, Option.some.injEq, Prod.mk.injEq, Expr.list.injEq, true_and]
    refine ⟨List.map_congr_left fun x _ => ?_, List.map_congr_left fun x _ => ?_⟩ <;> cases x <;> rfl
  | map k v es =>
    simp only [parts, Option.some.injEq, Prod.mk.injEq] at h
    obtain ⟨rfl, rfl, rfl⟩ := h
    simp only [mapVariablesStep, parts, List.map_map, Option.some.injEq, Prod.mk.injEq, Expr.map.injEq, true_and]
    refine ⟨List.map_congr_left fun x _ => ?_, ?_⟩
    · cases x <;> rfl
    · induction es with
      | nil => rfl
      | cons x xs ih =>
        simp only [List.map_cons, List.flatMap_cons, List.map_append, ih, List.append_cancel_right_eq]
        cases x <;> rfl
  | boolean _ => simp [parts] at h
  | none => simp [parts] at h
  | number _ => simp [parts] at h
  | string _ => simp [parts] at h
  | «variable» _ => simp [parts] at h
  | builtIn _ => simp [parts] at h
  | _ =>
    simp only [parts, Option.some.injEq, Prod.mk.injEq] at h
    obtain ⟨rfl, rfl, rfl⟩ := h
    simp [mapVariablesStep, parts, Function.comp_def]

theorem mapVariables_builtIn (d : Nat) (σ : String → Expr) (b : BuiltIn) :
    mapVariables d σ (.builtIn b) = .builtIn b := by
  cases d <;> rfl

/-- Transforming the types of an expression transforms the types written in it and its parts. -/
theorem parts_mapTypes (f : Ty → Ty) (rec : Expr → Expr) (hb : ∀ b, rec (.builtIn b) = .builtIn b)
    (Γ : List String) (e : Expr) {k ts ps} (h : parts Γ e = some (k, ts, ps)) :
    parts Γ (mapTypesStep f rec e)
      = some (k, ts.map (Option.map f), ps.map fun p => (p.1, rec p.2)) := by
  cases e with
  | call t g args =>
    simp only [parts, Option.some.injEq, Prod.mk.injEq] at h
    obtain ⟨rfl, rfl, rfl⟩ := h
    simp [mapTypesStep, parts_mkCall, Function.comp_def]
  | builtInCall t b args =>
    simp only [parts, Option.some.injEq, Prod.mk.injEq] at h
    obtain ⟨rfl, rfl, rfl⟩ := h
    simp [mapTypesStep, parts, hb, Function.comp_def]
  | comprehension t e b bs =>
    simp only [parts, Option.some.injEq, Prod.mk.injEq] at h
    obtain ⟨rfl, rfl, rfl⟩ := h
    let branch := fun (b : Branch Expr) => ({
      names := b.names
      iteratees := b.iteratees.map fun i => (i.1.map f, rec i.2)
      condition := b.condition.map rec } : Branch Expr)
    have h1 : ∀ b, branchKind (branch b) = branchKind b := by
      intro b; cases b with | mk n i c => cases c <;> simp [branch, branchKind, Function.comp_def]
    have h2 : ∀ b, branchTypes (branch b) = (branchTypes b).map (Option.map f) := by
      intro b; simp [branch, branchTypes]
    have h3 : ∀ (bs : List (Branch Expr)) Γ, (branchParts Γ (bs.map branch)).1
          = (branchParts Γ bs).1.map (fun p => (p.1, rec p.2))
        ∧ (branchParts Γ (bs.map branch)).2 = (branchParts Γ bs).2 := by
      intro bs
      induction bs with
      | nil => intro Γ; exact ⟨rfl, rfl⟩
      | cons b bs ih =>
        intro Γ
        have := ih (b.names.reverse ++ Γ)
        simp only [List.map_cons, branchParts]
        refine ⟨?_, this.2⟩
        rw [show (branch b).names = b.names from rfl, this.1]
        cases b with
        | mk n i c => cases c <;> simp [branch]
    have h4 := h3 (b :: bs) Γ
    simp only [mapTypesStep, parts]
    simp only [List.map_cons] at h4
    simp only [Option.some.injEq, Prod.mk.injEq, Expr.comprehension.injEq]
    refine ⟨⟨trivial, trivial, h1 b, ?_⟩, ?_, ?_⟩
    · rw [List.map_map]; exact List.map_congr_left fun x _ => h1 x
    · have : ∀ bs : List (Branch Expr), (bs.map branch).flatMap branchTypes
          = (bs.flatMap branchTypes).map (Option.map f) := by
        intro bs; induction bs with
        | nil => rfl
        | cons b bs ih => simp [ih, h2]
      have := this (b :: bs)
      simp only [List.map_cons] at this ⊢
      rw [← this]; rfl
    · rw [List.map_append, ← h4.1, List.map_cons, List.map_nil]
      show _ = _ ++ [((branchParts Γ (b :: bs)).2, rec e)]
      rw [← h4.2]
  | ifType n a bs els =>
    simp only [parts, Option.some.injEq, Prod.mk.injEq] at h
    obtain ⟨rfl, rfl, rfl⟩ := h
    cases els <;> simp [mapTypesStep, parts, Function.comp_def]
  | lambda ps r b =>
    simp only [parts, Option.some.injEq, Prod.mk.injEq] at h
    obtain ⟨rfl, rfl, rfl⟩ := h
    simp [mapTypesStep, parts, Function.comp_def]
  | list t es =>
    simp only [parts, Option.some.injEq, Prod.mk.injEq] at h
    obtain ⟨rfl, rfl, rfl⟩ := h
    simp only [mapTypesStep, parts, List.map_map, Option.some.injEq, Prod.mk.injEq, Expr.list.injEq, true_and]
    refine ⟨List.map_congr_left fun x _ => ?_, rfl, List.map_congr_left fun x _ => ?_⟩ <;> cases x <;> rfl
  | map k v es =>
    simp only [parts, Option.some.injEq, Prod.mk.injEq] at h
    obtain ⟨rfl, rfl, rfl⟩ := h
    simp only [mapTypesStep, parts, List.map_map, Option.some.injEq, Prod.mk.injEq, Expr.map.injEq, true_and]
    refine ⟨List.map_congr_left fun x _ => ?_, rfl, ?_⟩
    · cases x <;> rfl
    · induction es with
      | nil => rfl
      | cons x xs ih =>
        simp only [List.map_cons, List.flatMap_cons, List.map_append, ih, List.append_cancel_right_eq]
        cases x <;> rfl
  | boolean _ => simp [parts] at h
  | none => simp [parts] at h
  | number _ => simp [parts] at h
  | string _ => simp [parts] at h
  | «variable» _ => simp [parts] at h
  | builtIn _ => simp [parts] at h
  | _ =>
    simp only [parts, Option.some.injEq, Prod.mk.injEq] at h
    obtain ⟨rfl, rfl, rfl⟩ := h
    simp [mapTypesStep, parts, Function.comp_def]

theorem mapTypes_builtIn (f : Ty → Ty) (d : Nat) (b : BuiltIn) : mapTypes f d (.builtIn b) = .builtIn b := by
  cases d <;> rfl

/-- A transformation of variables that captures nothing: it maps a variable to itself, to a variable that is
never local, or to an expression without parts. -/
def Neat (P : String → Prop) (σ : String → Expr) : Prop :=
  ∀ x, match σ x with
    | .variable y => y = x ∨ ¬ P y
    | e => ∀ Γ, parts Γ e = none

theorem outline_mapVariables (P : String → Prop) (σ : String → Expr) (hσ : Neat P σ) :
    ∀ (d D : Nat), d ≤ D → ∀ (Γ : List String) (e : Expr), (∀ x ∈ Γ, P x) → localsAll P d Γ e →
      outline d Γ (mapVariables D (hide Γ σ) e) = (outline d Γ e).resolve σ id := by
  intro d
  induction d with
  | zero => intro D _ Γ e _ _; simp [outline, Outline.resolve]
  | succ d ih =>
    intro D hD Γ e hΓ hl
    obtain ⟨D, rfl⟩ : ∃ D', D = D' + 1 := ⟨D - 1, by omega⟩
    simp only [mapVariables]
    cases hp : parts Γ e with
    | some r =>
      obtain ⟨k, ts, ps⟩ := r
      have := parts_mapVariables (mapVariables D) (fun σ b => mapVariables_builtIn D σ b) σ Γ e hp
      simp only [outline, this, hp, Outline.resolve, Option.map_id_fun, List.map_id_fun, id_eq, List.map_map]
      congr 1
      refine List.map_congr_left fun p hpm => ?_
      have hlp := hl k ts ps hp p hpm
      exact ih D (by omega) p.1 p.2 hlp.1 hlp.2
    | none =>
      cases e with
      | «variable» x =>
        simp only [mapVariablesStep, hide]
        by_cases hx : x ∈ Γ
        · simp [hx, outline, parts, Outline.resolve]
        · simp only [hx, if_false]
          have := hσ x
          revert this
          cases hs : σ x with
          | «variable» y =>
            intro this
            simp only at this
            have hy : y ∉ Γ := by
              rcases this with rfl | h
              · exact hx
              · exact fun hy => h (hΓ y hy)
            simp [outline, parts, hy, hx, Outline.resolve, hs]
          | _ => intro this; first | (simp [parts] at this; done) | simp [outline, parts, hx, Outline.resolve, hs]
      | boolean _ => simp [outline, parts, mapVariablesStep, Outline.resolve]
      | none => simp [outline, parts, mapVariablesStep, Outline.resolve]
      | number _ => simp [outline, parts, mapVariablesStep, Outline.resolve]
      | string _ => simp [outline, parts, mapVariablesStep, Outline.resolve]
      | builtIn _ => simp [outline, parts, mapVariablesStep, Outline.resolve]
      | _ => simp [parts] at hp

theorem localsAll_mapVariables (P : String → Prop) (σ : String → Expr) (hσ : Neat P σ) :
    ∀ (d D : Nat), d ≤ D → ∀ (Γ : List String) (e : Expr), localsAll P d Γ e →
      localsAll P d Γ (mapVariables D (hide Γ σ) e) := by
  intro d
  induction d with
  | zero => intros; trivial
  | succ d ih =>
    intro D hD Γ e hl
    obtain ⟨D, rfl⟩ : ∃ D', D = D' + 1 := ⟨D - 1, by omega⟩
    simp only [mapVariables]
    cases hp : parts Γ e with
    | some r =>
      obtain ⟨k, ts, ps⟩ := r
      have := parts_mapVariables (mapVariables D) (fun σ b => mapVariables_builtIn D σ b) σ Γ e hp
      intro k' ts' ps' h
      rw [this] at h
      simp only [Option.some.injEq, Prod.mk.injEq] at h
      obtain ⟨rfl, rfl, rfl⟩ := h
      intro p hpm
      simp only [List.mem_map] at hpm
      obtain ⟨q, hq, rfl⟩ := hpm
      have hlp := hl k ts ps hp q hq
      exact ⟨hlp.1, ih D (by omega) q.1 q.2 hlp.2⟩
    | none =>
      intro k ts ps h
      exfalso
      cases e with
      | «variable» x =>
        simp only [mapVariablesStep, hide] at h
        by_cases hx : x ∈ Γ
        · simp [hx, parts] at h
        · simp only [hx, if_false] at h
          have := hσ x
          revert this h
          cases σ x with
          | «variable» y => intro h; simp [parts] at h
          | _ => intro h this; rw [this Γ] at h; cases h
      | boolean _ => simp [parts, mapVariablesStep] at h
      | none => simp [parts, mapVariablesStep] at h
      | number _ => simp [parts, mapVariablesStep] at h
      | string _ => simp [parts, mapVariablesStep] at h
      | builtIn _ => simp [parts, mapVariablesStep] at h
      | _ => simp [parts] at hp

theorem outline_mapTypes (f : Ty → Ty) :
    ∀ (d D : Nat), d ≤ D → ∀ (Γ : List String) (e : Expr),
      outline d Γ (mapTypes f D e) = (outline d Γ e).resolve .variable f := by
  intro d
  induction d with
  | zero => intro D _ Γ e; simp [outline, Outline.resolve]
  | succ d ih =>
    intro D hD Γ e
    obtain ⟨D, rfl⟩ : ∃ D', D = D' + 1 := ⟨D - 1, by omega⟩
    simp only [mapTypes]
    cases hp : parts Γ e with
    | some r =>
      obtain ⟨k, ts, ps⟩ := r
      have := parts_mapTypes f (mapTypes f D) (mapTypes_builtIn f D) Γ e hp
      simp only [outline, this, hp, Outline.resolve, List.map_map]
      congr 1
      refine List.map_congr_left fun p hpm => ?_
      exact ih D (by omega) p.1 p.2
    | none =>
      cases e with
      | «variable» x =>
        simp only [mapTypesStep, outline, parts]
        by_cases hx : x ∈ Γ <;> simp [hx, Outline.resolve]
      | boolean _ => simp [outline, parts, mapTypesStep, Outline.resolve]
      | none => simp [outline, parts, mapTypesStep, Outline.resolve]
      | number _ => simp [outline, parts, mapTypesStep, Outline.resolve]
      | string _ => simp [outline, parts, mapTypesStep, Outline.resolve]
      | builtIn _ => simp [outline, parts, mapTypesStep, Outline.resolve]
      | _ => simp [parts] at hp

theorem localsAll_mapTypes (P : String → Prop) (f : Ty → Ty) :
    ∀ (d D : Nat), d ≤ D → ∀ (Γ : List String) (e : Expr), localsAll P d Γ e →
      localsAll P d Γ (mapTypes f D e) := by
  intro d
  induction d with
  | zero => intros; trivial
  | succ d ih =>
    intro D hD Γ e hl
    obtain ⟨D, rfl⟩ : ∃ D', D = D' + 1 := ⟨D - 1, by omega⟩
    simp only [mapTypes]
    cases hp : parts Γ e with
    | some r =>
      obtain ⟨k, ts, ps⟩ := r
      have := parts_mapTypes f (mapTypes f D) (mapTypes_builtIn f D) Γ e hp
      intro k' ts' ps' h
      rw [this] at h
      simp only [Option.some.injEq, Prod.mk.injEq] at h
      obtain ⟨rfl, rfl, rfl⟩ := h
      intro p hpm
      simp only [List.mem_map] at hpm
      obtain ⟨q, hq, rfl⟩ := hpm
      have hlp := hl k ts ps hp q hq
      exact ⟨hlp.1, ih D (by omega) q.1 q.2 hlp.2⟩
    | none =>
      intro k ts ps h
      exfalso
      cases e with
      | «variable» x => simp [parts, mapTypesStep] at h
      | boolean _ => simp [parts, mapTypesStep] at h
      | none => simp [parts, mapTypesStep] at h
      | number _ => simp [parts, mapTypesStep] at h
      | string _ => simp [parts, mapTypesStep] at h
      | builtIn _ => simp [parts, mapTypesStep] at h
      | _ => simp [parts] at hp

/-- One transformation of variables after another. -/
def follow (σ τ : String → Expr) (x : String) : Expr :=
  match σ x with
  | .variable y => τ y
  | e => e

theorem resolve_resolve (σ τ : String → Expr) (f g : Ty → Ty) :
    ∀ o : Outline, (o.resolve σ f).resolve τ g = o.resolve (follow σ τ) (fun t => g (f t)) := by
  intro o
  induction o using Outline.resolve.induct with
  | case1 i => simp [Outline.resolve]
  | case2 x =>
    simp only [Outline.resolve, follow]
    cases σ x <;> simp [Outline.resolve]
  | case3 e h => cases e <;> first | (simp at h; done) | simp [Outline.resolve]
  | case4 k ts ps ih =>
    simp only [Outline.resolve, List.map_map, Outline.node.injEq, true_and]
    refine ⟨List.map_congr_left fun t _ => ?_, List.map_congr_left fun p hp => ih p hp⟩
    cases t <;> rfl

theorem resolve_congr {σ τ : String → Expr} {f g : Ty → Ty} (h : ∀ x, σ x = τ x) (h' : ∀ t, f t = g t)
    (o : Outline) : o.resolve σ f = o.resolve τ g := by
  rw [show σ = τ from funext h, show f = g from funext h']

end Verif.Names
