import Verif.Lower.Relation
import Verif.Hir.DifferenceLemmas
import Verif.Hir.Soundness

/-!
# Lowered expressions do what the source does
-/

namespace Verif.Lower

open Verif.Hir (Ty Ctx Expr Module Definition RecordField Val Out)
open Verif

variable {K : Config} {a : Nat} {S : List Ty} {m : Module} {q : Bool} {W : Hir.World} {w : Mir.World} {p : Mir.Program}

/-! ## Sequencing -/

section
variable (K a S m q)
/-- The same outcomes after the same effects. -/
def Sim {α β : Type} (R : α → β → Prop) (x : Out α) (y : Mir.Log → Mir.R β) : Prop :=
  ∀ l l', LogRel K a S m l l' → ResRel K a S m q R (x l) (y l')
end

theorem resRel_timeout {α β : Type} {R : α → β → Prop} (h : q = false) (x : Hir.Result α) :
    ResRel K a S m q R x .timeout := by
  cases x <;> first | exact h | trivial

theorem resRel_more {α β : Type} {R : α → β → Prop} (h : q = true) (y : Mir.R β) :
    ResRel K a S m q R .more y := by
  cases y <;> first | exact h | trivial

theorem Sim.bind {α β γ δ : Type} {R : α → β → Prop} {Q : γ → δ → Prop} {x : Out α} {y : Mir.Log → Mir.R β}
    {f : α → Out γ} {g : β → Mir.Log → Mir.R δ} (h : Sim K a S m q R x y)
    (hf : ∀ u v, R u v → Sim K a S m q Q (f u) (g v)) : Sim K a S m q Q (x >>= f) (fun l => (y l).bind g) := by
  intro l l' hl
  have h1 := h l l' hl
  show ResRel K a S m q Q (Out.bind x f l) _
  unfold Out.bind Mir.R.bind
  cases hx : x l <;> cases hy : y l' <;> simp only [hx, hy] at h1 ⊢ <;>
    first
    | exact h1.elim
    | exact hf _ _ h1.1 _ _ h1.2
    | exact h1
    | exact resRel_timeout h1 _
    | exact resRel_more h1 _
    | trivial

theorem Sim.val {α β : Type} {R : α → β → Prop} {u : α} {v : β} (h : R u v) : Sim K a S m q R (Out.val u) (fun l => .ok v l) :=
  fun _ _ hl => ⟨h, hl⟩

theorem Sim.pure {α β : Type} {R : α → β → Prop} {u : α} {v : β} (h : R u v) : Sim K a S m q R (Out.val u) (Mir.R.ok v) :=
  fun _ _ hl => ⟨h, hl⟩

theorem Sim.stuck {α β : Type} {R : α → β → Prop} {y : Mir.Log → Mir.R β} : Sim K a S m q R Out.stuck y := by
  intro _ _ _
  simp [Out.stuck, ResRel]

theorem Sim.noReturn {α β : Type} {R : α → β → Prop} {x : Out α} {y : Mir.Log → Mir.R β} (h : Sim K a S m q R x y) :
    Sim K a S m q R x.noReturn y := by
  intro l l' hl
  have h1 := h l l' hl
  unfold Out.noReturn
  cases hx : x l <;> rw [hx] at h1 <;> first | exact h1 | simp [ResRel]

theorem Sim.absorb {x : Out Val} {y : Mir.Log → Mir.R Mir.Value} (h : Sim K a S m q (Rel K a S m) x y) :
    Sim K a S m q (Rel K a S m) x.absorb (fun l => (y l).catch) := by
  intro l l' hl
  have h1 := h l l' hl
  unfold Out.absorb Mir.R.catch
  cases hx : x l <;> cases hy : y l' <;> simp only [hx, hy, ResRel] at h1 ⊢ <;> exact h1

theorem Sim.mono {α β : Type} {R Q : α → β → Prop} {x : Out α} {y : Mir.Log → Mir.R β} (h : Sim K a S m q R x y)
    (hq : ∀ u v, R u v → Q u v) : Sim K a S m q Q x y := by
  intro l l' hl
  have h1 := h l l' hl
  cases hx : x l <;> cases hy : y l' <;> rw [hx, hy] at h1 <;>
    first
    | exact h1.elim
    | exact ⟨hq _ _ h1.1, h1.2⟩
    | exact h1
    | trivial

/-! ## Environments -/

theorem plainName_ne {x : String} (h : plainName K x = true) : x ≠ K.stringEqual := by
  rintro rfl
  simp [plainName] at h

theorem plainName_internal {x : String} (h : plainName K x = true) : internal x = false := by
  simp only [plainName, Bool.and_eq_true, Bool.not_eq_true'] at h
  exact h.1

theorem EnvRel.set {env : Hir.Env} {ρ : Mir.Env} (h : EnvRel K a S m env ρ) {v : Val} {u : Mir.Value}
    (hv : Rel K a S m v u) {x : String} (hx : plainName K x = true) : EnvRel K a S m (env.insert x v) (ρ.set x u) := by
  refine ⟨?_, fun y hy => ?_⟩
  · unfold Mir.Env.set
    rw [if_neg (plainName_ne hx).symm]
    exact h.1
  · unfold Hir.Env.insert Mir.Env.set
    by_cases hx : y = x
    · simp [hx, hv]
    · simp only [hx, if_false]
      exact h.2 y hy

theorem EnvRel.skip {env : Hir.Env} {ρ : Mir.Env} (h : EnvRel K a S m env ρ) (hK : internal K.stringEqual = false)
    {x : String} (hx : internal x = true) (u : Mir.Value) : EnvRel K a S m env (ρ.set x u) := by
  refine ⟨?_, fun y hy => ?_⟩
  · unfold Mir.Env.set
    rw [if_neg (by rintro rfl; rw [hK] at hx; cases hx)]
    exact h.1
  · unfold Mir.Env.set
    rw [if_neg (by rintro rfl; rw [plainName_internal hy] at hx; cases hx)]
    exact h.2 y hy

theorem EnvRel.empty : EnvRel K a S m (fun _ => none) (fun _ => none) := by
  refine ⟨rfl, ?_⟩
  intro _ _
  trivial

theorem EnvRel.setMany : ∀ {xs : List String} {vs : List Val} {us : List Mir.Value} {env : Hir.Env} {ρ : Mir.Env},
    EnvRel K a S m env ρ → (∀ x ∈ xs, plainName K x = true) → List.Forall₂ (Rel K a S m) vs us → xs.length = vs.length →
    ∃ ρ', ρ.setMany xs us = some ρ' ∧ EnvRel K a S m (env.insertAll (xs.zip vs)) ρ'
  | [], [], [], env, ρ, h, _, _, _ => ⟨ρ, rfl, h⟩
  | x :: xs, v :: vs, u :: us, env, ρ, h, hx, hv, hl => by
    cases hv with
    | cons h1 h2 =>
      obtain ⟨ρ', h3, h4⟩ := EnvRel.setMany (xs := xs) (h.set h1 (hx x (by simp))) (fun y hy => hx y (by simp [hy])) h2
        (by simpa using hl)
      exact ⟨ρ', h3, h4⟩
  | [], _ :: _, _, _, _, _, _, _, hl => by simp at hl
  | _ :: _, [], _, _, _, _, _, _, hl => by simp at hl

theorem envRel_closure {env : Hir.Env} {ρ : Mir.Env} : EnvRel K a S m env ρ ↔ ρ K.stringEqual = none ∧
    (∀ x, plainName K x = true → env x = Option.none → ρ x = Option.none) ∧
    (∀ x v, plainName K x = true → env x = some v → ρ x ≠ Option.none) ∧
    (∀ x v w, plainName K x = true → env x = some v → ρ x = some w → Rel K a S m v w) := by
  constructor
  · intro h
    refine ⟨h.1, fun x hx he => ?_, fun x v hx he hn => ?_, fun x v u hx he hr => ?_⟩
    · have := h.2 x hx
      rw [he] at this
      cases hr : ρ x with
      | none => rfl
      | some u => rw [hr] at this; exact this.elim
    · have := h.2 x hx
      rw [he, hn] at this
      exact this
    · have := h.2 x hx
      rw [he, hr] at this
      exact this
  · rintro ⟨h0, h1, h2, h3⟩
    refine ⟨h0, fun x hx => ?_⟩
    cases he : env x with
    | none => rw [h1 x hx he]; trivial
    | some v =>
      cases hr : ρ x with
      | none => exact (h2 x v hx he hr).elim
      | some u => exact h3 x v u hx he hr

/-! ## Names lowering makes up -/

theorem internal_closure : internal "$closure" = true := by decide
theorem internal_error : internal "$error" = true := by decide
theorem internal_source : internal "$source" = true := by decide
theorem internal_success : internal "$success" = true := by decide
theorem internal_empty : internal "" = true := by decide
theorem internal_field (x : String) : internal (fieldVariable x) = true := by simp [fieldVariable, internal]

/-! ## Operands -/

section
variable (w p)
/-- How MIR expressions are evaluated before environments are inferred. -/
abbrev meval (n : Nat) := Mir.eval w p Mir.captureAll (Mir.apply w p Mir.captureAll n)
abbrev mevals (n : Nat) := Mir.evals w p Mir.captureAll (Mir.apply w p Mir.captureAll n)
end

theorem sim_operands {α : Type} {n : Nat} {ρ : Mir.Env} {f : α → Out Val} : ∀ {es : List α} {es' : List Mir.Expr},
    List.Forall₂ (fun e e' => Sim K a S m q (Rel K a S m) (f e) (meval w p n ρ e')) es es' →
    Sim K a S m q (List.Forall₂ (Rel K a S m)) (Out.mapList f es) (mevals w p n false ρ (operands es'))
  | [], [], _ => by
    unfold Out.mapList
    simp only [operands, Mir.Exprs.ofList, mevals, Mir.evals]
    exact Sim.val .nil
  | e :: es, e' :: es', .cons h1 h2 => by
    unfold Out.mapList
    simp only [operands, Mir.Exprs.ofList, mevals, Mir.evals, Bool.false_and, Bool.false_eq_true, if_false]
    exact Sim.bind h1 fun u v huv => Sim.bind (sim_operands h2) fun us vs hs => Sim.val (.cons huv hs)

theorem sim_one {n : Nat} {ρ : Mir.Env} {x : Out Val} {e : Mir.Expr} (h : Sim K a S m q (Rel K a S m) x (meval w p n ρ e)) :
    Sim K a S m q (fun v us => ∃ u, us = [u] ∧ Rel K a S m v u) x (mevals w p n false ρ (.cons e .nil)) := by
  have h2 := Sim.bind h (Q := fun v us => ∃ u, us = [u] ∧ Rel K a S m v u) (f := Out.val)
    (g := fun v l => .ok [v] l) fun u v huv => Sim.val ⟨v, rfl, huv⟩
  intro l l' hl
  have h3 := h2 l l' hl
  have e1 : (x >>= Out.val) l = x l := by
    show Out.bind x Out.val l = x l
    unfold Out.bind
    cases x l <;> rfl
  rw [e1] at h3
  simpa [mevals, Mir.evals, Mir.R.bind] using h3

theorem sim_numbers {γ δ : Type} {Q : γ → δ → Prop} {n : Nat} {ρ : Mir.Env} {x y : Out Val} {e e' : Mir.Expr}
    (h : Sim K a S m q (Rel K a S m) x (meval w p n ρ e)) (h' : Sim K a S m q (Rel K a S m) y (meval w p n ρ e'))
    {f : UInt64 → UInt64 → Out γ} {g : List Mir.Value → Mir.Log → Mir.R δ}
    (hf : ∀ i j, Sim K a S m q Q (f i j) (g [.number i, .number j])) :
    Sim K a S m q Q (do
      let i ← (← x).asNumber
      let j ← (← y).asNumber
      f i j) (fun l => (mevals w p n true ρ (.cons e (.cons e' .nil)) l).bind g) := by
  intro l l' hl
  have h1 := h l l' hl
  show ResRel K a S m q Q (Out.bind x (fun v => Out.bind v.asNumber fun i => Out.bind y fun v => Out.bind v.asNumber (f i)) l) _
  simp only [mevals, Mir.evals, Out.bind]
  cases hx : x l <;> cases hy : meval w p n ρ e l' <;> simp only [hx, hy, Mir.R.bind] at h1 ⊢ <;>
    first
    | exact h1.elim
    | exact resRel_timeout h1 _
    | exact resRel_more h1 _
    | trivial
    | skip
  · rename_i v l1 u l2
    cases h1.1 <;> simp only [Hir.Val.asNumber, Out.stuck, Out.val] <;> try exact True.intro
    simp only [Mir.Value.isNumber, Bool.not_true, Bool.and_false, Bool.false_eq_true, if_false]
    have h2 := h' l1 l2 h1.2
    cases hx2 : y l1 <;> cases hy2 : meval w p n ρ e' l2 <;> simp only [hx2, hy2] at h2 ⊢ <;>
      first
      | exact h2.elim
      | exact resRel_timeout h2 _
      | exact resRel_more h2 _
      | trivial
      | skip
    · cases h2.1 <;> simp only [Hir.Val.asNumber, Out.stuck, Out.val] <;> try exact True.intro
      simp only [Mir.Value.isNumber, Bool.not_true, Bool.and_false, Bool.false_eq_true, if_false]
      exact hf _ _ _ _ h2.2

theorem sim_boolean {γ δ : Type} {Q : γ → δ → Prop} {v : Val} {u : Mir.Value} (h : Rel K a S m v u) {f : Bool → Out γ}
    {g : Mir.Value → Mir.Log → Mir.R δ} (hf : ∀ b, Sim K a S m q Q (f b) (g (.boolean b))) :
    Sim K a S m q Q (v.asBoolean >>= f) (g u) := by
  intro l l' hl
  show ResRel K a S m q Q (Out.bind v.asBoolean f l) _
  cases h <;> simp only [Out.bind, Hir.Val.asBoolean, Out.stuck, Out.val, ResRel]
  exact hf _ _ _ hl

theorem sim_if {n : Nat} {ρ : Mir.Env} {x y z : Out Val} {c t e : Mir.Expr}
    (hc : Sim K a S m q (Rel K a S m) x (meval w p n ρ c)) (ht : Sim K a S m q (Rel K a S m) y (meval w p n ρ t))
    (he : Sim K a S m q (Rel K a S m) z (meval w p n ρ e)) :
    Sim K a S m q (Rel K a S m) (do
      let v ← x
      let b ← v.asBoolean
      if b then y else z) (meval w p n ρ (.if_ c t e)) := by
  simp only [meval, Mir.eval]
  refine Sim.bind hc fun v u hv => sim_boolean (g := fun u log => match u with
    | .boolean true => meval w p n ρ t log
    | .boolean false => meval w p n ρ e log
    | _ => .stuck) hv fun b => ?_
  cases b
  · simpa using he
  · simpa using ht

theorem sim_literal {n : Nat} {ρ : Mir.Env} {v : Val} {l : Mir.Literal} (h : Rel K a S m v l.value) :
    Sim K a S m q (Rel K a S m) (Out.val v) (meval w p n ρ (.literal l)) := by
  simp only [meval, Mir.eval]
  exact Sim.val h

end Verif.Lower
