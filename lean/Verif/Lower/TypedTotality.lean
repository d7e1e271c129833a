import Verif.Lower.TypedModules
import Verif.Hir.TypeProperties

/-!
# Expressions with types are lowered

Lowering of an expression that has a type does not fail, for expressions in the modelled part.
-/

namespace Verif.Lower

open Verif.Hir (Ty Ctx Expr Module Definition RecordField Vars Canon Typed FieldTy IsVariant Sub)
open Verif.Mir.Typed (TExpr TExprs TAlts TOp TDefinition TDeclaration TModule)
open Verif.Names (children)
open Verif

/-- Kinds of expressions whose lowering is modelled. -/
def lowerable (C : Ctx) : Expr → Prop
  | .builtInCall _ f _ => f = .error ∨ f = .source
  | .ifList .. => False
  | .ifMap .. => False
  | .list .. => False
  | .comprehension .. => False
  | .map .. => False
  | .equality (some t) _ _ _ => Canon C.types t .number ∨ Canon C.types t .string
  | .update _ _ fields => fields ≠ []
  | _ => True

/-- An expression all of which is. -/
def Lowerable (C : Ctx) (e : Expr) : Prop := ∀ x, Visited x e → lowerable C x

theorem Lowerable.child {C : Ctx} {e y : Expr} (hy : y ∈ children e) (h : Lowerable C e) : Lowerable C y := fun x hx => h x (.child hy hx)

/-- For large enough bounds. -/
def Eventually (P : Nat → Nat → Prop) : Prop := ∃ N, ∀ a n, N ≤ a → N ≤ n → P a n

theorem Eventually.mono {P Q : Nat → Nat → Prop} (h : Eventually P) (hPQ : ∀ a n, P a n → Q a n) : Eventually Q := by
  obtain ⟨N, h⟩ := h
  exact ⟨N, fun a n h1 h2 => hPQ a n (h a n h1 h2)⟩

theorem Eventually.and {P Q : Nat → Nat → Prop} (h : Eventually P) (h' : Eventually Q) : Eventually fun a n => P a n ∧ Q a n := by
  obtain ⟨N, h⟩ := h
  obtain ⟨M, h'⟩ := h'
  exact ⟨max N M, fun a n h1 h2 => ⟨h a n (by omega) (by omega), h' a n (by omega) (by omega)⟩⟩

theorem Eventually.const {P : Prop} (h : P) : Eventually fun _ _ => P := ⟨0, fun _ _ _ _ => h⟩

theorem Eventually.all {α : Type} {P : α → Nat → Nat → Prop} : ∀ {xs : List α}, (∀ x ∈ xs, Eventually (P x)) →
    Eventually fun a n => ∀ x ∈ xs, P x a n
  | [], _ => .mono (.const trivial) fun _ _ _ => by simp
  | x :: xs, h => ((h x (by simp)).and (Eventually.all (xs := xs) fun y hy => h y (List.mem_cons_of_mem _ hy))).mono fun a n hp y hy => by
    rcases List.mem_cons.1 hy with rfl | hy
    · exact hp.1
    · exact hp.2 y hy

/-- One more level. -/
theorem Eventually.succ {P : Nat → Nat → Prop} (h : Eventually fun a n => P a (n + 1)) : Eventually P := by
  obtain ⟨N, h⟩ := h
  refine ⟨N + 1, fun a n h1 h2 => ?_⟩
  obtain ⟨k, rfl⟩ : ∃ k, n = k + 1 := ⟨n - 1, by omega⟩
  exact h a k (by omega) (by omega)

section
variable {K : TypedConfig} {C : Ctx}

/-- It is lowered. -/
def Compiles (K : TypedConfig) (C : Ctx) (e : Expr) : Prop := Eventually fun a n => ∃ e', compileT K a C n e = some e'

theorem eventually_canon {t c : Ty} (h : Canon C.types t c) : Eventually fun a _ => Hir.canonicalize a C.types t = .ok c := by
  obtain ⟨e, h1, rfl⟩ := h
  obtain ⟨N, h⟩ := Hir.canonicalize_complete h1
  exact ⟨N, fun a _ ha _ => h a ha⟩

theorem eventually_type {t c : Ty} (h : Canon C.types t c) : Eventually fun a _ => compileType K a C t = some (lowerType K c) :=
  (eventually_canon h).mono fun a n h => by simp [compileType, h, ok?]

theorem eventually_types {ps : List (String × Ty)} {cs : List Ty} (h : List.Forall₂ (Canon C.types) (ps.map (·.2)) cs) :
    Eventually fun a _ => ∃ qs, compileParameters K a C ps = some qs := by
  induction ps generalizing cs with
  | nil => exact ⟨0, fun a n _ _ => ⟨[], rfl⟩⟩
  | cons p ps ih =>
    cases h with
    | @cons _ c _ _ h1 h2 =>
      refine ((eventually_type (K := K) h1).and (ih h2)).mono fun a n ⟨h3, qs, h4⟩ => ?_
      simp only [compileParameters] at h4
      refine ⟨(p.1, lowerType K c) :: qs, ?_⟩
      simp only [compileParameters, List.mapM_cons, h4]
      simp only [h3, Option.map_some, Option.bind_eq_bind, Option.bind_some, Option.pure_def]

theorem mapM_some {α β : Type} {f : α → Option β} : ∀ {xs : List α}, (∀ x ∈ xs, ∃ y, f x = some y) → ∃ ys, xs.mapM f = some ys
  | [], _ => ⟨[], rfl⟩
  | x :: xs, h => by
    obtain ⟨y, hy⟩ := h x (by simp)
    obtain ⟨ys, hys⟩ := mapM_some (xs := xs) fun x hx => h x (List.mem_cons_of_mem _ hx)
    exact ⟨y :: ys, by simp [hy, hys]⟩

theorem any_notMem {t c : Ty} (h : Canon C.types t c) (hc : c ≠ .any) : Ty.any ∉ Hir.unionMembers c := by
  intro hm
  obtain ⟨N, hN⟩ := eventually_canon h
  have hk := hN N N le_rfl le_rfl
  cases c with
  | union l r => exact (Hir.c01_unions hk (.refl _)).2 hm
  | _ => simp_all [Hir.unionMembers]

theorem alternative_some {t c : Ty} (h : Canon C.types t c) (hc : c ≠ .any) (x : String) (e : TExpr) :
    ∃ p, compileAlternativeT K x c e = some p := by
  unfold compileAlternativeT
  split
  · exact ⟨_, rfl⟩
  · rw [if_neg (any_notMem h hc)]
    exact ⟨_, rfl⟩

theorem eventually_function {t r : Ty} {as : List Ty} (h : Canon C.types t (.function as r)) :
    Eventually fun a _ => Hir.expectFunction a C.types t = .ok (as, r) :=
  (eventually_canon h).mono fun a n h => by simp [Hir.expectFunction, h, bind, Res.bind]

theorem eventually_fields {t : Ty} {n : String} {fs : List RecordField} (h : Canon C.types t (.record n)) (hn : C.records n = some fs) :
    Eventually fun a _ => Hir.resolveFields a C t = .ok fs ∧ recordName K a C t = some n :=
  ((eventually_canon h).and (eventually_type (K := K) h)).mono fun a n h => by
    simp [Hir.resolveFields, Hir.resolveRecord, recordName, h.1, h.2, hn, bind, Res.bind, lowerType]

theorem fieldIndex_some {fs : List RecordField} {x : String} {t : Ty} (h : Hir.fieldType fs x = .ok t) : ∃ i, fieldIndex fs x = some i := by
  unfold Hir.fieldType at h
  split at h
  · rename_i f hf
    unfold fieldIndex
    cases hi : fs.findIdx? (fun t => t.name == x) with
    | some i => exact ⟨i, rfl⟩
    | none =>
      have := List.findIdx?_eq_none_iff.1 hi f (List.mem_of_find?_eq_some hf)
      rw [List.find?_some hf] at this
      cases this
  · cases h

theorem coercion_some {src c d : Ty} (h : Canon C.types src c) (e : TExpr) : ∃ e', compileCoercionT K c d e = some e' := by
  have hn := h.noReference
  unfold compileCoercionT
  split
  · exact ⟨_, rfl⟩
  · exact ⟨_, rfl⟩
  · exact ⟨_, rfl⟩
  · exact ⟨_, rfl⟩
  · cases hn
  · exact ⟨_, rfl⟩

theorem alternatives_some {x : String} {d : Nat → Nat → Expr → Option TExpr} :
    ∀ {bs : List (Ty × Expr)} {els : Option (Option Ty × Expr)},
    (∀ p ∈ bs, ∃ cp, Canon C.types p.1 cp ∧ cp ≠ .any) → (∀ p ∈ bs, Eventually fun a n => ∃ e', d a n p.2 = some e') →
    (∀ p, els = some p → ∃ t ct, p.1 = some t ∧ Canon C.types t ct ∧ Eventually fun a n => ∃ e', d a n p.2 = some e') →
    Eventually fun a n => ∃ alts, compileAlternativesT K a C (d a n) x bs els = some alts
  | (t, e) :: bs, els, h1, h2, h3 => by
    obtain ⟨c, hc, hany⟩ := h1 (t, e) (by simp)
    refine (((eventually_canon hc).and (h2 (t, e) (by simp))).and
      (alternatives_some (x := x) (bs := bs) (fun p hp => h1 p (List.mem_cons_of_mem _ hp)) (fun p hp => h2 p (List.mem_cons_of_mem _ hp)) h3)).mono ?_
    rintro a n ⟨⟨h4, e', h5⟩, alts, h6⟩
    obtain ⟨alt, h7⟩ := alternative_some (K := K) hc hany x e'
    exact ⟨_, by simp [compileAlternativesT, h4, ok?, h5, h6, h7]; rfl⟩
  | [], none, _, _, _ => ⟨0, fun _ _ _ _ => ⟨_, rfl⟩⟩
  | [], some (t, e), _, _, h3 => by
    obtain ⟨t', c, ht, hc, h4⟩ := h3 _ rfl
    simp only at ht
    subst ht
    refine ((eventually_canon hc).and h4).mono ?_
    rintro a n ⟨h5, e', h6⟩
    by_cases hany : c = .any
    · subst hany
      exact ⟨_, by simp [compileAlternativesT, h5, ok?, h6]; rfl⟩
    · obtain ⟨alt, h7⟩ := alternative_some (K := K) hc hany x e'
      exact ⟨_, by simp [compileAlternativesT, h5, ok?, h6, h7, hany]; rfl⟩

theorem equality_some {t : Ty} {l r : Expr} (ht : Canon C.types t .number ∨ Canon C.types t .string) (hl : Compiles K C l)
    (hr : Compiles K C r) : Eventually fun a n => ∃ e', compileEqualityT K a C (compileT K a C n) t l r = some e' := by
  rcases ht with ht | ht
  all_goals
    refine ((eventually_canon ht).and (hl.and hr)).mono ?_
    rintro a n ⟨h1, ⟨l', h2⟩, r', h3⟩
    exact ⟨_, by simp [compileEqualityT, h1, ok?, h2, h3]; rfl⟩

/-- Expressions that have types are lowered. -/
theorem compiles_of_typed : ∀ {Γ : Vars} {ρ : Option Ty} {e : Expr} {d : Ty}, Typed C Γ ρ e d → Lowerable C e → Compiles K C e
  | _, _, _, _, .boolean b, _ => .succ (⟨0, fun _ _ _ _ => ⟨_, rfl⟩⟩)
  | _, _, _, _, .none, _ => .succ (⟨0, fun _ _ _ _ => ⟨_, rfl⟩⟩)
  | _, _, _, _, .number i, _ => .succ (⟨0, fun _ _ _ _ => ⟨_, rfl⟩⟩)
  | _, _, _, _, .string s, _ => .succ (⟨0, fun _ _ _ _ => ⟨_, rfl⟩⟩)
  | _, _, _, _, .var _ _, _ => .succ (⟨0, fun _ _ _ _ => ⟨_, rfl⟩⟩)
  | _, _, _, _, .call (args := args) (as := as) h1 h2 h3 h4, hl => by
    have hf := compiles_of_typed h2 (hl.child (by simp [children]))
    have ha : ∀ x ∈ args, Compiles K C x := by
      intro x hx
      obtain ⟨i, hi, rfl⟩ := List.getElem_of_mem hx
      exact compiles_of_typed (h4 (args[i], as[i]'(h3 ▸ hi)) (by
        rw [List.mem_iff_getElem]
        exact ⟨i, by simp [h3 ▸ hi, hi], by simp⟩)) (hl.child (by simp [children]))
    refine .succ (((eventually_function h1).and (hf.and (Eventually.all ha))).mono ?_)
    rintro a n ⟨h5, ⟨f', h6⟩, h7⟩
    obtain ⟨es, h8⟩ := mapM_some h7
    exact ⟨_, by simp [compileT, compileStepT, h5, ok?, h6, h8]; rfl⟩
  | _, _, _, _, .builtInCall (f := f) (args := args) (as := as) h1 h2 h3 h4, hl => by
    have hf : f = .error ∨ f = .source := hl _ (.here _)
    have ha : ∀ x ∈ args, Compiles K C x := by
      intro x hx
      obtain ⟨i, hi, rfl⟩ := List.getElem_of_mem hx
      exact compiles_of_typed (h4 (args[i], as[i]'(h3 ▸ hi)) (by
        rw [List.mem_iff_getElem]
        exact ⟨i, by simp [h3 ▸ hi, hi], by simp⟩)) (hl.child (by simp [children]))
    rcases hf with rfl | rfl
    all_goals
      cases h2
      obtain ⟨x, rfl⟩ := List.length_eq_one_iff.1 h3
      have ha := ha x (by simp)
      refine .succ (((eventually_function h1).and ha).mono ?_)
      rintro a n ⟨h5, x', h6⟩
      exact ⟨_, by simp [compileT, compileStepT, h5, ok?, h6]; rfl⟩
  | _, _, _, _, .if_ h1 h2 h3, hl => by
    have k1 := compiles_of_typed h1 (hl.child (by simp [children]))
    have k2 := compiles_of_typed h2 (hl.child (by simp [children]))
    have k3 := compiles_of_typed h3 (hl.child (by simp [children]))
    refine .succ ((k1.and (k2.and k3)).mono ?_)
    rintro a n ⟨⟨x, h5⟩, ⟨y, h6⟩, z, h7⟩
    exact ⟨_, by simp [compileT, compileStepT, h5, h6, h7]; rfl⟩
  | _, _, _, _, .ifList _ _ _ _, hl => (hl _ (.here _)).elim
  | _, _, _, _, .ifMap _ _ _ _ _ _, hl => (hl _ (.here _)).elim
  | _, _, _, _, .ifTypeElse (x := x) (bs := bs) h1 h2 h3 h4 h5 h6 h7, hl => by
    have k1 := compiles_of_typed h1 (hl.child (by simp [children]))
    have k2 : ∀ p ∈ bs, Compiles K C p.2 := fun p hp =>
      compiles_of_typed (h4 p hp) (hl.child (by simp only [children, List.mem_cons, List.mem_append, List.mem_map]; exact .inr (.inl ⟨p, hp, rfl⟩)))
    have k3 := compiles_of_typed h7 (hl.child (by simp [children]))
    refine .succ ((k1.and (alternatives_some (K := K) (x := x) h3 k2 (els := some (some _, _)) (fun p hp => by
      cases hp
      exact ⟨_, _, rfl, h5, k3⟩))).mono ?_)
    rintro a n ⟨⟨x, h5⟩, alts, h6⟩
    exact ⟨_, by simp [compileT, compileStepT, h5, h6]; rfl⟩
  | _, _, _, _, .ifType (x := x) (bs := bs) h1 h2 h3 h4 h5 h6, hl => by
    have k1 := compiles_of_typed h1 (hl.child (by simp [children]))
    have k2 : ∀ p ∈ bs, Compiles K C p.2 := fun p hp =>
      compiles_of_typed (h5 p hp) (hl.child (by simp only [children, List.mem_cons, List.mem_append, List.mem_map]; exact .inr (.inl ⟨p, hp, rfl⟩)))
    refine .succ ((k1.and (alternatives_some (K := K) (x := x) (els := none) h4 k2 (fun p hp => by cases hp))).mono ?_)
    rintro a n ⟨⟨x, h5⟩, alts, h6⟩
    exact ⟨_, by simp [compileT, compileStepT, h5, h6]; rfl⟩
  | _, _, _, _, .lambda h1 h2, hl => by
    obtain ⟨cs, r, e, h3, h4⟩ := Hir.canon_function_inv h1
    have k := compiles_of_typed h2 (hl.child (by simp [children]))
    refine .succ (((eventually_types (K := K) h3).and ((eventually_type (K := K) h4).and k)).mono ?_)
    rintro a n ⟨⟨qs, h5⟩, h6, b, h7⟩
    exact ⟨_, by simp [compileT, compileStepT, h5, h6, h7]; rfl⟩
  | _, _, _, _, .let_ h1 h2 h3, hl => by
    have k1 := compiles_of_typed h2 (hl.child (by simp [children]))
    have k2 := compiles_of_typed h3 (hl.child (by simp [children]))
    refine .succ (((eventually_type (K := K) h1).and (k1.and k2)).mono ?_)
    rintro a n ⟨h5, ⟨y, h6⟩, z, h7⟩
    exact ⟨_, by simp [compileT, compileStepT, h5, h6, h7]; rfl⟩
  | _, _, _, _, .list _ _ _, hl => (hl _ (.here _)).elim
  | _, _, _, _, .comprehension _ _, hl => (hl _ (.here _)).elim
  | _, _, _, _, .map _ _ _ _ _, hl => (hl _ (.here _)).elim
  | _, _, _, _, .addNumber h1 h2, hl => by
    have k1 := compiles_of_typed h1 (hl.child (by simp [children]))
    have k2 := compiles_of_typed h2 (hl.child (by simp [children]))
    refine .succ ((k1.and k2).mono ?_)
    rintro a n ⟨⟨y, h6⟩, z, h7⟩
    exact ⟨_, by simp [compileT, compileStepT, h6, h7]; rfl⟩
  | _, _, _, _, .addString h1 h2, hl => by
    have k1 := compiles_of_typed h1 (hl.child (by simp [children]))
    have k2 := compiles_of_typed h2 (hl.child (by simp [children]))
    refine .succ ((k1.and k2).mono ?_)
    rintro a n ⟨⟨y, h6⟩, z, h7⟩
    exact ⟨_, by simp [compileT, compileStepT, h6, h7]; rfl⟩
  | _, _, _, _, .arithmetic h1 h2, hl => by
    have k1 := compiles_of_typed h1 (hl.child (by simp [children]))
    have k2 := compiles_of_typed h2 (hl.child (by simp [children]))
    refine .succ ((k1.and k2).mono ?_)
    rintro a n ⟨⟨y, h6⟩, z, h7⟩
    exact ⟨_, by simp [compileT, compileStepT, h6, h7]; rfl⟩
  | _, _, _, _, .booleanOp (op := op) h1 h2, hl => by
    have k1 := compiles_of_typed h1 (hl.child (by simp [children]))
    have k2 := compiles_of_typed h2 (hl.child (by simp [children]))
    refine .succ ((k1.and k2).mono ?_)
    rintro a n ⟨⟨y, h6⟩, z, h7⟩
    cases op <;> exact ⟨_, by simp [compileT, compileStepT, h6, h7]; rfl⟩
  | _, _, _, _, .equality (op := op) h1 h2 h3, hl => by
    have k1 := compiles_of_typed h2 (hl.child (by simp [children]))
    have k2 := compiles_of_typed h3 (hl.child (by simp [children]))
    refine .succ ((equality_some (hl _ (.here _)) k1 k2).mono ?_)
    rintro a n ⟨e', h4⟩
    cases op <;> exact ⟨_, by simp [compileT, compileStepT, h4]; rfl⟩
  | _, _, _, _, .not h1, hl => by
    have k1 := compiles_of_typed h1 (hl.child (by simp [children]))
    refine .succ (k1.mono ?_)
    rintro a n ⟨y, h6⟩
    exact ⟨_, by simp [compileT, compileStepT, h6]; rfl⟩
  | _, _, _, _, .order h1 h2, hl => by
    have k1 := compiles_of_typed h1 (hl.child (by simp [children]))
    have k2 := compiles_of_typed h2 (hl.child (by simp [children]))
    refine .succ ((k1.and k2).mono ?_)
    rintro a n ⟨⟨y, h6⟩, z, h7⟩
    exact ⟨_, by simp [compileT, compileStepT, h6, h7]; rfl⟩
  | _, _, _, _, .try_ (t := t) (ct := ct) h1 h2 h3 h4 h5 h6 h7 h8, hl => by
    have k1 := compiles_of_typed h1 (hl.child (by simp [children]))
    refine .succ ((k1.and (eventually_canon h4)).mono ?_)
    rintro a n ⟨⟨y, h9⟩, h10⟩
    obtain ⟨alt, h11⟩ := alternative_some (K := K) h4 h5 "$success" (.variable "$success")
    exact ⟨_, by simp [compileT, compileStepT, h9, h10, ok?, h11]; rfl⟩
  | _, _, _, _, .record (fs := fs) (fields := fields) (F := F) h1 h2 h3 h4 h5, hl => by
    have k : ∀ f ∈ fields, Eventually fun a n => ∃ g, compileFieldT K a C (compileT K a C n) fs f = some g := by
      intro f hf
      obtain ⟨fs', t, h6, h7, h8⟩ := h4 f hf
      rw [h2] at h6
      cases h6
      have k1 := compiles_of_typed (h5 f hf) (hl.child (by simp only [children, List.mem_map]; exact ⟨f, hf, rfl⟩))
      refine ((eventually_type (K := K) h8).and k1).mono ?_
      rintro a n ⟨h9, e', h10⟩
      exact ⟨_, by simp [compileFieldT, h7, ok?, h9, h10]; rfl⟩
    refine .succ (((eventually_fields (K := K) h1 h2).and (Eventually.all k)).mono ?_)
    rintro a n ⟨⟨h6, h7⟩, h8⟩
    obtain ⟨gs, h9⟩ := mapM_some h8
    have h10 : fs.all (fun t => fields.any (fun f => f.1 == t.name)) = true := by
      simp only [List.all_eq_true, List.any_eq_true, beq_iff_eq]
      intro t ht
      obtain ⟨f, hf, e⟩ := List.mem_map.1 (h3 t ht)
      exact ⟨f, hf, e⟩
    simp only [compileT, compileStepT, h6, ok?, h7, h9, Option.bind_eq_bind, Option.bind_some, h10, if_true]
    exact ⟨_, rfl⟩
  | _, _, _, _, .deconstruct h1 h2 h3, hl => by
    obtain ⟨fs, t, h4, h5, h6⟩ := h3
    have k1 := compiles_of_typed h2 (hl.child (by simp [children]))
    obtain ⟨i, hi⟩ := fieldIndex_some h5
    refine .succ (((eventually_fields (K := K) h1 h4).and k1).mono ?_)
    rintro a n ⟨⟨h7, h8⟩, y, h9⟩
    exact ⟨_, by simp [compileT, compileStepT, h7, h8, ok?, h9, hi]; rfl⟩
  | _, _, _, _, .update (t := t) (n := r) (fields := fields) (F := F) h1 h2 h3 h4, hl => by
    have k1 := compiles_of_typed h2 (hl.child (by simp [children]))
    have k2 : ∀ f ∈ fields, Compiles K C f.2 := fun f hf =>
      compiles_of_typed (h4 f hf) (hl.child (by simp only [children, List.mem_cons, List.mem_map]; exact .inr ⟨f, hf, rfl⟩))
    obtain ⟨f, fs', e⟩ := List.exists_cons_of_ne_nil (show fields ≠ [] from hl _ (.here _))
    obtain ⟨fs, t', h5, -, -⟩ := h3 f (by simp [e])
    have k3 : ∀ f ∈ fields, ∃ i, fieldIndex fs f.1 = some i := by
      intro f hf
      obtain ⟨fs', t', h6, h7, -⟩ := h3 f hf
      rw [h5] at h6
      cases h6
      exact fieldIndex_some h7
    obtain ⟨is, h8⟩ := mapM_some k3
    refine .succ (((eventually_fields (K := K) h1 h5).and (k1.and (Eventually.all k2))).mono ?_)
    rintro a n ⟨⟨h6, h7⟩, ⟨y, h9⟩, h10⟩
    obtain ⟨es, h11⟩ := mapM_some (f := fun f : String × Expr => compileT K a C n f.2) h10
    exact ⟨_, by simp [compileT, compileStepT, h6, h7, ok?, h8, h9, h11]; rfl⟩
  | _, _, _, _, .coercion h1 h2 h3 h4, hl => by
    have k1 := compiles_of_typed h3 (hl.child (by simp [children]))
    refine .succ ((k1.and ((eventually_canon h1).and (eventually_canon h2))).mono ?_)
    rintro a n ⟨⟨y, h9⟩, h10, h11⟩
    obtain ⟨e', h12⟩ := coercion_some (K := K) (d := _) h1 y
    exact ⟨e', by simp only [compileT, compileStepT, h9, h10, h11, ok?, Option.bind_eq_bind, Option.bind_some]; exact h12⟩

/-! ## Types that are collected -/

theorem children_size {y e : Expr} (h : y ∈ children e) (hb : ∀ f, y ≠ .builtIn f) : sizeOf y < sizeOf e := by
  have hs : ∀ (xs : List Expr), y ∈ xs → sizeOf y < sizeOf xs := fun xs h => List.sizeOf_lt_of_mem h
  cases e with
  | call t f args =>
    simp only [children, List.mem_cons] at h
    rcases h with rfl | h
    · simp only [Expr.call.sizeOf_spec]; omega
    · have := hs _ h; simp only [Expr.call.sizeOf_spec]; omega
  | builtInCall t f args =>
    simp only [children, List.mem_cons] at h
    rcases h with rfl | h
    · exact absurd rfl (hb f)
    · have := hs _ h; simp only [Expr.builtInCall.sizeOf_spec]; omega
  | ifType x a bs els =>
    simp only [children, List.mem_cons, List.mem_append, List.mem_map] at h
    rcases h with rfl | ⟨b, hb', rfl⟩ | ⟨b, hb', rfl⟩
    · simp only [Expr.ifType.sizeOf_spec]; omega
    · have := List.sizeOf_lt_of_mem hb'
      obtain ⟨t, e⟩ := b
      simp only [Expr.ifType.sizeOf_spec, Prod.mk.sizeOf_spec] at this ⊢; omega
    · cases els with
      | none => cases hb'
      | some p =>
        simp only [Option.toList_some, List.mem_singleton] at hb'
        subst hb'
        obtain ⟨t, e⟩ := b
        simp only [Expr.ifType.sizeOf_spec, Prod.mk.sizeOf_spec, Option.some.sizeOf_spec]; omega
  | list t es =>
    simp only [children, List.mem_map] at h
    obtain ⟨x, hx, rfl⟩ := h
    have := List.sizeOf_lt_of_mem hx
    cases x <;> (simp only [Hir.ListElem.single.sizeOf_spec, Hir.ListElem.multiple.sizeOf_spec, Expr.list.sizeOf_spec] at this ⊢; omega)
  | comprehension t e b bs =>
    simp only [children, List.mem_append, List.mem_flatMap, List.mem_map, List.mem_singleton] at h
    rcases h with ⟨b', hb', i, hi, rfl⟩ | rfl
    · have h1 := List.sizeOf_lt_of_mem hi
      obtain ⟨t', e'⟩ := i
      have h3 : sizeOf b'.iteratees < sizeOf b' := by cases b'; simp only [Hir.Branch.mk.sizeOf_spec]; omega
      simp only [Prod.mk.sizeOf_spec] at h1
      simp only [Expr.comprehension.sizeOf_spec]
      rcases List.mem_cons.1 hb' with rfl | hb'
      · omega
      · have := List.sizeOf_lt_of_mem hb'
        omega
    · simp only [Expr.comprehension.sizeOf_spec]; omega
  | map k v es =>
    simp only [children, List.mem_flatMap] at h
    obtain ⟨x, hx, h⟩ := h
    have := List.sizeOf_lt_of_mem hx
    cases x with
    | single a b =>
      simp only [List.mem_cons, List.not_mem_nil, or_false] at h
      rcases h with rfl | rfl <;> (simp only [Hir.MapElem.single.sizeOf_spec, Expr.map.sizeOf_spec] at this ⊢; omega)
    | multiple a =>
      simp only [List.mem_singleton] at h
      subst h
      simp only [Hir.MapElem.multiple.sizeOf_spec, Expr.map.sizeOf_spec] at this ⊢; omega
  | record t fs =>
    simp only [children, List.mem_map] at h
    obtain ⟨f, hf, rfl⟩ := h
    have := List.sizeOf_lt_of_mem hf
    obtain ⟨x, e⟩ := f
    simp only [Expr.record.sizeOf_spec, Prod.mk.sizeOf_spec] at this ⊢; omega
  | update t r fs =>
    simp only [children, List.mem_cons, List.mem_map] at h
    rcases h with rfl | ⟨f, hf, rfl⟩
    · simp only [Expr.update.sizeOf_spec]; omega
    · have := List.sizeOf_lt_of_mem hf
      obtain ⟨x, e⟩ := f
      simp only [Expr.update.sizeOf_spec, Prod.mk.sizeOf_spec] at this ⊢; omega
  | if_ a b c =>
    simp only [children, List.mem_cons, List.not_mem_nil, or_false] at h
    rcases h with rfl | rfl | rfl <;> simp <;> omega
  | ifList t l f r a b =>
    simp only [children, List.mem_cons, List.not_mem_nil, or_false] at h
    rcases h with rfl | rfl | rfl <;> simp <;> omega
  | ifMap k v x e i a b =>
    simp only [children, List.mem_cons, List.not_mem_nil, or_false] at h
    rcases h with rfl | rfl | rfl | rfl <;> simp <;> omega
  | coercion s d e =>
    simp only [children, List.mem_cons, List.not_mem_nil, or_false] at h
    subst h <;> simp <;> omega
  | lambda ps r b =>
    simp only [children, List.mem_cons, List.not_mem_nil, or_false] at h
    subst h <;> simp <;> omega
  | let_ x t a b =>
    simp only [children, List.mem_cons, List.not_mem_nil, or_false] at h
    rcases h with rfl | rfl <;> simp <;> omega
  | addition t a b =>
    simp only [children, List.mem_cons, List.not_mem_nil, or_false] at h
    rcases h with rfl | rfl <;> simp <;> omega
  | arithmetic o a b =>
    simp only [children, List.mem_cons, List.not_mem_nil, or_false] at h
    rcases h with rfl | rfl <;> simp <;> omega
  | booleanOp o a b =>
    simp only [children, List.mem_cons, List.not_mem_nil, or_false] at h
    rcases h with rfl | rfl <;> simp <;> omega
  | equality t o a b =>
    simp only [children, List.mem_cons, List.not_mem_nil, or_false] at h
    rcases h with rfl | rfl <;> simp <;> omega
  | not a =>
    simp only [children, List.mem_cons, List.not_mem_nil, or_false] at h
    subst h <;> simp <;> omega
  | order o a b =>
    simp only [children, List.mem_cons, List.not_mem_nil, or_false] at h
    rcases h with rfl | rfl <;> simp <;> omega
  | try_ t a =>
    simp only [children, List.mem_cons, List.not_mem_nil, or_false] at h
    subst h <;> simp <;> omega
  | deconstruct t r x =>
    simp only [children, List.mem_cons, List.not_mem_nil, or_false] at h
    subst h <;> simp <;> omega
  | boolean b => cases h
  | none => cases h
  | number i => cases h
  | string s => cases h
  | _ => cases h

theorem collect_some (k : Nat) : ∀ e : Expr, sizeOf e ≤ k → ∀ n, k + 1 < n → ∃ ts, collectFrom n e = some ts := by
  induction k with
  | zero =>
    intro e he
    cases e <;> simp at he
  | succ k ih =>
    intro e he n hn
    obtain ⟨n, rfl⟩ : ∃ j, n = j + 1 := ⟨n - 1, by omega⟩
    have : ∃ tss, (children e).mapM (collectFrom n) = some tss := mapM_some fun y hy => by
      by_cases hb : ∃ f, y = .builtIn f
      · obtain ⟨f, rfl⟩ := hb
        obtain ⟨n, rfl⟩ : ∃ j, n = j + 1 := ⟨n - 1, by omega⟩
        exact ⟨_, rfl⟩
      · have := children_size hy fun f e => hb ⟨f, e⟩
        exact ih y (by omega) n (by omega)
    obtain ⟨tss, h⟩ := this
    exact ⟨lowerTypes e ++ tss.flatten, by simp only [collectFrom, h, Option.map_some]⟩

/-- Types in expressions that have types exist. -/
theorem typed_children {Γ : Vars} {ρ : Option Ty} {e : Expr} {d : Ty} (h : Typed C Γ ρ e d) (hl : Lowerable C e) :
    (∀ t ∈ lowerTypes e, ∃ c, Canon C.types t c) ∧
      ∀ y ∈ children e, (∃ Γ ρ d, Typed C Γ ρ y d) ∨ ∃ f, y = .builtIn f := by
  have hargs : ∀ {args : List Expr} {as : List Ty} {Γ ρ}, args.length = as.length → (∀ p ∈ args.zip as, Typed C Γ ρ p.1 p.2) →
      ∀ y ∈ args, (∃ Γ ρ d, Typed C Γ ρ y d) := by
    intro args as Γ ρ h3 h4 x hx
    obtain ⟨i, hi, rfl⟩ := List.getElem_of_mem hx
    exact ⟨_, _, _, h4 (args[i], as[i]'(h3 ▸ hi)) (by
      rw [List.mem_iff_getElem]
      exact ⟨i, by simp [h3 ▸ hi, hi], by simp⟩)⟩
  cases h with
  | boolean | none | number | string | var => simp [lowerTypes, children]
  | call h1 h2 h3 h4 =>
    refine ⟨by simp [lowerTypes], fun y hy => .inl ?_⟩
    simp only [children, List.mem_cons] at hy
    rcases hy with rfl | hy
    · exact ⟨_, _, _, h2⟩
    · exact hargs h3 h4 y hy
  | @builtInCall _ _ _ f _ _ _ h1 h2 h3 h4 =>
    have hf : f = .error ∨ f = .source := hl _ (.here _)
    refine ⟨by rcases hf with rfl | rfl <;> simp [lowerTypes], fun y hy => ?_⟩
    simp only [children, List.mem_cons] at hy
    rcases hy with rfl | hy
    · exact .inr ⟨_, rfl⟩
    · exact .inl (hargs h3 h4 y hy)
  | if_ h1 h2 h3 =>
    refine ⟨by simp [lowerTypes], fun y hy => .inl ?_⟩
    simp only [children, List.mem_cons, List.not_mem_nil, or_false] at hy
    rcases hy with rfl | rfl | rfl
    exacts [⟨_, _, _, h1⟩, ⟨_, _, _, h2⟩, ⟨_, _, _, h3⟩]
  | ifList => exact (hl _ (.here _)).elim
  | ifMap => exact (hl _ (.here _)).elim
  | list => exact (hl _ (.here _)).elim
  | comprehension => exact (hl _ (.here _)).elim
  | map => exact (hl _ (.here _)).elim
  | ifTypeElse h1 h2 h3 h4 h5 h6 h7 =>
    constructor
    · intro t ht
      simp only [lowerTypes, List.mem_append, List.mem_map, Option.bind_some, Option.toList_some, List.mem_singleton] at ht
      rcases ht with ⟨p, hp, rfl⟩ | rfl
      · obtain ⟨c, hc, _⟩ := h3 p hp
        exact ⟨c, hc⟩
      · exact ⟨_, h5⟩
    · intro y hy
      simp only [children, List.mem_cons, List.mem_append, List.mem_map, Option.toList_some, List.not_mem_nil, or_false] at hy
      rcases hy with rfl | ⟨p, hp, rfl⟩ | ⟨p, rfl, rfl⟩
      exacts [.inl ⟨_, _, _, h1⟩, .inl ⟨_, _, _, h4 p hp⟩, .inl ⟨_, _, _, h7⟩]
  | ifType h1 h2 h3 h4 h5 h6 =>
    constructor
    · intro t ht
      simp only [lowerTypes, List.mem_append, List.mem_map, Option.bind_none, Option.toList_none, List.not_mem_nil, or_false] at ht
      obtain ⟨p, hp, rfl⟩ := ht
      obtain ⟨c, hc, _⟩ := h4 p hp
      exact ⟨c, hc⟩
    · intro y hy
      simp only [children, List.mem_cons, List.mem_append, List.mem_map, Option.toList_none, List.not_mem_nil, false_and, exists_false,
        or_false] at hy
      rcases hy with rfl | ⟨p, hp, rfl⟩
      exacts [.inl ⟨_, _, _, h1⟩, .inl ⟨_, _, _, h5 p hp⟩]
  | lambda h1 h2 =>
    refine ⟨by simp [lowerTypes], fun y hy => .inl ?_⟩
    simp only [children, List.mem_singleton] at hy
    subst hy
    exact ⟨_, _, _, h2⟩
  | let_ h1 h2 h3 =>
    refine ⟨by simp [lowerTypes], fun y hy => .inl ?_⟩
    simp only [children, List.mem_cons, List.not_mem_nil, or_false] at hy
    rcases hy with rfl | rfl
    exacts [⟨_, _, _, h2⟩, ⟨_, _, _, h3⟩]
  | addNumber h1 h2 | addString h1 h2 | arithmetic h1 h2 | booleanOp h1 h2 | order h1 h2 =>
    refine ⟨by simp [lowerTypes], fun y hy => .inl ?_⟩
    simp only [children, List.mem_cons, List.not_mem_nil, or_false] at hy
    rcases hy with rfl | rfl
    exacts [⟨_, _, _, h1⟩, ⟨_, _, _, h2⟩]
  | equality h1 h2 h3 =>
    refine ⟨fun t ht => ?_, fun y hy => .inl ?_⟩
    · simp only [lowerTypes, Option.toList_some, List.mem_singleton] at ht
      subst ht
      exact ⟨_, h1⟩
    · simp only [children, List.mem_cons, List.not_mem_nil, or_false] at hy
      rcases hy with rfl | rfl
      exacts [⟨_, _, _, h2⟩, ⟨_, _, _, h3⟩]
  | not h1 =>
    refine ⟨by simp [lowerTypes], fun y hy => .inl ?_⟩
    simp only [children, List.mem_singleton] at hy
    subst hy
    exact ⟨_, _, _, h1⟩
  | try_ h1 h2 h3 h4 =>
    refine ⟨fun t ht => ?_, fun y hy => .inl ?_⟩
    · simp only [lowerTypes, Option.toList_some, List.mem_singleton] at ht
      subst ht
      exact ⟨_, h4⟩
    · simp only [children, List.mem_singleton] at hy
      subst hy
      exact ⟨_, _, _, h1⟩
  | record h1 h2 h3 h4 h5 =>
    refine ⟨by simp [lowerTypes], fun y hy => .inl ?_⟩
    simp only [children, List.mem_map] at hy
    obtain ⟨f, hf, rfl⟩ := hy
    exact ⟨_, _, _, h5 f hf⟩
  | deconstruct h1 h2 h3 =>
    refine ⟨by simp [lowerTypes], fun y hy => .inl ?_⟩
    simp only [children, List.mem_singleton] at hy
    subst hy
    exact ⟨_, _, _, h2⟩
  | update h1 h2 h3 h4 =>
    refine ⟨by simp [lowerTypes], fun y hy => .inl ?_⟩
    simp only [children, List.mem_cons, List.mem_map] at hy
    rcases hy with rfl | ⟨f, hf, rfl⟩
    exacts [⟨_, _, _, h2⟩, ⟨_, _, _, h4 f hf⟩]
  | coercion h1 h2 h3 h4 =>
    refine ⟨fun t ht => ?_, fun y hy => .inl ?_⟩
    · simp only [lowerTypes, List.mem_singleton] at ht
      subst ht
      exact ⟨_, h1⟩
    · simp only [children, List.mem_singleton] at hy
      subst hy
      exact ⟨_, _, _, h3⟩

theorem visited_types {x e : Expr} (hx : Visited x e) : ∀ {Γ ρ d}, Typed C Γ ρ e d → Lowerable C e →
    ∀ t ∈ lowerTypes x, ∃ c, Canon C.types t c := by
  induction hx with
  | here => intro Γ ρ d h hl; exact (typed_children h hl).1
  | @child y e hy hx ih =>
    intro Γ ρ d h hl
    rcases (typed_children h hl).2 y hy with ⟨_, _, _, h'⟩ | ⟨f, rfl⟩
    · exact ih h' (hl.child hy)
    · cases hx with
      | here => simp [lowerTypes]
      | child h => cases h

/-- What is collected is in the expression. -/
theorem collectFrom_source {n : Nat} : ∀ {e : Expr} {ts : List Ty}, collectFrom n e = some ts → ∀ t ∈ ts, ∃ x, Visited x e ∧ t ∈ lowerTypes x := by
  induction n with
  | zero => intro e ts h; cases h
  | succ n ih =>
    intro e ts h t ht
    simp only [collectFrom, Option.map_eq_some_iff] at h
    obtain ⟨tss, h, rfl⟩ := h
    rcases List.mem_append.1 ht with ht | ht
    · exact ⟨e, .here e, ht⟩
    · obtain ⟨us, hus, ht⟩ := List.mem_flatten.1 ht
      obtain ⟨y, hy, h'⟩ := mapM_source h hus
      obtain ⟨x, hx, ht⟩ := ih h' t ht
      exact ⟨x, .child hy hx, ht⟩

end

/-! ## Modules -/

section
variable {K : ReflectConfig} {X : Extras} {m : Module}

/-- A module in the modelled part: bodies of functions are, types of declared functions and of fields exist, and records in types
that are collected are defined. -/
structure LowerableModule (m : Module) : Prop where
  bodies : ∀ d ∈ m.definitions, Lowerable m.ctx d.body
  declarations : ∀ d ∈ m.declarations, (∀ t ∈ d.2.1, ∃ c, Canon m.ctx.types t c) ∧ ∃ c, Canon m.ctx.types d.2.2 c
  fields : ∀ r ∈ m.types.records, ∀ f ∈ r.2, ∃ c, Canon m.ctx.types f.type c
  records : ∀ t, ((∃ d ∈ m.definitions, ∃ x, Visited x d.body ∧ t ∈ lowerTypes x) ∨ ∃ r ∈ m.types.records, ∃ f ∈ r.2, t = f.type) →
    ∀ c, Canon m.ctx.types t c → ∀ n, .record n ∈ Hir.unionMembers c → n ∈ m.types.records.map (·.1)

theorem eventually_compileTypes {C : Ctx} {as : List Ty} (h : ∀ t ∈ as, ∃ c, Canon C.types t c) :
    Eventually fun a _ => ∃ ts, as.mapM (compileType K.toTypedConfig a C) = some ts := by
  refine (Eventually.all (P := fun t a _ => ∃ τ, compileType K.toTypedConfig a C t = some τ) fun t ht => ?_).mono fun a n h => mapM_some h
  obtain ⟨c, hc⟩ := h t ht
  exact (eventually_type hc).mono fun a n h => ⟨_, h⟩

theorem declaration_some {C : Ctx} {d : String × (List Ty × Ty)} (h1 : ∀ t ∈ d.2.1, ∃ c, Canon C.types t c)
    (h2 : ∃ c, Canon C.types d.2.2 c) : Eventually fun a _ => ∃ e, compileDeclarationT K a C d = some e := by
  obtain ⟨c, hc⟩ := h2
  refine ((eventually_compileTypes (K := K) h1).and (eventually_type (K := K.toTypedConfig) hc)).mono ?_
  rintro a n ⟨⟨as, h3⟩, h4⟩
  exact ⟨_, by simp only [compileDeclarationT, h3, h4, Option.bind_eq_bind, Option.bind_some]; rfl⟩

theorem definition_some {C : Ctx} {d : Definition} {Γ : Vars} {as : List Ty} {c : Ty}
    (h1 : Canon C.types (Hir.lambdaType d.params d.result) (.function as c)) (h2 : Typed C Γ (some c) d.body c)
    (hl : Lowerable C d.body) : Eventually fun a n => ∃ e, compileDefinitionT K.toTypedConfig a C n d = some e := by
  obtain ⟨cs, r, e, h3, h4⟩ := Hir.canon_function_inv h1
  refine ((compiles_of_typed (K := K.toTypedConfig) h2 hl).and ((eventually_types (K := K.toTypedConfig) h3).and
    (eventually_type (K := K.toTypedConfig) h4))).mono ?_
  rintro a n ⟨⟨b, h5⟩, ⟨ps, h6⟩, h7⟩
  exact ⟨_, by simp only [compileDefinitionT, h5, h6, h7, Option.bind_eq_bind, Option.bind_some]; rfl⟩

theorem compileAny_some {C : Ctx} {t : Ty} (h : ∃ c, Canon C.types t c) :
    Eventually fun a _ => ∀ e, ∃ e', compileAny K a C t e = some e' := by
  obtain ⟨c, hc⟩ := h
  refine (eventually_canon hc).mono fun a n h e => ?_
  simp only [compileAny, h, ok?, Option.bind_eq_bind, Option.bind_some]
  split <;> exact ⟨_, rfl⟩

/-- A type that has type information. -/
def Informative (m : Module) (c : Ty) : Prop :=
  concreteType K.toTypedConfig c ≠ .variant ∧ ∀ n, c = .record n → n ∈ m.types.records.map (·.1)

theorem enumerate_snd {α : Type} {i : Nat} {xs : List α} {p : Nat × α} (h : p ∈ enumerate i xs) : p.2 ∈ xs := by
  obtain ⟨j, x⟩ := p
  exact List.mem_of_getElem? (enumerate_mem h).2

theorem information_some {c : Ty} (hr : ∀ r ∈ m.types.records, ∀ f ∈ r.2, ∃ c, Canon m.ctx.types f.type c)
    (h : Informative (K := K) m c) : Eventually fun a _ => ∃ ds, informationDefinitions K a m.ctx X c = some ds := by
  obtain ⟨h1, h2⟩ := h
  suffices hs : Eventually fun a (_ : Nat) => (∃ e, debugBody K a m.ctx X c = some e) ∧ ∃ e, equalBody K a m.ctx c = some e by
    refine hs.mono ?_
    rintro a n ⟨⟨d, hd⟩, e, he⟩
    exact ⟨_, by simp only [informationDefinitions, debugDefinition, equalDefinition, hd, he, Option.bind_eq_bind, Option.bind_some]; rfl⟩
  cases c with
  | record r =>
    obtain ⟨fs, hfs⟩ := Hir.lastLookup_isSome (h2 r rfl)
    have hfs' : m.ctx.records r = some fs := hfs
    have hmem := Hir.lastLookup_some hfs
    have k : Eventually fun a (_ : Nat) => ∀ f ∈ fs, ∀ e, ∃ e', compileAny K a m.ctx f.type e = some e' :=
      Eventually.all fun f hf => compileAny_some (hr _ hmem f hf)
    refine k.mono fun a n k => ⟨?_, ?_⟩
    · have : ∃ ess, (enumerate 0 fs).mapM (debugField K a m.ctx r) = some ess := mapM_some fun f hf => by
        obtain ⟨e', he⟩ := k f.2 (enumerate_snd hf) (operationT (.field r f.1) [.variable "$x"])
        exact ⟨_, by simp only [debugField, he, Option.bind_eq_bind, Option.bind_some]; rfl⟩
      obtain ⟨ess, he⟩ := this
      exact ⟨_, by simp only [debugBody, Hir.resolveRecord, hfs', ok?, he, Option.bind_eq_bind, Option.bind_some]; rfl⟩
    · have : ∀ (hs : List (Nat × RecordField)) (e0 : TExpr), (∀ f ∈ hs, f.2 ∈ fs) →
          ∃ e, hs.foldlM (equalField K a m.ctx r) e0 = some e := by
        intro hs
        induction hs with
        | nil => intro e0 _; exact ⟨e0, rfl⟩
        | cons f hs ih =>
          intro e0 hm
          obtain ⟨l, hl⟩ := k f.2 (hm f (by simp)) (operationT (.field r f.1) [.variable "$lhs"])
          obtain ⟨r', hr'⟩ := k f.2 (hm f (by simp)) (operationT (.field r f.1) [.variable "$rhs"])
          obtain ⟨e, he⟩ := ih (mergedResult e0 (equalCall l r')) fun f hf => hm f (by simp [hf])
          exact ⟨e, by simp only [List.foldlM_cons, equalField, hl, hr', Option.bind_eq_bind, Option.bind_some]; exact he⟩
      obtain ⟨e, he⟩ := this (enumerate 0 fs) trueT fun f hf => enumerate_snd hf
      exact ⟨e, by simp only [equalBody, Hir.resolveRecord, hfs', ok?, Option.bind_eq_bind, Option.bind_some]; exact he⟩
  | any => exact absurd rfl h1
  | union => exact absurd rfl h1
  | reference => exact absurd rfl h1
  | _ => exact ⟨0, fun _ _ _ _ => ⟨⟨_, rfl⟩, _, rfl⟩⟩

theorem mapM_eventually {α β : Type} {f : Nat → Nat → α → Option β} {Q : α → β → Prop} : ∀ {xs : List α},
    (∀ x ∈ xs, ∃ y, Q x y ∧ Eventually fun a n => f a n x = some y) →
    ∃ ys, (Eventually fun a n => xs.mapM (f a n) = some ys) ∧ ∀ y ∈ ys, ∃ x ∈ xs, Q x y
  | [], _ => ⟨[], ⟨0, fun _ _ _ _ => rfl⟩, by simp⟩
  | x :: xs, h => by
    obtain ⟨y, h1, h2⟩ := h x (by simp)
    obtain ⟨ys, h3, h4⟩ := mapM_eventually (xs := xs) fun x hx => h x (List.mem_cons_of_mem _ hx)
    refine ⟨y :: ys, (h2.and h3).mono fun a n ⟨h5, h6⟩ => by simp [h5, h6], ?_⟩
    intro z hz
    rcases List.mem_cons.1 hz with rfl | hz
    · exact ⟨x, by simp, h1⟩
    · obtain ⟨w, hw, h⟩ := h4 z hz
      exact ⟨w, by simp [hw], h⟩

theorem mapM_mono {α β : Type} {f g : α → Option β} : ∀ {xs : List α} {ys : List β}, (∀ x ∈ xs, ∀ y, f x = some y → g x = some y) →
    xs.mapM f = some ys → xs.mapM g = some ys
  | [], ys, _, h => h
  | x :: xs, ys, hfg, h => by
    simp only [List.mapM_cons, Option.pure_def, Option.bind_eq_bind, Option.bind_eq_some_iff, Option.some.injEq] at h ⊢
    obtain ⟨y, hy, zs, hzs, rfl⟩ := h
    exact ⟨y, hfg x (by simp) y hy, zs, mapM_mono (fun x hx => hfg x (by simp [hx])) hzs, rfl⟩

theorem collectFrom_mono (n : Nat) : ∀ {e : Expr} {ts : List Ty}, collectFrom n e = some ts → collectFrom (n + 1) e = some ts := by
  induction n with
  | zero => intro e ts h; cases h
  | succ n ih =>
    intro e ts h
    rw [collectFrom, Option.map_eq_some_iff] at h
    obtain ⟨tss, h, rfl⟩ := h
    rw [collectFrom, mapM_mono (fun y _ ts h => ih h) h]
    rfl

theorem collect_eventually (e : Expr) : ∃ ts, (∀ t ∈ ts, ∃ x, Visited x e ∧ t ∈ lowerTypes x) ∧
    Eventually fun _ n => collectFrom n e = some ts := by
  obtain ⟨ts, h⟩ := collect_some _ e le_rfl (sizeOf e + 2) (by omega)
  refine ⟨ts, collectFrom_source h, sizeOf e + 2, fun _ n _ hn => ?_⟩
  induction hn with
  | refl => exact h
  | step _ ih => exact collectFrom_mono _ (ih)

/-- Collected types. -/
theorem variants_eventually (hm : Hir.ModuleOk m) (hl : LowerableModule m) :
    ∃ vs, (Eventually fun a n => variantTypes a n m = some vs) ∧
      ∀ v ∈ vs, Canon m.ctx.types v v ∧ ∀ n, v = .record n → n ∈ m.types.records.map (·.1) := by
  obtain ⟨tss, h1, h2⟩ := mapM_eventually (xs := m.definitions) (f := fun _ n d => collectFrom n d.body)
    (Q := fun d ts => ∀ t ∈ ts, ∃ x, Visited x d.body ∧ t ∈ lowerTypes x) fun d _ => collect_eventually d.body
  have hc : ∀ t ∈ tss.flatten ++ m.types.records.flatMap fun r => r.2.map (·.type), (∃ c, Canon m.ctx.types t c) ∧
      ∀ c, Canon m.ctx.types t c → ∀ n, .record n ∈ Hir.unionMembers c → n ∈ m.types.records.map (·.1) := by
    intro t ht
    rcases List.mem_append.1 ht with ht | ht
    · obtain ⟨ts, hts, ht⟩ := List.mem_flatten.1 ht
      obtain ⟨d, hd, h⟩ := h2 ts hts
      obtain ⟨x, hx, hx'⟩ := h t ht
      obtain ⟨as, c, _, h4⟩ := hm d hd
      exact ⟨visited_types hx h4 (hl.bodies d hd) t hx', hl.records t (.inl ⟨d, hd, x, hx, hx'⟩)⟩
    · obtain ⟨r, hr, ht⟩ := List.mem_flatMap.1 ht
      obtain ⟨f, hf, rfl⟩ := List.mem_map.1 ht
      exact ⟨hl.fields r hr f hf, hl.records _ (.inr ⟨r, hr, f, hf, rfl⟩)⟩
  obtain ⟨ms, h3, h4⟩ := mapM_eventually (xs := tss.flatten ++ m.types.records.flatMap fun r => r.2.map (·.type))
    (f := fun a _ t => ok? (Hir.unionMemberSet a m.ctx.types t))
    (Q := fun t us => ∃ c, Canon m.ctx.types t c ∧ us = Hir.btreeSet (Hir.unionMembers c)) (by
      intro t ht
      obtain ⟨⟨c, hc⟩, _⟩ := hc t ht
      exact ⟨_, ⟨c, hc, rfl⟩, (eventually_canon hc).mono fun a n h => by simp [Hir.unionMemberSet, h, bind, Res.bind, ok?]⟩)
  refine ⟨ms.flatten, (h1.and h3).mono fun a n ⟨h5, h6⟩ => ?_, ?_⟩
  · simp only [variantTypes, h5, h6, Option.bind_eq_bind, Option.bind_some]
  · intro v hv
    obtain ⟨us, hus, hv⟩ := List.mem_flatten.1 hv
    obtain ⟨t, ht, c, hc', rfl⟩ := h4 us hus
    have hv := (Hir.mem_btreeSet _ _).1 hv
    refine ⟨(hc'.member hv).1, ?_⟩
    rintro n rfl
    exact (hc t ht).2 c hc' n hv

theorem types_eventually (hm : Hir.ModuleOk m) (hl : LowerableModule m) :
    ∃ vs ts, (Eventually fun a n => variantTypes a n m = some vs ∧ informationTypes a n m = some ts) ∧
      ∀ c ∈ ts, Informative (K := K) m c := by
  obtain ⟨vs, h1, h2⟩ := variants_eventually hm hl
  obtain ⟨cs, h3, h4⟩ := mapM_eventually
    (xs := [Ty.boolean, .error, .none, .number, .string] ++ vs ++ m.types.records.map fun r => Ty.record r.1)
    (f := fun a _ t => ok? (Hir.canonicalize a m.ctx.types t))
    (Q := fun t c => t = c ∧ Canon m.ctx.types t t ∧ ∀ n, t = .record n → n ∈ m.types.records.map (·.1)) (by
      intro t ht
      have : Canon m.ctx.types t t ∧ ∀ n, t = .record n → n ∈ m.types.records.map (·.1) := by
        simp only [List.mem_append, List.mem_map] at ht
        rcases ht with (ht | ht) | ⟨r, hr, rfl⟩
        · simp only [List.mem_cons, List.not_mem_nil, or_false] at ht
          rcases ht with rfl | rfl | rfl | rfl | rfl
          exacts [⟨Hir.canon_boolean, by simp⟩, ⟨Hir.canon_error, by simp⟩, ⟨Hir.canon_none, by simp⟩, ⟨Hir.canon_number, by simp⟩,
            ⟨Hir.canon_string, by simp⟩]
        · exact h2 t ht
        · refine ⟨Hir.canon_record _, ?_⟩
          intro n e
          cases e
          exact List.mem_map.2 ⟨r, hr, rfl⟩
      exact ⟨t, ⟨rfl, this⟩, (eventually_canon this.1).mono fun a n h => by simp [h, ok?]⟩)
  refine ⟨vs, cs.filter fun
    | .any => false
    | .union _ _ => false
    | _ => true, (h1.and h3).mono fun a n ⟨h5, h6⟩ => ⟨h5, ?_⟩, ?_⟩
  · simp only [informationTypes, h5, h6, Option.bind_eq_bind, Option.bind_some]
    rfl
  · intro c hc
    obtain ⟨hc, hp⟩ := List.mem_filter.1 hc
    obtain ⟨t, _, rfl, h7, h8⟩ := h4 c hc
    refine ⟨concreteType_ne h7 ?_ ?_, h8⟩
    · rintro rfl; cases hp
    · rintro l r rfl; cases hp

/-- Modules whose functions have types are lowered. -/
theorem compileModuleT_some (hm : Hir.ModuleOk m) (hl : LowerableModule m) :
    Eventually fun a n => ∃ t, compileModuleT K X a n m = some t := by
  obtain ⟨vs, ts, h1, h2⟩ := types_eventually (K := K) hm hl
  have h3 : Eventually fun a (_ : Nat) => ∃ rs, m.types.records.mapM (recordType K a m.ctx) = some rs := by
    refine (Eventually.all (P := fun r a _ => ∃ x, recordType K a m.ctx r = some x) fun r hr => ?_).mono fun a n h => mapM_some h
    have := eventually_compileTypes (K := K) (C := m.ctx) (as := r.2.map (·.type)) (by
      intro t ht
      obtain ⟨f, hf, rfl⟩ := List.mem_map.1 ht
      exact hl.fields r hr f hf)
    refine this.mono ?_
    rintro a n ⟨us, h⟩
    rw [List.mapM_map] at h
    exact ⟨(r.1, us), by simp only [recordType]; exact Option.map_eq_some_iff.2 ⟨us, h, rfl⟩⟩
  have h4 : ∀ p : String × (List Ty × Ty) → Bool,
      Eventually fun a (_ : Nat) => ∃ ds, (m.declarations.filter p).mapM (compileDeclarationT K a m.ctx) = some ds := by
    intro p
    refine (Eventually.all (P := fun d a _ => ∃ x, compileDeclarationT K a m.ctx d = some x) fun d hd => ?_).mono fun a n h => mapM_some h
    have := hl.declarations d (List.mem_filter.1 hd).1
    exact declaration_some this.1 this.2
  have h5 : Eventually fun a n => ∃ ds, m.definitions.mapM (compileDefinitionT K.toTypedConfig a m.ctx n) = some ds := by
    refine (Eventually.all (P := fun d a n => ∃ x, compileDefinitionT K.toTypedConfig a m.ctx n d = some x) fun d hd => ?_).mono
      fun a n h => mapM_some h
    obtain ⟨as, c, h6, h7⟩ := hm d hd
    exact definition_some h6 h7 (hl.bodies d hd)
  have h6 : Eventually fun a (_ : Nat) => ∃ ds, (ts.dedup.filter fun c => !X.externalType c).mapM (informationDefinitions K a m.ctx X) = some ds := by
    refine (Eventually.all (P := fun d a _ => ∃ x, informationDefinitions K a m.ctx X d = some x) fun d hd => ?_).mono
      fun a n h => mapM_some h
    exact information_some hl.fields (h2 d (List.mem_dedup.1 (List.mem_filter.1 hd).1))
  refine (h1.and (h3.and ((h4 fun d => X.foreign d.1).and ((h4 fun d => !X.foreign d.1).and (h5.and h6))))).mono ?_
  rintro a n ⟨⟨g1, g2⟩, ⟨r, g3⟩, ⟨f, g4⟩, ⟨d, g5⟩, ⟨e, g6⟩, i, g7⟩
  exact ⟨_, by simp only [compileModuleT, g1, g2, g3, g4, g5, g6, g7, Option.bind_eq_bind, Option.bind_some]; rfl⟩

end

end Verif.Lower
