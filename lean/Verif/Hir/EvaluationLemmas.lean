import Verif.Hir.Evaluation

/-!
# Evaluation of expressions looks only at their parts

The bound of the depth in `evalWith` does not matter: `evaluator_eval`.
-/

namespace Verif.Hir

variable {W : World} {m : Module}

theorem Out.mapList_congr {α β : Type} {f g : α → Out β} : ∀ {as : List α}, (∀ a ∈ as, f a = g a) →
    Out.mapList f as = Out.mapList g as
  | [], _ => rfl
  | a :: as, h => by
    unfold Out.mapList
    rw [h a (by simp), Out.mapList_congr fun b hb => h b (by simp [hb])]

section
variable {r : Evaluator} {g : Env → Expr → Out Val}

theorem stepAlternatives_congr {env : Env} {x : String} {tag : Ty} {p : Val} {else_ : Option (Option Ty × Expr)} :
    ∀ {bs : List (Ty × Expr)}, (∀ b ∈ bs, ∀ env, r.eval env b.2 = g env b.2) →
    (∀ t e, else_ = some (t, e) → ∀ env, r.eval env e = g env e) →
    stepAlternatives m r env x tag p bs else_ = stepAlternatives m { r with eval := g } env x tag p bs else_
  | (t, e) :: bs, h, h' => by
    unfold stepAlternatives
    have h1 := h (t, e) (by simp)
    simp only at h1
    simp only [h1, stepAlternatives_congr (bs := bs) (fun b hb => h b (by simp [hb])) h']
  | [], h, h' => by
    unfold stepAlternatives
    rcases else_ with _ | ⟨_ | t, e⟩
    · rfl
    · rfl
    · simp only [h' _ _ rfl]

theorem stepMap_congr {env : Env} {k v : Ty} : ∀ {elems : List (MapElem Expr)},
    (∀ a b, .single a b ∈ elems → ∀ env, r.eval env a = g env a ∧ r.eval env b = g env b) →
    (∀ e, .multiple e ∈ elems → ∀ env, r.eval env e = g env e) →
    stepMap W m r env k v elems = stepMap W m { r with eval := g } env k v elems
  | [], _, _ => rfl
  | .single a b :: rest, h, h' => by
    unfold stepMap
    simp only [(h a b (by simp) _).1, (h a b (by simp) _).2, stepMap_congr (elems := rest)
      (fun a b hm => h a b (by simp [hm])) (fun e hm => h' e (by simp [hm]))]
  | .multiple e :: rest, h, h' => by
    unfold stepMap
    simp only [h' e (by simp), stepMap_congr (elems := rest)
      (fun a b hm => h a b (by simp [hm])) (fun e hm => h' e (by simp [hm]))]

theorem countAll_congr : ∀ {n : Nat} {is : List Item}, countAll r n is = countAll { r with eval := g } n is
  | 0, _ => rfl
  | n + 1, is => by
    unfold countAll
    congr
    funext o
    rcases o with _ | ⟨i, is'⟩
    · rfl
    · simp only [countAll_congr (n := n) (is := is')]

theorem stepBuiltIn_congr {env : Env} {t : Option Ty} {f : BuiltIn} {args : List Expr}
    (h : ∀ e ∈ args, ∀ env, r.eval env e = g env e) :
    stepBuiltIn W m r env t f args = stepBuiltIn W m { r with eval := g } env t f args := by
  have hc : ∀ n is, countAll r n is = countAll { r with eval := g } n is := fun _ _ => countAll_congr
  rcases args with _ | ⟨a, _ | ⟨b, _ | ⟨c, rest⟩⟩⟩
  · cases f <;> rfl
  · have h1 := h a (by simp)
    cases f <;> simp only [stepBuiltIn, h1, hc]
  · have h1 := h a (by simp)
    have h2 := h b (by simp)
    cases f <;> simp only [stepBuiltIn, h1, h2]
  · cases f <;> rfl

theorem stepEval_congr {env : Env} {e : Expr} (h : ∀ e', sizeOf e' < sizeOf e → ∀ env, r.eval env e' = g env e') :
    stepEval W m r env e = stepEval W m { r with eval := g } env e := by
  cases e with
  | boolean b => rfl
  | none => rfl
  | number i => rfl
  | string s => rfl
  | «variable» x => rfl
  | builtIn f => rfl
  | lambda ps t b => rfl
  | list t es => rfl
  | comprehension t e b bs => rfl
  | call t f args =>
    simp only [stepEval]
    rw [h f (by simp <;> omega), Out.mapList_congr (g := g env)]
    intro a ha
    refine h a ?_ env
    have := List.sizeOf_lt_of_mem ha
    simp; omega
  | builtInCall t f args =>
    simp only [stepEval]
    apply stepBuiltIn_congr
    intro a ha
    refine h a ?_
    have := List.sizeOf_lt_of_mem ha
    simp; omega
  | if_ c a b =>
    simp only [stepEval]
    rw [h c (by simp <;> omega), h a (by simp <;> omega), h b (by simp <;> omega)]
  | ifList t l x y a b =>
    simp only [stepEval]
    simp only [h l (by simp <;> omega), h a (by simp <;> omega), h b (by simp <;> omega)]
  | ifMap kt vt x e k a b =>
    simp only [stepEval]
    simp only [h e (by simp <;> omega), h k (by simp <;> omega), h a (by simp <;> omega), h b (by simp <;> omega)]
  | ifType x e bs else_ =>
    simp only [stepEval]
    rw [h e (by simp <;> omega)]
    congr
    funext v
    cases v with
    | variant tag p =>
      apply stepAlternatives_congr
      · intro b hb
        refine h b.2 ?_
        have h1 := List.sizeOf_lt_of_mem hb
        have h2 : sizeOf b.2 < sizeOf b := by cases b; simp
        simp; omega
      · intro t e' he
        subst he
        refine h e' ?_
        simp; omega
    | _ => rfl
  | let_ x t a b =>
    simp only [stepEval]
    simp only [h a (by simp <;> omega), h b (by simp <;> omega)]
  | map k v es =>
    simp only [stepEval]
    rw [stepMap_congr (g := g)]
    · intro a b hm env
      have h1 := List.sizeOf_lt_of_mem (List.mem_reverse.mp hm)
      have h2 : sizeOf (MapElem.single a b) = 1 + sizeOf a + sizeOf b := by simp
      exact ⟨h a (by simp <;> omega) env, h b (by simp <;> omega) env⟩
    · intro e hm env
      have h1 := List.sizeOf_lt_of_mem (List.mem_reverse.mp hm)
      have h2 : sizeOf (MapElem.multiple e) = 1 + sizeOf e := by simp
      exact h e (by simp <;> omega) env
  | addition t a b =>
    simp only [stepEval]
    rw [h a (by simp <;> omega), h b (by simp <;> omega)]
  | arithmetic op a b =>
    simp only [stepEval]
    rw [h a (by simp <;> omega), h b (by simp <;> omega)]
  | booleanOp op a b =>
    simp only [stepEval]
    rw [h a (by simp <;> omega), h b (by simp <;> omega)]
  | equality t op a b =>
    cases t with
    | none => rfl
    | some t =>
      simp only [stepEval, stepEqual]
      rw [h a (by simp <;> omega), h b (by simp <;> omega)]
  | not a =>
    simp only [stepEval]
    rw [h a (by simp)]
  | order op a b =>
    simp only [stepEval]
    rw [h a (by simp <;> omega), h b (by simp <;> omega)]
  | try_ t a =>
    simp only [stepEval]
    rw [h a (by simp <;> omega)]
  | record t fs =>
    simp only [stepEval]
    rw [Out.mapList_congr (g := fun f : String × Expr => do
      let v ← g env f.2
      .val (f.1, v))]
    intro f hf
    have h1 := List.sizeOf_lt_of_mem hf
    have h2 : sizeOf f.2 < sizeOf f := by cases f; simp <;> omega
    rw [h f.2 (by simp <;> omega)]
  | deconstruct t a x =>
    cases t <;> simp only [stepEval]
    rw [h a (by simp <;> omega)]
  | update t a fs =>
    simp only [stepEval]
    have : ∀ f ∈ fs, (do
        let v ← r.eval env f.2
        Out.val (f.1, v)) = (do
        let v ← g env f.2
        Out.val (f.1, v)) := by
      intro f hf
      have h1 := List.sizeOf_lt_of_mem hf
      have h2 : sizeOf f.2 < sizeOf f := by cases f; simp <;> omega
      rw [h f.2 (by simp <;> omega)]
    rw [h a (by simp <;> omega), Out.mapList_congr this]
  | coercion s t a =>
    simp only [stepEval]
    rw [h a (by simp <;> omega)]

end

theorem evalWith_eq {r : Evaluator} : ∀ (k : Nat) (e : Expr), sizeOf e ≤ k → ∀ (d : Nat), sizeOf e ≤ d → ∀ env,
    evalWith W m r d env e = evalWith W m r (sizeOf e) env e
  | 0, e, hk, _, _, _ => by cases e <;> simp at hk
  | k + 1, e, hk, d, hd, env => by
    have h1 : 0 < sizeOf e := by cases e <;> simp <;> omega
    obtain ⟨d', rfl⟩ : ∃ d', d = d' + 1 := ⟨d - 1, by omega⟩
    obtain ⟨s, hs⟩ : ∃ s, sizeOf e = s + 1 := ⟨sizeOf e - 1, by omega⟩
    rw [hs]
    unfold evalWith
    refine stepEval_congr (r := { r with eval := evalWith W m r d' }) ?_
    intro e' he' env'
    show evalWith W m r d' env' e' = evalWith W m r s env' e'
    rw [evalWith_eq k e' (by omega) d' (by omega) env', evalWith_eq k e' (by omega) s (by omega) env']

theorem complete_eval {r : Evaluator} (env : Env) (e : Expr) :
    (r.complete W m).eval env e = stepEval W m (r.complete W m) env e := by
  have h1 : 0 < sizeOf e := by cases e <;> simp <;> omega
  obtain ⟨s, hs⟩ : ∃ s, sizeOf e = s + 1 := ⟨sizeOf e - 1, by omega⟩
  show evalWith W m r (sizeOf e) env e = _
  rw [hs]
  unfold evalWith
  refine stepEval_congr (r := { r with eval := evalWith W m r s })
    (g := fun env e => evalWith W m r (sizeOf e) env e) ?_
  intro e' he' env'
  exact evalWith_eq (sizeOf e') e' (Nat.le_refl _) s (by omega) env'

/-- Evaluating an expression is one step, with the evaluation of its parts. -/
theorem evaluator_eval {a n : Nat} (env : Env) (e : Expr) :
    (evaluator W m a n).eval env e = stepEval W m (evaluator W m a n) env e := by
  cases n <;> exact complete_eval env e

end Verif.Hir
