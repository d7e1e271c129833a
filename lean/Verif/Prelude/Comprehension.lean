import Verif.Prelude.ListProperties

/-!
# C49: list literals and comprehensions

The calls of prelude functions that list literals and list comprehensions are compiled to, evaluated on the
lists of `ListModel`. Expressions are functions from environments to thunks: what events their evaluation
causes and what it results in.
-/

namespace Verif.Prelude.Lists

variable {ε α : Type}

/-! ## Model -/

/-- Elements of list literals (`ListElement`, `lib/hir/src/ir/list.rs`), as thunks. -/
inductive ListElement (ε α : Type) where
  | single (x : Thunk ε α)
  | multiple (l : Thunk ε (PenList ε α))

/-- `transform_list` (`lib/hir-mir/src/transformation/list_literal.rs:13-105`). -/
def transformList : List (ListElement ε α) → PenList ε α
  | [] => emptyList
  | [.multiple l] => lazyList l
  | .multiple l :: rest => concatenateLists l (transformList rest)
  | .single x :: rest => prependToList x (transformList rest)

/-- Values of the variables that comprehensions bind, which are element thunks. -/
abbrev Bindings (ε α : Type) := String → Option (Thunk ε α)

/-- Binding names in order, so that later ones hide earlier ones. -/
def Bindings.insertAll (σ : Bindings ε α) : List (String × Thunk ε α) → Bindings ε α
  | [] => σ
  | (x, t) :: xs => Bindings.insertAll (fun y => if y = x then some t else σ y) xs

/-- `for names in first, others... if condition`: `ListComprehensionBranch`
(`lib/hir/src/ir/list_comprehension_branch.rs`). The parser requires at least one iteratee
(`lib/parse/src/parser.rs:875-895`). -/
structure CBranch (ε α : Type) where
  names : List String
  first : Bindings ε α → Thunk ε (PenList ε α)
  others : List (Bindings ε α → Thunk ε (PenList ε α))
  condition : Option (Bindings ε α → Thunk ε Bool)

/-- The `IfList` expressions for the lists after the first one
(`lib/hir-mir/src/list_comprehension.rs:148-167`): events, and first elements and rests unless a list is empty.
Lists after an empty one are not looked at. -/
def unconsOthers : List (Nodes ε α) → List ε × Option (List (Thunk ε α) × List (Nodes ε α))
  | [] => ([], some ([], []))
  | .nil log :: _ => (log, none)
  | .cons log x r :: rest =>
    match unconsOthers rest with
    | (log', none) => (log ++ log', none)
    | (log', some (xs, rs)) => (log ++ log', some (x :: xs, r :: rs))

/-- A call of `$loop` (`compile_function_definition`, `lib/hir-mir/src/list_comprehension.rs:82-178`) with the
first list and the other ones; `element` is the element of the list literal. -/
def loopCall (b : CBranch ε α) (element : Bindings ε α → ListElement ε α) (σ : Bindings ε α) :
    Nodes ε α → List (Nodes ε α) → Thunk ε (PenList ε α)
  | .nil log, _ => ⟨log, emptyList⟩
  | .cons log x r, others =>
    match unconsOthers others with
    | (log', none) => ⟨log ++ log', emptyList⟩
    | (log', some (xs, rs)) =>
      let σ' := σ.insertAll (b.names.zip (x :: xs))
      let rest := loopCall b element σ r rs
      match b.condition with
      | none => ⟨log ++ log', transformList [element σ', .multiple rest]⟩
      | some c =>
        if (c σ').val then ⟨log ++ log' ++ (c σ').log, transformList [element σ', .multiple rest]⟩
        else ⟨log ++ log' ++ (c σ').log ++ rest.log, rest.val⟩

/-- `compile_lists` (`lib/hir-mir/src/list_comprehension.rs:37-80`): a lazy list that evaluates the iteratees and
calls `$loop`. -/
def compileLists (b : CBranch ε α) (element : Bindings ε α → ListElement ε α) (σ : Bindings ε α) : PenList ε α :=
  let first := b.first σ
  let others := b.others.map (· σ)
  let t := loopCall b element σ first.val.node (others.map (·.val.node))
  lazyList ⟨first.log ++ (others.map (·.log)).flatten ++ t.log, t.val⟩

/-- `compile` (`lib/hir-mir/src/list_comprehension.rs:8-35`), for the branches of the intermediate
representation. Without branches it panics; the parser requires one. Compiling the rest of the comprehension in
an element causes no events. -/
def compileComprehension (element : Bindings ε α → Thunk ε α) : List (CBranch ε α) → Bindings ε α → PenList ε α
  | [], σ => transformList [.single (element σ)]
  | [b], σ => compileLists b (fun σ => .single (element σ)) σ
  | b :: bs, σ => compileLists b (fun σ => .multiple ⟨[], compileComprehension element bs σ⟩) σ

/-- A comprehension with its `for` clauses in source order, the reverse of that of the intermediate
representation (`lib/ast-hir/src/module.rs:278-305`). -/
def comprehension (element : Bindings ε α → Thunk ε α) (bs : List (CBranch ε α)) (σ : Bindings ε α) : PenList ε α :=
  compileComprehension element bs.reverse σ

/-! ## Specification -/

/-- The elements of a list. -/
def elements (l : PenList ε α) : List (Thunk ε α) :=
  go l.node
where
  go : Nodes ε α → List (Thunk ε α)
    | .nil _ => []
    | .cons _ x r => x :: go r

/-- The rows of several lists: the `i`-th row has the `i`-th element of each list, as long as all have one. -/
def rows (first : List (Thunk ε α)) (others : List (List (Thunk ε α))) : List (List (Thunk ε α)) :=
  (List.range ((others.map List.length).foldr min first.length)).map fun i =>
    (first :: others).filterMap fun l => l[i]?

/-- The bindings one `for` clause makes, in order. -/
def CBranch.bindings (b : CBranch ε α) (σ : Bindings ε α) : List (Bindings ε α) :=
  ((rows (elements (b.first σ).val) (b.others.map fun l => elements (l σ).val)).map
    fun row => σ.insertAll (b.names.zip row)).filter
      fun σ => match b.condition with
        | none => true
        | some c => (c σ).val

/-- What `[t element for … for …]` means: the last clause is the outermost loop. -/
def Comprehends (element : Bindings ε α → Thunk ε α) : List (CBranch ε α) → Bindings ε α → List (Thunk ε α)
  | [], σ => [element σ]
  | b :: bs, σ => (b.bindings σ).flatMap (Comprehends element bs)

/-! ## Proofs -/

theorem seq_elements (l : PenList ε α) : Seq l (elements l) := by
  obtain ⟨n⟩ := l
  unfold elements
  induction n with
  | nil log => exact seq_nil_iff.mpr rfl
  | cons log x r ih => exact seq_cons_iff.mpr ⟨_, rfl, ih⟩

theorem elements_of_seq {l : PenList ε α} {xs : List (Thunk ε α)} (h : Seq l xs) : elements l = xs :=
  (seq_elements l).unique h

theorem elements_empty : elements (emptyList : PenList ε α) = [] := rfl

theorem elements_prepend (x : Thunk ε α) (l : PenList ε α) : elements (prependToList x l) = x :: elements l := rfl

theorem elements_lazy (l : Thunk ε (PenList ε α)) : elements (lazyList l) = elements l.val := by
  obtain ⟨log, ⟨n⟩⟩ := l
  cases n <;> rfl

theorem elements_concatenate (l : Thunk ε (PenList ε α)) (m : PenList ε α) :
    elements (concatenateLists l m) = elements l.val ++ elements m :=
  elements_of_seq (seq_delay.mpr (seq_concatenateNodes _ _ (seq_elements _) (seq_elements _)))

/-- What an element contributes. -/
def ListElement.contribution : ListElement ε α → List (Thunk ε α)
  | .single x => [x]
  | .multiple l => elements l.val

/-- C49, literals: a list literal has the single elements and those of the spread lists in order. The elements
are not evaluated. -/
theorem c49_literal (es : List (ListElement ε α)) :
    elements (transformList es) = es.flatMap ListElement.contribution := by
  induction es with
  | nil => rfl
  | cons e rest ih =>
    cases e with
    | single x => simp [transformList, elements_prepend, ih, ListElement.contribution]
    | multiple l =>
      cases rest with
      | nil => simp [transformList, elements_lazy, ListElement.contribution]
      | cons e' rest =>
        simp only [transformList, elements_concatenate, ih]
        simp [ListElement.contribution]

theorem rows_nil (others : List (List (Thunk ε α))) : rows [] others = [] := by
  unfold rows
  have : (others.map List.length).foldr min 0 = 0 := by induction others <;> simp_all
  simp [this]

theorem rows_empty (first : List (Thunk ε α)) {others : List (List (Thunk ε α))} (h : [] ∈ others) :
    rows first others = [] := by
  unfold rows
  have : (others.map List.length).foldr min first.length = 0 := by
    induction others with
    | nil => simp at h
    | cons l ls ih =>
      rcases List.mem_cons.mp h with h | h
      · subst h; simp
      · simp [ih h]
  simp [this]

theorem foldr_min_cons (x : Thunk ε α) (xs : List (Thunk ε α)) : ∀ (ys : List (Thunk ε α)) (ls : List (List (Thunk ε α))),
    ys.length = ls.length →
    ((List.zipWith List.cons ys ls).map List.length).foldr min (x :: xs).length =
      (ls.map List.length).foldr min xs.length + 1
  | [], [], _ => by simp
  | y :: ys, l :: ls, h => by
    simp only [List.length_cons, Nat.add_right_cancel_iff] at h
    have := foldr_min_cons x xs ys ls h
    simp only [List.zipWith_cons_cons, List.map_cons, List.length_cons, List.foldr_cons] at this ⊢
    rw [this]
    omega

theorem filterMap_head (ys : List (Thunk ε α)) (ls : List (List (Thunk ε α))) (h : ys.length = ls.length) :
    (List.zipWith List.cons ys ls).filterMap (fun l => l[0]?) = ys := by
  induction ys generalizing ls with
  | nil => simp
  | cons y ys ih =>
    cases ls with
    | nil => simp at h
    | cons l ls =>
      simp only [List.length_cons, Nat.add_right_cancel_iff] at h
      simp [ih ls h]

theorem filterMap_tail (i : Nat) (ys : List (Thunk ε α)) (ls : List (List (Thunk ε α)))
    (h : ys.length = ls.length) :
    (List.zipWith List.cons ys ls).filterMap (fun l => l[i + 1]?) = ls.filterMap (fun l => l[i]?) := by
  induction ys generalizing ls with
  | nil =>
    cases ls with
    | nil => rfl
    | cons l ls => simp at h
  | cons y ys ih =>
    cases ls with
    | nil => simp at h
    | cons l ls =>
      simp only [List.length_cons, Nat.add_right_cancel_iff] at h
      simp [ih ls h, List.filterMap_cons]

theorem rows_cons (x : Thunk ε α) (xs ys : List (Thunk ε α)) (ls : List (List (Thunk ε α)))
    (h : ys.length = ls.length) :
    rows (x :: xs) (List.zipWith List.cons ys ls) = (x :: ys) :: rows xs ls := by
  unfold rows
  rw [foldr_min_cons x xs ys ls h, List.range_succ_eq_map, List.map_cons, List.map_map]
  congr 1
  · simp only [List.filterMap_cons, List.getElem?_cons_zero]
    rw [filterMap_head ys ls h]
  · apply List.map_congr_left
    intro i _
    simp only [Function.comp, List.filterMap_cons, List.getElem?_cons_succ]
    rw [filterMap_tail i ys ls h]

theorem unconsOthers_none : ∀ {ns : List (Nodes ε α)} {log : List ε}, unconsOthers ns = (log, none) →
    [] ∈ ns.map fun n => elements ⟨n⟩
  | [], _, h => by simp [unconsOthers] at h
  | .nil _ :: _, _, _ => by simp [elements, elements.go]
  | .cons l x r :: rest, _, h => by
    unfold unconsOthers at h
    split at h
    · rename_i log' h'
      have := unconsOthers_none h'
      simp only [List.map_cons, List.mem_cons]
      exact Or.inr this
    · cases h

theorem unconsOthers_some : ∀ {ns : List (Nodes ε α)} {log : List ε} {xs : List (Thunk ε α)} {rs : List (Nodes ε α)},
    unconsOthers ns = (log, some (xs, rs)) → xs.length = rs.length ∧
      (ns.map fun n => elements ⟨n⟩) = List.zipWith List.cons xs (rs.map fun n => elements ⟨n⟩)
  | [], _, _, _, h => by
    simp only [unconsOthers, Prod.mk.injEq, Option.some.injEq] at h
    obtain ⟨_, rfl, rfl⟩ := h
    simp
  | .nil _ :: _, _, _, _, h => by simp [unconsOthers] at h
  | .cons l x r :: rest, _, _, _, h => by
    unfold unconsOthers at h
    split at h
    · simp at h
    · rename_i log' xs' rs' h'
      simp only [Prod.mk.injEq, Option.some.injEq] at h
      obtain ⟨_, rfl, rfl⟩ := h
      obtain ⟨h1, h2⟩ := unconsOthers_some h'
      refine ⟨by simp [h1], ?_⟩
      simp only [List.map_cons, List.zipWith_cons_cons, h2]
      rfl

/-- The filter of a clause. -/
def CBranch.accepts (b : CBranch ε α) (σ : Bindings ε α) : Bool :=
  match b.condition with
  | none => true
  | some c => (c σ).val

theorem loopCall_elements (b : CBranch ε α) (element : Bindings ε α → ListElement ε α) (σ : Bindings ε α)
    (first : Nodes ε α) (others : List (Nodes ε α)) :
    elements (loopCall b element σ first others).val =
      (((rows (elements ⟨first⟩) (others.map fun n => elements ⟨n⟩)).map
        fun row => σ.insertAll (b.names.zip row)).filter b.accepts).flatMap
          fun σ => (element σ).contribution := by
  induction first generalizing others with
  | nil log =>
    have : elements (⟨.nil log⟩ : PenList ε α) = [] := rfl
    rw [this, rows_nil]
    rfl
  | cons log x r ih =>
    have hx : elements (⟨.cons log x r⟩ : PenList ε α) = x :: elements ⟨r⟩ := rfl
    unfold loopCall
    split
    · rename_i log' h
      rw [rows_empty _ (unconsOthers_none h)]
      rfl
    · rename_i log' xs rs h
      obtain ⟨h1, h2⟩ := unconsOthers_some h
      rw [hx, h2, rows_cons _ _ _ _ (by simpa using h1), List.map_cons, List.filter_cons]
      simp only
      have ih := ih rs
      split
      · rename_i hc
        have : b.accepts (σ.insertAll (b.names.zip (x :: xs))) = true := by simp [CBranch.accepts, hc]
        rw [if_pos this, c49_literal]
        simp [ListElement.contribution, ih]
      · rename_i c hc
        have : b.accepts (σ.insertAll (b.names.zip (x :: xs))) = (c (σ.insertAll (b.names.zip (x :: xs)))).val := by
          simp [CBranch.accepts, hc]
        rw [this]
        split
        · rw [c49_literal]
          simp [ListElement.contribution, ih]
        · exact ih

theorem compileLists_elements (b : CBranch ε α) (element : Bindings ε α → ListElement ε α) (σ : Bindings ε α) :
    elements (compileLists b element σ) = (b.bindings σ).flatMap fun σ => (element σ).contribution := by
  unfold compileLists
  simp only [elements_lazy]
  rw [loopCall_elements]
  unfold CBranch.bindings
  simp only [List.map_map]
  rfl

theorem compileComprehension_elements (element : Bindings ε α → Thunk ε α) : ∀ (bs : List (CBranch ε α))
    (σ : Bindings ε α), elements (compileComprehension element bs σ) = Comprehends element bs σ
  | [], σ => rfl
  | [b], σ => by
    simp only [compileComprehension, compileLists_elements, Comprehends]
    rfl
  | b :: b' :: bs, σ => by
    simp only [compileComprehension, compileLists_elements, Comprehends]
    congr 1
    funext σ'
    exact compileComprehension_elements element (b' :: bs) σ'

/-- C49, comprehensions: the elements are those of nested loops over the `for` clauses, the last clause being
the outermost one, in order; lists of one clause are iterated at once up to the end of the shortest one, and
rows whose condition is false are left out. Elements are not evaluated. -/
theorem c49_comprehension (element : Bindings ε α → Thunk ε α) (bs : List (CBranch ε α)) (σ : Bindings ε α) :
    elements (comprehension element bs σ) = Comprehends element bs.reverse σ :=
  compileComprehension_elements element bs.reverse σ

/-- What `elements` lists is what taking the list apart with `FirstRest` gives. -/
theorem c49_elements (l : PenList ε α) : Seq l (elements l) := seq_elements l

/-! ### Laziness -/

/-- C49, laziness: looking at whether a comprehension has a first element causes the events of evaluating the
iteratees of the outermost clause, and of a search for the first row, but none of the elements of a list of
a single clause without a condition. -/
theorem c49_lazy_first (b : CBranch ε α) (element : Bindings ε α → Thunk ε α) (σ : Bindings ε α)
    (ho : b.others = []) (hc : b.condition = none) :
    (firstRest (comprehension element [b] σ)).1 = (b.first σ).log ++ (firstRest (b.first σ).val).1 := by
  simp only [comprehension, List.reverse_singleton, compileComprehension, compileLists, ho, List.map_nil,
    List.flatten_nil, List.append_nil]
  generalize b.first σ = t
  obtain ⟨log, ⟨n⟩⟩ := t
  cases n with
  | nil l => simp [loopCall, firstRest, force, lazyList, delay, emptyList]
  | cons l x r =>
    simp [loopCall, unconsOthers, hc, firstRest, force, lazyList, delay, transformList, prependToList]

/-! ### Examples -/

/-- Lists of numbers without events. -/
def numbers (xs : List Nat) : PenList String Nat := ⟨xs.foldr (fun x r => .cons [] ⟨[], x⟩ r) (.nil [])⟩

/-- A variable's value. -/
def value (σ : Bindings String Nat) (x : String) : Nat := ((σ x).map (·.val)).getD 0

/-- `[number 10 * x() + y() + 100 * z() for y, z in [1, 2, 3], [7, 8] for x in [1, 2, 3] if x() != 2]`. -/
def exampleComprehension : PenList String Nat :=
  comprehension (fun σ => ⟨[], 10 * value σ "x" + value σ "y" + 100 * value σ "z"⟩)
    [⟨["y", "z"], fun _ => ⟨[], numbers [1, 2, 3]⟩, [fun _ => ⟨[], numbers [7, 8]⟩], none⟩,
      ⟨["x"], fun _ => ⟨[], numbers [1, 2, 3]⟩, [], some fun σ => ⟨[], value σ "x" != 2⟩⟩] fun _ => none

example : (elements exampleComprehension).map (·.val) = [711, 812, 731, 832] := by decide +kernel

end Verif.Prelude.Lists
