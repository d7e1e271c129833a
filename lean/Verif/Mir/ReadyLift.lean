import Verif.Mir.RcValidate
import Verif.Mir.LiftingPipeline

/- Lambda lifting keeps what reference counting expects. -/
namespace Verif.Mir

/-! ### Operands -/

/-- Operands that become atoms where they were atoms. -/
def Matches : Exprs → Exprs → Prop
  | .nil, .nil => True
  | .cons e es, .cons e' es' => (isAtom e = true → isAtom e' = true) ∧ Matches es es'
  | _, _ => False

theorem Exprs.atoms_cons (e : Expr) (es : Exprs) : (Exprs.cons e es).atoms = (isAtom e && es.atoms) := by
  cases e <;> simp [Exprs.atoms, isAtom]

theorem Exprs.atomsButLast_cons (e : Expr) (es : Exprs) :
    (Exprs.cons e es).atomsButLast = (es.isNil || (isAtom e && es.atomsButLast)) := by
  cases es with
  | nil => cases e <;> simp [Exprs.atomsButLast, isAtom, Exprs.isNil]
  | cons => cases e <;> simp [Exprs.atomsButLast, isAtom, Exprs.isNil]

theorem Matches.atoms : ∀ {es es' : Exprs}, Matches es es' → es.atoms = true → es'.atoms = true
  | .nil, .nil, _, _ => rfl
  | .cons e es, .cons e' es', h, ha => by
    simp only [Exprs.atoms_cons, Bool.and_eq_true] at ha ⊢
    exact ⟨h.1 ha.1, Matches.atoms h.2 ha.2⟩

theorem Matches.isNil : ∀ {es es' : Exprs}, Matches es es' → es'.isNil = es.isNil
  | .nil, .nil, _ => rfl
  | .cons _ _, .cons _ _, _ => rfl

theorem Matches.atomsButLast : ∀ {es es' : Exprs}, Matches es es' → es.atomsButLast = true → es'.atomsButLast = true
  | .nil, .nil, _, _ => rfl
  | .cons e es, .cons e' es', h, ha => by
    simp only [Exprs.atomsButLast_cons, Bool.and_eq_true, Bool.or_eq_true] at ha ⊢
    rw [Matches.isNil h.2]
    exact ha.imp id fun ha => ⟨h.1 ha.1, Matches.atomsButLast h.2 ha.2⟩

theorem Matches.length : ∀ {es es' : Exprs}, Matches es es' → es'.toList.length = es.toList.length
  | .nil, .nil, _ => rfl
  | .cons e es, .cons e' es', h => by simp only [Exprs.toList, List.length_cons, Matches.length h.2]

theorem Matches.normal {o : Op} {es es' : Exprs} (h : Matches es es') (hn : o.normal es) : o.normal es' := by
  cases o with
  | arithmetic => exact h.atomsButLast hn
  | comparison => exact h.atomsButLast hn
  | call => exact h.atoms hn
  | record => exact h.atoms hn
  | update => exact ⟨h.atoms hn.1, hn.2⟩
  | concatenation => exact h.atoms hn
  | field | synchronize | typeInformation | variant =>
    show es'.toList.length ≤ 1
    rw [h.length]
    exact hn

theorem atoms_append : ∀ {es fs : Exprs}, es.atoms = true → fs.atoms = true → (es.append fs).atoms = true
  | .nil, _, _, h => h
  | .cons e es, fs, h, h' => by
    simp only [Exprs.append, Exprs.atoms_cons, Bool.and_eq_true] at h ⊢
    exact ⟨h.1, atoms_append h.2 h'⟩

theorem atoms_variables : ∀ (xs : List Name), («variables» xs).atoms = true
  | [] => rfl
  | _ :: xs => atoms_variables xs

/-! ### Larger scopes -/

mutual
theorem ready_weaken : ∀ (e : Expr) {D D' : List Name}, (∀ x ∈ D, x ∈ D') → (∀ x ∈ D', x ∈ D ∨ x ∉ binders e) →
    ready D e → ready D' e
  | .literal _, _, _, _, _, _ => trivial
  | .variable _, _, _, _, _, _ => trivial
  | .op _ es, _, _, hs, hd, h => ⟨h.1, readyExprs_weaken es hs hd h.2⟩
  | .case e as, _, _, hs, hd, h =>
    ⟨h.1, ready_weaken e hs (fun x hx => (hd x hx).imp id fun hn hb => hn (by simp [binders, hb])) h.2.1,
      readyAlts_weaken as hs (fun x hx => (hd x hx).imp id fun hn hb => hn (by simp [binders, hb])) h.2.2⟩
  | .if_ c t e, _, _, hs, hd, h =>
    ⟨ready_weaken c hs (fun x hx => (hd x hx).imp id fun hn hb => hn (by simp [binders, hb])) h.1,
      ready_weaken t hs (fun x hx => (hd x hx).imp id fun hn hb => hn (by simp [binders, hb])) h.2.1,
      ready_weaken e hs (fun x hx => (hd x hx).imp id fun hn hb => hn (by simp [binders, hb])) h.2.2⟩
  | .let_ y e b, _, _, hs, hd, h =>
    ⟨fun hy => (hd y hy).elim h.1 fun hn => hn (by simp [binders]),
      ready_weaken e hs (fun x hx => (hd x hx).imp id fun hn hb => hn (by simp [binders, hb])) h.2.1,
      ready_weaken b (fun x hx => by simp only [List.mem_cons] at hx ⊢; exact hx.imp id (hs x))
        (fun x hx => by
          simp only [List.mem_cons] at hx ⊢
          rcases hx with hx | hx
          · exact Or.inl (Or.inl hx)
          · exact (hd x hx).imp Or.inr fun hn hb => hn (by simp [binders, hb])) h.2.2⟩
  | .letRec f env args th body b, _, _, hs, hd, h =>
    ⟨fun hy => (hd f hy).elim h.1 fun hn => hn (by simp [binders]), fun x hx => hs x (h.2.1 x hx), h.2.2.1, h.2.2.2.1,
      ready_weaken b (fun x hx => by simp only [List.mem_cons] at hx ⊢; exact hx.imp id (hs x))
        (fun x hx => by
          simp only [List.mem_cons] at hx ⊢
          rcases hx with hx | hx
          · exact Or.inl (Or.inl hx)
          · exact (hd x hx).imp Or.inr fun hn hb => hn (by simp [binders, hb])) h.2.2.2.2⟩
  | .try_ e y t b, _, _, hs, hd, h =>
    ⟨fun hy => (hd y hy).elim h.1 fun hn => hn (by simp [binders]),
      ready_weaken e hs (fun x hx => (hd x hx).imp id fun hn hb => hn (by simp [binders, hb])) h.2.1, h.2.2⟩
theorem readyExprs_weaken : ∀ (es : Exprs) {D D' : List Name}, (∀ x ∈ D, x ∈ D') → (∀ x ∈ D', x ∈ D ∨ x ∉ bindersExprs es) →
    readyExprs D es → readyExprs D' es
  | .nil, _, _, _, _, _ => trivial
  | .cons e es, _, _, hs, hd, h =>
    ⟨ready_weaken e hs (fun x hx => (hd x hx).imp id fun hn hb => hn (by simp [bindersExprs, hb])) h.1,
      readyExprs_weaken es hs (fun x hx => (hd x hx).imp id fun hn hb => hn (by simp [bindersExprs, hb])) h.2⟩
theorem readyAlts_weaken : ∀ (as : Alts) {D D' : List Name}, (∀ x ∈ D, x ∈ D') → (∀ x ∈ D', x ∈ D ∨ x ∉ bindersAlts as) →
    readyAlts D as → readyAlts D' as
  | .nil, _, _, _, _, _ => trivial
  | .cons ts y e as, _, _, hs, hd, h =>
    ⟨⟨fun hy => (hd y hy).elim h.1.1 fun hn => hn (by simp [bindersAlts]),
      ready_weaken e (fun x hx => by simp only [List.mem_cons] at hx ⊢; exact hx.imp id (hs x))
        (fun x hx => by
          simp only [List.mem_cons] at hx ⊢
          rcases hx with hx | hx
          · exact Or.inl (Or.inl hx)
          · exact (hd x hx).imp Or.inr fun hn hb => hn (by simp [bindersAlts, hb])) h.1.2⟩,
      readyAlts_weaken as hs (fun x hx => (hd x hx).imp id fun hn hb => hn (by simp [bindersAlts, hb])) h.2⟩
end

variable {G : Name → Prop}

theorem cons_subset {x : Name} {D D' : List Name} (hs : ∀ y ∈ D, y ∈ D') : ∀ y ∈ x :: D, y ∈ x :: D' := by
  intro y hy
  simp only [List.mem_cons] at hy ⊢
  exact hy.imp id (hs y)

mutual
theorem inScope_weaken : ∀ (e : Expr) {D D' : List Name}, (∀ x ∈ D, x ∈ D') → inScope G D e → inScope G D' e
  | .literal _, _, _, _, _ => trivial
  | .variable x, _, _, hs, h => h.imp (hs x) id
  | .op _ es, _, _, hs, h => inScopeExprs_weaken es hs h
  | .case e as, _, _, hs, h => ⟨inScope_weaken e hs h.1, inScopeAlts_weaken as hs h.2⟩
  | .if_ c t e, _, _, hs, h => ⟨inScope_weaken c hs h.1, inScope_weaken t hs h.2.1, inScope_weaken e hs h.2.2⟩
  | .let_ y e b, _, _, hs, h => ⟨h.1, inScope_weaken e hs h.2.1, inScope_weaken b (cons_subset hs) h.2.2⟩
  | .letRec f env args th body b, _, _, hs, h => ⟨h.1, h.2.1, inScope_weaken b (cons_subset hs) h.2.2⟩
  | .try_ e y t b, _, _, hs, h => ⟨h.1, inScope_weaken e hs h.2.1, inScope_weaken b (cons_subset hs) h.2.2⟩
  | .clone _ e, _, _, hs, h => inScope_weaken e hs h
  | .drop _ e, _, _, hs, h => inScope_weaken e hs h
theorem inScopeExprs_weaken : ∀ (es : Exprs) {D D' : List Name}, (∀ x ∈ D, x ∈ D') → inScopeExprs G D es → inScopeExprs G D' es
  | .nil, _, _, _, _ => trivial
  | .cons e es, _, _, hs, h => ⟨inScope_weaken e hs h.1, inScopeExprs_weaken es hs h.2⟩
theorem inScopeAlts_weaken : ∀ (as : Alts) {D D' : List Name}, (∀ x ∈ D, x ∈ D') → inScopeAlts G D as → inScopeAlts G D' as
  | .nil, _, _, _, _ => trivial
  | .cons ts y e as, _, _, hs, h =>
    ⟨⟨h.1.1, inScope_weaken e (cons_subset hs) h.1.2⟩, inScopeAlts_weaken as hs h.2⟩
end

/-! ### Added arguments -/

theorem bindersExprs_append : ∀ (es fs : Exprs), bindersExprs (es.append fs) = bindersExprs es ++ bindersExprs fs
  | .nil, _ => rfl
  | .cons e es, fs => by simp only [Exprs.append, bindersExprs, bindersExprs_append es fs, List.append_assoc]

theorem bindersExprs_variables : ∀ (xs : List Name), bindersExprs («variables» xs) = []
  | [] => rfl
  | _ :: xs => by simp only [«variables», bindersExprs, binders, bindersExprs_variables xs, List.append_nil]

variable (f : Name) (xs : List Name)

mutual
theorem callTransform_binders : ∀ (e : Expr), binders (callTransform f xs e) = binders e
  | .literal _ => rfl
  | .variable _ => rfl
  | .op o es => by
    simp only [callTransform]
    split
    · simp only [binders, bindersExprs_append, bindersExprs_variables, List.append_nil, callTransformExprs_binders es]
    · simp only [binders, callTransformExprs_binders es]
  | .case e as => by simp only [callTransform, binders, callTransform_binders e, callTransformAlts_binders as]
  | .if_ c t e => by
    simp only [callTransform, binders, callTransform_binders c, callTransform_binders t, callTransform_binders e]
  | .let_ y e b => by
    simp only [callTransform, binders, callTransform_binders e]
    split
    · rfl
    · rw [callTransform_binders b]
  | .letRec g env args th body b => by
    simp only [callTransform, binders]
    split
    · rfl
    · rw [callTransform_binders b]
  | .try_ e y t b => by
    simp only [callTransform, binders, callTransform_binders e]
    split
    · rfl
    · rw [callTransform_binders b]
  | .clone _ e => by simp only [callTransform, binders, callTransform_binders e]
  | .drop _ e => by simp only [callTransform, binders, callTransform_binders e]
theorem callTransformExprs_binders : ∀ (es : Exprs), bindersExprs (callTransformExprs f xs es) = bindersExprs es
  | .nil => rfl
  | .cons e es => by simp only [callTransformExprs, bindersExprs, callTransform_binders e, callTransformExprs_binders es]
theorem callTransformAlts_binders : ∀ (as : Alts), bindersAlts (callTransformAlts f xs as) = bindersAlts as
  | .nil => rfl
  | .cons ts y e as => by
    simp only [callTransformAlts, bindersAlts, callTransformAlts_binders as]
    split
    · rfl
    · rw [callTransform_binders e]
end

theorem callTransform_isAtom {e : Expr} (h : isAtom e = true) : isAtom (callTransform f xs e) = true := by
  cases e <;> simp_all [isAtom, callTransform]

theorem callTransformExprs_matches : ∀ (es : Exprs), Matches es (callTransformExprs f xs es)
  | .nil => trivial
  | .cons _ es => ⟨callTransform_isAtom f xs, callTransformExprs_matches es⟩

theorem readyExprs_append {D : List Name} : ∀ {es fs : Exprs}, readyExprs D es → readyExprs D fs → readyExprs D (es.append fs)
  | .nil, _, _, h => h
  | .cons _ _, _, h, h' => ⟨h.1, readyExprs_append h.2 h'⟩

theorem readyExprs_variables {D : List Name} : ∀ (ys : List Name), readyExprs D («variables» ys)
  | [] => trivial
  | _ :: ys => ⟨trivial, readyExprs_variables ys⟩

theorem inScopeExprs_append {D : List Name} : ∀ {es fs : Exprs}, inScopeExprs G D es → inScopeExprs G D fs →
    inScopeExprs G D (es.append fs)
  | .nil, _, _, h => h
  | .cons _ _, _, h, h' => ⟨h.1, inScopeExprs_append h.2 h'⟩

theorem inScopeExprs_variables {D : List Name} : ∀ {ys : List Name}, (∀ y ∈ ys, y ∈ D) → inScopeExprs G D («variables» ys)
  | [], _ => trivial
  | y :: _, h => ⟨Or.inl (h y (by simp)), inScopeExprs_variables fun z hz => h z (by simp [hz])⟩

mutual
theorem callTransform_ready : ∀ (e : Expr) {D : List Name}, ready D e → ready D (callTransform f xs e)
  | .literal _, _, _ => trivial
  | .variable _, _, _ => trivial
  | .op o es, D, h => by
    simp only [callTransform]
    split
    · rename_i ho
      obtain ⟨rfl, _⟩ := ho
      exact ⟨atoms_append ((callTransformExprs_matches f xs es).atoms h.1) (atoms_variables xs),
        readyExprs_append (callTransformExprs_ready es h.2) (readyExprs_variables xs)⟩
    · exact ⟨(callTransformExprs_matches f xs es).normal h.1, callTransformExprs_ready es h.2⟩
  | .case e as, D, h => by
    refine ⟨?_, callTransform_ready e h.2.1, callTransformAlts_ready as h.2.2⟩
    cases as with
    | nil => exact absurd rfl h.1
    | cons => simp [callTransformAlts]
  | .if_ c t e, D, h => ⟨callTransform_ready c h.1, callTransform_ready t h.2.1, callTransform_ready e h.2.2⟩
  | .let_ y e b, D, h => by
    refine ⟨h.1, callTransform_ready e h.2.1, ?_⟩
    split
    · exact h.2.2
    · exact callTransform_ready b h.2.2
  | .letRec g env args th body b, D, h => by
    refine ⟨h.1, h.2.1, h.2.2.1, h.2.2.2.1, ?_⟩
    split
    · exact h.2.2.2.2
    · exact callTransform_ready b h.2.2.2.2
  | .try_ e y t b, D, h => by
    obtain ⟨h1, h2, rfl⟩ := h
    refine ⟨h1, callTransform_ready e h2, ?_⟩
    split
    · rfl
    · simp [callTransform, callTransformExprs]
theorem callTransformExprs_ready : ∀ (es : Exprs) {D : List Name}, readyExprs D es → readyExprs D (callTransformExprs f xs es)
  | .nil, _, _ => trivial
  | .cons e es, _, h => ⟨callTransform_ready e h.1, callTransformExprs_ready es h.2⟩
theorem callTransformAlts_ready : ∀ (as : Alts) {D : List Name}, readyAlts D as → readyAlts D (callTransformAlts f xs as)
  | .nil, _, _ => trivial
  | .cons ts y e as, _, h => by
    refine ⟨⟨h.1.1, ?_⟩, callTransformAlts_ready as h.2⟩
    split
    · exact h.1.2
    · exact callTransform_ready e h.1.2
end

mutual
theorem callTransform_inScope : ∀ (e : Expr) {D : List Name}, (∀ x ∈ xs, x ∈ D) → inScope G D e →
    inScope G D (callTransform f xs e)
  | .literal _, _, _, _ => trivial
  | .variable _, _, _, h => h
  | .op o es, D, hx, h => by
    simp only [callTransform]
    split
    · exact inScopeExprs_append (callTransformExprs_inScope es hx h) (inScopeExprs_variables hx)
    · exact callTransformExprs_inScope es hx h
  | .case e as, D, hx, h => ⟨callTransform_inScope e hx h.1, callTransformAlts_inScope as hx h.2⟩
  | .if_ c t e, D, hx, h =>
    ⟨callTransform_inScope c hx h.1, callTransform_inScope t hx h.2.1, callTransform_inScope e hx h.2.2⟩
  | .let_ y e b, D, hx, h => by
    refine ⟨h.1, callTransform_inScope e hx h.2.1, ?_⟩
    split
    · exact h.2.2
    · exact callTransform_inScope b (fun x h => List.mem_cons_of_mem _ (hx x h)) h.2.2
  | .letRec g env args th body b, D, hx, h => by
    refine ⟨h.1, h.2.1, ?_⟩
    split
    · exact h.2.2
    · exact callTransform_inScope b (fun x h => List.mem_cons_of_mem _ (hx x h)) h.2.2
  | .try_ e y t b, D, hx, h => by
    refine ⟨h.1, callTransform_inScope e hx h.2.1, ?_⟩
    split
    · exact h.2.2
    · exact callTransform_inScope b (fun x h => List.mem_cons_of_mem _ (hx x h)) h.2.2
  | .clone _ e, _, hx, h => callTransform_inScope e hx h
  | .drop _ e, _, hx, h => callTransform_inScope e hx h
theorem callTransformExprs_inScope : ∀ (es : Exprs) {D : List Name}, (∀ x ∈ xs, x ∈ D) → inScopeExprs G D es →
    inScopeExprs G D (callTransformExprs f xs es)
  | .nil, _, _, _ => trivial
  | .cons e es, _, hx, h => ⟨callTransform_inScope e hx h.1, callTransformExprs_inScope es hx h.2⟩
theorem callTransformAlts_inScope : ∀ (as : Alts) {D : List Name}, (∀ x ∈ xs, x ∈ D) → inScopeAlts G D as →
    inScopeAlts G D (callTransformAlts f xs as)
  | .nil, _, _, _ => trivial
  | .cons ts y e as, _, hx, h => by
    refine ⟨⟨h.1.1, ?_⟩, callTransformAlts_inScope as hx h.2⟩
    split
    · exact h.1.2
    · exact callTransform_inScope e (fun x h => List.mem_cons_of_mem _ (hx x h)) h.1.2
end

/-! ### Saved variables -/

/-- What reference counting and its validator expect. -/
def Fit (G : Name → Prop) (D : List Name) (e : Expr) : Prop := ready D e ∧ inScope G D e

theorem save_binders : ∀ (env ys : List Name) (e : Expr) (x : Name), x ∈ binders (save env ys e) → x ∈ ys ∨ x ∈ binders e
  | [], _, _, _, h => Or.inr (by simpa [save] using h)
  | _ :: _, [], _, _, h => Or.inr (by simpa [save] using h)
  | y :: env, z :: ys, e, x, h => by
    simp only [save, binders, List.nil_append, List.mem_cons] at h
    rcases h with rfl | h
    · exact Or.inl (by simp)
    · exact (save_binders env ys e x h).imp (fun h => by simp [h]) id

theorem save_fit : ∀ (env ys : List Name) {e : Expr} {D : List Name}, env.length = ys.length → ys.Nodup → (∀ y ∈ ys, y ∉ D) →
    (∀ y ∈ ys, ¬ G y) → (∀ x ∈ env, x ∈ D) →
    (∀ D', (∀ x ∈ D, x ∈ D') → (∀ x ∈ ys, x ∈ D') → (∀ x ∈ D', x ∈ D ∨ x ∈ ys) → Fit G D' e) → Fit G D (save env ys e)
  | [], [], _, D, _, _, _, _, _, h => h D (fun _ h => h) (by simp) fun _ h => Or.inl h
  | y :: env, z :: ys, e, D, hl, hn, hd, hg, he, h => by
    obtain ⟨hn1, hn2⟩ := List.nodup_cons.mp hn
    have := save_fit env ys (e := e) (D := z :: D) (by simpa using hl) hn2
      (fun a ha hm => by
        rcases List.mem_cons.mp hm with rfl | hm
        · exact hn1 ha
        · exact hd a (by simp [ha]) hm)
      (fun a ha => hg a (by simp [ha])) (fun a ha => List.mem_cons_of_mem _ (he a (by simp [ha])))
      (fun D' h1 h2 h3 => h D' (fun x hx => h1 x (by simp [hx]))
        (fun x hx => by
          rcases List.mem_cons.mp hx with rfl | hx
          · exact h1 x (by simp)
          · exact h2 x hx)
        (fun x hx => by
          rcases h3 x hx with h | h
          · rcases List.mem_cons.mp h with rfl | h
            · exact Or.inr (by simp)
            · exact Or.inl h
          · exact Or.inr (by simp [h])))
    exact ⟨⟨hd z (by simp), trivial, this.1⟩, hg z (by simp), Or.inl (he y (by simp)), this.2⟩
  | [], _ :: _, _, _, hl, _, _, _, _, _ => by simp at hl
  | _ :: _, [], _, _, hl, _, _, _, _, _ => by simp at hl

/-! ### Lifting -/

omit f xs

theorem liftFunction_binders {s : LiftState} {f : Name} {env args : List Name} {th : Bool} {body b : Expr} (hf : Plain f)
    (ha : ∀ x ∈ args, Plain x) (hb : ∀ x ∈ binders body, Plain x ∨ Saved s.index x)
    (hc : ∀ x ∈ binders b, Plain x ∨ Saved s.index x) :
    ∀ x ∈ binders (liftFunction s f env args th body b).1, Plain x ∨ Saved (liftFunction s f env args th body b).2.index x := by
  intro x hx
  unfold liftFunction at hx ⊢
  split at hx
  · rename_i h1
    simp only [h1, if_true, LiftState.add] at hx ⊢
    simp only [binders, List.nil_append, List.mem_cons] at hx
    rcases hx with rfl | hx
    · exact Or.inl hf
    · exact hc x hx
  · rename_i h1
    simp only [h1, if_false] at hx ⊢
    split at hx
    · rename_i h2
      simp only [h2, if_true, LiftState.add] at hx ⊢
      simp only [binders, List.nil_append, List.mem_cons] at hx
      rcases hx with rfl | hx
      · exact Or.inl hf
      · rcases save_binders _ _ _ _ hx with h | h
        · obtain ⟨y, i, _, h3, h4⟩ := mem_renameFree h
          exact Or.inr ⟨y, i, h3, h4⟩
        · rw [callTransform_binders] at h
          exact (hc x h).imp id (Saved.mono (Nat.le_add_right _ _) x)
    · rename_i h2
      simp only [h2] at hx ⊢
      simp only [binders, List.mem_cons, List.mem_append] at hx
      rcases hx with rfl | hx | hx | hx
      · exact Or.inl hf
      · exact Or.inl (ha x hx)
      · exact hb x hx
      · exact hc x hx

mutual
theorem lift_binders : ∀ (e : Expr) (s : LiftState) (sc : List Name), liftable sc e →
    ∀ x ∈ binders (lift e s).1, Plain x ∨ Saved (lift e s).2.index x
  | .literal _, _, _, _, _, hx => by simp [lift, binders] at hx
  | .variable _, _, _, _, _, hx => by simp [lift, binders] at hx
  | .op _ es, s, sc, h, x, hx => liftExprs_binders es s sc h x hx
  | .case e as, s, sc, h, x, hx => by
    simp only [lift, binders, List.mem_append] at hx ⊢
    rcases hx with hx | hx
    · exact (lift_binders e s sc h.1 x hx).imp id (Saved.mono (liftAlts_le as _).2 x)
    · exact liftAlts_binders as _ sc h.2 x hx
  | .if_ c t e, s, sc, h, x, hx => by
    simp only [lift, binders, List.mem_append] at hx ⊢
    rcases hx with hx | hx | hx
    · exact (lift_binders c s sc h.1 x hx).imp id (Saved.mono ((lift_le t _).trans (lift_le e _)).2 x)
    · exact (lift_binders t _ sc h.2.1 x hx).imp id (Saved.mono (lift_le e _).2 x)
    · exact lift_binders e _ sc h.2.2 x hx
  | .let_ y e b, s, sc, h, x, hx => by
    simp only [lift, binders, List.mem_append, List.mem_cons] at hx ⊢
    rcases hx with rfl | hx | hx
    · exact Or.inl h.1
    · exact (lift_binders e s sc h.2.1 x hx).imp id (Saved.mono (lift_le b _).2 x)
    · exact lift_binders b _ _ h.2.2 x hx
  | .letRec f env args th body b, s, sc, h, x, hx => by
    simp only [lift] at hx ⊢
    obtain ⟨h1, _, _, _, h2, h3⟩ := h
    exact liftFunction_binders (h1 f (by simp)) (fun y hy => h1 y (by simp [hy]))
      (fun y hy => (lift_binders body s _ h2 y hy).imp id (Saved.mono (lift_le b _).2 y))
      (lift_binders b _ _ h3) x hx
  | .try_ e y t b, s, sc, h, x, hx => by
    simp only [lift, binders, List.mem_append, List.mem_cons] at hx ⊢
    rcases hx with rfl | hx | hx
    · exact Or.inl h.1
    · exact (lift_binders e s sc h.2.1 x hx).imp id (Saved.mono (lift_le b _).2 x)
    · exact lift_binders b _ _ h.2.2 x hx
  | .clone _ e, s, sc, h, x, hx => lift_binders e s sc h x hx
  | .drop _ e, s, sc, h, x, hx => lift_binders e s sc h x hx
theorem liftExprs_binders : ∀ (es : Exprs) (s : LiftState) (sc : List Name), liftableExprs sc es →
    ∀ x ∈ bindersExprs (liftExprs es s).1, Plain x ∨ Saved (liftExprs es s).2.index x
  | .nil, _, _, _, _, hx => by simp [liftExprs, bindersExprs] at hx
  | .cons e es, s, sc, h, x, hx => by
    simp only [liftExprs, bindersExprs, List.mem_append] at hx ⊢
    rcases hx with hx | hx
    · exact (lift_binders e s sc h.1 x hx).imp id (Saved.mono (liftExprs_le es _).2 x)
    · exact liftExprs_binders es _ sc h.2 x hx
theorem liftAlts_binders : ∀ (as : Alts) (s : LiftState) (sc : List Name), liftableAlts sc as →
    ∀ x ∈ bindersAlts (liftAlts as s).1, Plain x ∨ Saved (liftAlts as s).2.index x
  | .nil, _, _, _, _, hx => by simp [liftAlts, bindersAlts] at hx
  | .cons ts y e as, s, sc, h, x, hx => by
    simp only [liftAlts, bindersAlts, List.mem_append, List.mem_cons] at hx ⊢
    rcases hx with rfl | hx | hx
    · exact Or.inl h.1
    · exact (lift_binders e s _ h.2.1 x hx).imp id (Saved.mono (liftAlts_le as _).2 x)
    · exact liftAlts_binders as _ sc h.2.2 x hx
end

theorem lift_isAtom {e : Expr} (s : LiftState) (h : isAtom e = true) : isAtom (lift e s).1 = true := by
  cases e <;> simp_all [isAtom, lift]

theorem liftExprs_matches : ∀ (es : Exprs) (s : LiftState), Matches es (liftExprs es s).1
  | .nil, _ => trivial
  | .cons _ es, _ => ⟨lift_isAtom _, liftExprs_matches es _⟩

/-- What is expected of a global function. -/
def FitGlobal (G : Name → Prop) (d : Global) : Prop := d.args.Nodup ∧ (∀ x ∈ d.args, ¬ G x) ∧ Fit G d.args d.body

/-- Functions added between two states are as expected. -/
def FitAdded (G : Name → Prop) (s t : LiftState) : Prop := ∀ d ∈ t.added, d ∈ s.added ∨ FitGlobal G d

theorem FitAdded.trans {s t u : LiftState} (h : FitAdded G s t) (h' : FitAdded G t u) : FitAdded G s u :=
  fun d hd => (h' d hd).elim (h d) Or.inr

/-- The names of added functions are global ones. -/
def Named (G : Name → Prop) (s : LiftState) : Prop := ∀ d ∈ s.added, G d.name

theorem Named.le {s t : LiftState} (h : Named G t) (hl : s.Le t) : Named G s := by
  obtain ⟨⟨ds, e⟩, _⟩ := hl
  exact fun d hd => h d (by rw [e]; simp [hd])

/-- Saved variables and what is left. -/
theorem saved_fit {n : Nat} {f : Name} {env : List Name} {D D1 : List Name} {e : Expr} (hfv : ∀ y i, ¬ G (fvName y i))
    (hD : ∀ x ∈ D, Plain x) (henv : ∀ x ∈ env, x ∈ D) (he : Fit G D1 e) (h1 : ∀ x ∈ D1, x ∈ D) (h2 : ∀ x ∈ D, x ∈ D1)
    (hb : ∀ x ∈ binders e, Plain x ∨ Saved n x) :
    Fit G D (save env (renameFree env n) (callTransform f (renameFree env n) e)) := by
  have hnew : ∀ x ∈ renameFree env n, ∃ y i, n ≤ i ∧ x = fvName y i := fun x hx => by
    obtain ⟨y, i, h1, _, h2⟩ := mem_renameFree hx
    exact ⟨y, i, h1, h2⟩
  refine save_fit env _ (renameFree_length env n).symm (renameFree_nodup env n) ?_ ?_ henv fun D' h3 h4 h5 => ?_
  · intro x hx hm
    obtain ⟨y, i, _, h⟩ := hnew x hx
    exact (hD x hm).1 y i h
  · intro x hx
    obtain ⟨y, i, _, h⟩ := hnew x hx
    exact h ▸ hfv y i
  · refine ⟨callTransform_ready _ _ e ?_, callTransform_inScope _ _ e h4 (inScope_weaken e (fun x hx => h3 x (h1 x hx)) he.2)⟩
    refine ready_weaken e (fun x hx => h3 x (h1 x hx)) (fun x hx => ?_) he.1
    rcases h5 x hx with h | h
    · exact Or.inl (h2 x h)
    · refine Or.inr fun hxb => ?_
      obtain ⟨y, i, hi, rfl⟩ := hnew x h
      rcases hb _ hxb with h6 | ⟨z, j, hj, h6⟩
      · exact h6.1 y i rfl
      · have := (fvName_inj h6).2
        omega

theorem liftFunction_fit {s : LiftState} {sc D : List Name} {f : Name} {env args : List Name} {th : Bool} {body b : Expr}
    (hfv : ∀ y i, ¬ G (fvName y i)) (hD : ∀ x ∈ D, Plain x) (hp : ∀ x ∈ f :: args ++ env, Plain x)
    (hG : ∀ x ∈ f :: env ++ args, ¬ G x) (hn : (f :: env ++ args).Nodup) (hf : f ∉ D) (henv : ∀ x ∈ env, x ∈ D)
    (h1 : Fit G (f :: env ++ args) body) (h2 : Fit G (f :: D) b)
    (hb1 : ∀ x ∈ binders body, Plain x ∨ Saved s.index x) (hb2 : ∀ x ∈ binders b, Plain x ∨ Saved s.index x)
    (hN : Named G (liftFunction s f env args th body b).2) :
    Fit G D (liftFunction s f env args th body b).1 ∧ FitAdded G s (liftFunction s f env args th body b).2 := by
  unfold liftFunction at hN ⊢
  have hn' : (args ++ env).Nodup ∧ f ∉ args ++ env := by
    simp only [List.cons_append, List.nodup_cons, List.mem_append, List.nodup_append, ne_eq, not_or] at hn ⊢
    exact ⟨⟨hn.2.2.1, hn.2.1, fun a ha b hb h => hn.2.2.2 b hb a ha h.symm⟩, hn.1.2, hn.1.1⟩
  split
  · rename_i he
    subst he
    simp only [if_true, LiftState.add, Named] at hN ⊢
    have hg := hN _ (List.mem_append_right _ (List.mem_singleton.mpr rfl))
    refine ⟨⟨⟨hf, trivial, h2.1⟩, hG f (by simp), Or.inr hg, h2.2⟩, fun d hd => ?_⟩
    simp only [List.mem_append, List.mem_singleton] at hd
    rcases hd with hd | rfl
    · exact Or.inl hd
    · simp only [List.append_nil] at hn' h1
      exact Or.inr ⟨hn'.1, fun x hx => hG x (by simp [hx]), ⟨hn'.2, trivial, h1.1⟩, hG f (by simp), Or.inr hg, h1.2⟩
  · rename_i he
    simp only [he, if_false] at hN
    split
    · rename_i hc
      simp only [hc, if_true, LiftState.add, Named] at hN ⊢
      have hg := hN _ (List.mem_append_right _ (List.mem_singleton.mpr rfl))
      have hs2 := saved_fit (f := f) (D := f :: D) (n := s.index) (env := env) hfv (fun x hx => by
        rcases List.mem_cons.mp hx with rfl | hx
        · exact hp x (by simp)
        · exact hD x hx) (fun x hx => List.mem_cons_of_mem _ (henv x hx)) h2 (fun _ h => h) (fun _ h => h) hb2
      have hs1 := saved_fit (f := f) (D := f :: (args ++ env)) (n := s.index) (env := env) hfv (fun x hx => hp x (by simpa using hx))
        (fun x hx => by simp [hx]) h1 (fun x hx => by simp at hx ⊢; grind) (fun x hx => by simp at hx ⊢; grind) hb1
      refine ⟨⟨⟨hf, trivial, hs2.1⟩, hG f (by simp), Or.inr hg, hs2.2⟩, fun d hd => ?_⟩
      simp only [List.mem_append, List.mem_singleton] at hd
      rcases hd with hd | rfl
      · exact Or.inl hd
      · exact Or.inr ⟨hn'.1, fun x hx => hG x (by simp at hx ⊢; grind), ⟨hn'.2, trivial, hs1.1⟩, hG f (by simp), Or.inr hg,
          hs1.2⟩
    · exact ⟨⟨⟨hf, henv, hn, h1.1, h2.1⟩, hG, h1.2, h2.2⟩, fun d hd => Or.inl hd⟩

mutual
theorem lift_fit (hfv : ∀ y i, ¬ G (fvName y i)) : ∀ (e : Expr) (s : LiftState) (sc D : List Name), liftable sc e → Fit G D e →
    (∀ x ∈ D, Plain x) → Named G (lift e s).2 → Fit G D (lift e s).1 ∧ FitAdded G s (lift e s).2
  | .literal _, _, _, _, _, h, _, _ => ⟨h, fun _ hd => Or.inl hd⟩
  | .variable _, _, _, _, _, h, _, _ => ⟨h, fun _ hd => Or.inl hd⟩
  | .op o es, s, sc, D, hl, h, hD, hN => by
    have ih := liftExprs_fit hfv es s sc D hl h.1.2 h.2 hD hN
    exact ⟨⟨⟨(liftExprs_matches es s).normal h.1.1, ih.1⟩, ih.2.1⟩, ih.2.2⟩
  | .case e as, s, sc, D, hl, h, hD, hN => by
    have ih1 := lift_fit hfv e s sc D hl.1 ⟨h.1.2.1, h.2.1⟩ hD (hN.le (liftAlts_le as _))
    have ih2 := liftAlts_fit hfv as (lift e s).2 sc D hl.2 h.1.2.2 h.2.2 hD hN
    refine ⟨⟨⟨?_, ih1.1.1, ih2.1⟩, ih1.1.2, ih2.2.1⟩, ih1.2.trans ih2.2.2⟩
    cases as with
    | nil => exact absurd rfl h.1.1
    | cons => simp [liftAlts]
  | .if_ c t e, s, sc, D, hl, h, hD, hN => by
    have ih1 := lift_fit hfv c s sc D hl.1 ⟨h.1.1, h.2.1⟩ hD (hN.le ((lift_le t _).trans (lift_le e _)))
    have ih2 := lift_fit hfv t (lift c s).2 sc D hl.2.1 ⟨h.1.2.1, h.2.2.1⟩ hD (hN.le (lift_le e _))
    have ih3 := lift_fit hfv e (lift t (lift c s).2).2 sc D hl.2.2 ⟨h.1.2.2, h.2.2.2⟩ hD hN
    exact ⟨⟨⟨ih1.1.1, ih2.1.1, ih3.1.1⟩, ih1.1.2, ih2.1.2, ih3.1.2⟩, (ih1.2.trans ih2.2).trans ih3.2⟩
  | .let_ y e b, s, sc, D, hl, h, hD, hN => by
    have ih1 := lift_fit hfv e s sc D hl.2.1 ⟨h.1.2.1, h.2.2.1⟩ hD (hN.le (lift_le b _))
    have ih2 := lift_fit hfv b (lift e s).2 (y :: sc) (y :: D) hl.2.2 ⟨h.1.2.2, h.2.2.2⟩
      (fun x hx => by rcases List.mem_cons.mp hx with rfl | hx; exacts [hl.1, hD x hx]) hN
    exact ⟨⟨⟨h.1.1, ih1.1.1, ih2.1.1⟩, h.2.1, ih1.1.2, ih2.1.2⟩, ih1.2.trans ih2.2⟩
  | .letRec f env args th body b, s, sc, D, hl, h, hD, hN => by
    obtain ⟨l1, l2, l3, l4, l5, l6⟩ := hl
    obtain ⟨⟨r1, r2, r3, r4, r5⟩, q1, q2, q3⟩ := h
    simp only [lift] at hN ⊢
    have hq := hN.le (liftFunction_le (lift b (lift body s).2).2 f env args th (lift body s).1 (lift b (lift body s).2).1)
    have ih1 := lift_fit hfv body s _ (f :: env ++ args) l5 ⟨r4, q2⟩ (fun x hx => l1 x (by simp at hx ⊢; grind))
      (hq.le (lift_le b _))
    have ih2 := lift_fit hfv b (lift body s).2 _ (f :: D) l6 ⟨r5, q3⟩
      (fun x hx => by rcases List.mem_cons.mp hx with rfl | hx; exacts [l1 x (by simp), hD x hx]) hq
    have := liftFunction_fit (sc := sc) hfv hD l1 q1 r3 r1 r2 ih1.1 ih2.1
      (fun x hx => (lift_binders body s _ l5 x hx).imp id (Saved.mono (lift_le b _).2 x)) (lift_binders b _ _ l6) hN
    exact ⟨this.1, (ih1.2.trans ih2.2).trans this.2⟩
  | .try_ e y t b, s, sc, D, hl, h, hD, hN => by
    obtain ⟨⟨r1, r2, rfl⟩, q1, q2, q3⟩ := h
    have ih1 := lift_fit hfv e s sc D hl.2.1 ⟨r2, q2⟩ hD hN
    exact ⟨⟨⟨r1, ih1.1.1, rfl⟩, q1, ih1.1.2, q3⟩, ih1.2⟩
theorem liftExprs_fit (hfv : ∀ y i, ¬ G (fvName y i)) : ∀ (es : Exprs) (s : LiftState) (sc D : List Name), liftableExprs sc es →
    readyExprs D es → inScopeExprs G D es → (∀ x ∈ D, Plain x) → Named G (liftExprs es s).2 →
    readyExprs D (liftExprs es s).1 ∧ inScopeExprs G D (liftExprs es s).1 ∧ FitAdded G s (liftExprs es s).2
  | .nil, _, _, _, _, _, _, _, _ => ⟨trivial, trivial, fun _ hd => Or.inl hd⟩
  | .cons e es, s, sc, D, hl, h, h', hD, hN => by
    have ih1 := lift_fit hfv e s sc D hl.1 ⟨h.1, h'.1⟩ hD (hN.le (liftExprs_le es _))
    have ih2 := liftExprs_fit hfv es (lift e s).2 sc D hl.2 h.2 h'.2 hD hN
    exact ⟨⟨ih1.1.1, ih2.1⟩, ⟨ih1.1.2, ih2.2.1⟩, ih1.2.trans ih2.2.2⟩
theorem liftAlts_fit (hfv : ∀ y i, ¬ G (fvName y i)) : ∀ (as : Alts) (s : LiftState) (sc D : List Name), liftableAlts sc as →
    readyAlts D as → inScopeAlts G D as → (∀ x ∈ D, Plain x) → Named G (liftAlts as s).2 →
    readyAlts D (liftAlts as s).1 ∧ inScopeAlts G D (liftAlts as s).1 ∧ FitAdded G s (liftAlts as s).2
  | .nil, _, _, _, _, _, _, _, _ => ⟨trivial, trivial, fun _ hd => Or.inl hd⟩
  | .cons ts y e as, s, sc, D, hl, h, h', hD, hN => by
    have ih1 := lift_fit hfv e s (y :: sc) (y :: D) hl.2.1 ⟨h.1.2, h'.1.2⟩
      (fun x hx => by rcases List.mem_cons.mp hx with rfl | hx; exacts [hl.1, hD x hx]) (hN.le (liftAlts_le as _))
    have ih2 := liftAlts_fit hfv as (lift e s).2 sc D hl.2.2 h.2 h'.2 hD hN
    exact ⟨⟨⟨h.1.1, ih1.1.1⟩, ih2.1⟩, ⟨⟨h'.1.1, ih1.1.2⟩, ih2.2.1⟩, ih1.2.trans ih2.2.2⟩
end

theorem liftGlobals_fit (hfv : ∀ y i, ¬ G (fvName y i)) : ∀ (ds : List Global) (s : LiftState),
    (∀ d ∈ ds, liftable d.args d.body ∧ FitGlobal G d ∧ ∀ x ∈ d.args, Plain x) → Named G (liftGlobals ds s).2 →
    (∀ d ∈ (liftGlobals ds s).1, FitGlobal G d) ∧ FitAdded G s (liftGlobals ds s).2
  | [], _, _, _ => ⟨by simp [liftGlobals], fun _ hd => Or.inl hd⟩
  | d :: ds, s, h, hN => by
    obtain ⟨h1, h2, h3⟩ := h d (by simp)
    have ih1 := lift_fit hfv d.body s _ d.args h1 h2.2.2 h3 (hN.le (liftGlobals_le ds _))
    have ih2 := liftGlobals_fit hfv ds (lift d.body s).2 (fun c hc => h c (by simp [hc])) hN
    refine ⟨fun c hc => ?_, ih1.2.trans ih2.2⟩
    simp only [liftGlobals, List.mem_cons] at hc
    rcases hc with rfl | hc
    · exact ⟨h2.1, h2.2.1, ih1.1⟩
    · exact ih2.1 c hc

end Verif.Mir
