import Verif.Lower.Simulation

/-! # Lowered type branches, records and coercions -/

namespace Verif.Lower

open Verif.Hir (Ty Ctx Expr Module Definition RecordField Val Out)
open Verif

variable {K : Config} {a : Nat} {S : List Ty} {m : Module} {q : Bool} {W : Hir.World} {w : Mir.World} {p : Mir.Program}

/-! ## Type branches -/

theorem ok?_eq {α : Type} {x : Res Hir.Err α} {u : α} (h : ok? x = some u) : x = .ok u := by
  cases x <;> simp [ok?] at h
  rw [h]

/-- What an alternative for the canonical type binds. -/
def alternativeRep (K : Config) (c tag : Ty) (u : Mir.Value) : Mir.Value :=
  match c with
  | .union _ _ => .variant (typeId K tag) (box K tag u)
  | _ => u

theorem alternativeRep_rel {c tag : Ty} {v : Val} {u : Mir.Value} (ht : tag ∈ S) (h : Rel K a S m v u) :
    Rel K a S m (Hir.alternativeValue c tag v) (alternativeRep K c tag u) := by
  cases c <;> first | exact h | exact .variant ht h

theorem unionMembers_canonical {A : Hir.Aliases} {t c : Ty} (h : Hir.Canon A t c) (ha : c ≠ .any) :
    Hir.btreeSet (Hir.unionMembers c) = Hir.unionMembers c := by
  have h1 : Ty.any ∉ Hir.atoms c := by
    intro hm
    refine ha ?_
    have := (Hir.norm_eq_any_iff c).mpr hm
    rwa [h.normal] at this
  have h2 := Hir.unionMembers_norm_sorted h1
  rw [h.normal] at h2
  rw [h2, Hir.btreeSet_of_sorted (Hir.sorted_btreeSet _)]

theorem matchAlternative_many {ts : List Mir.TypeId} (h : ts.length ≠ 1) (t : Mir.TypeId) (v : Mir.Value) :
    Mir.matchAlternative (some ts) t v = if t ∈ ts then some (.variant t v) else none := by
  match ts, h with
  | [], _ => simp [Mir.matchAlternative]
  | [_], h => simp at h
  | _ :: _ :: _, _ => rfl

theorem unionMembers_length (c : Ty) : 1 ≤ (Hir.unionMembers c).length := by
  have := Hir.members_ne_nil c
  cases h : Hir.unionMembers c with
  | nil => exact (this h).elim
  | cons _ _ => simp

theorem id_mem {c tag : Ty} (hp : ∀ t ∈ S, ∀ u ∈ S, typeId K t = typeId K u → t = u) (ht : tag ∈ S)
    (hc : ∀ t ∈ Hir.unionMembers c, t ∈ S) :
    typeId K tag ∈ (Hir.unionMembers c).map (typeId K) ↔ Hir.alternativeMatches c tag = true := by
  simp only [Hir.alternativeMatches, List.contains_iff_mem, List.mem_map]
  constructor
  · rintro ⟨u, h1, h2⟩
    rw [← hp u (hc u h1) tag ht h2]
    exact h1
  · intro h
    exact ⟨tag, h, rfl⟩

/-- Matching of an alternative. -/
theorem evalAlternative {A : Hir.Aliases} {t c tag : Ty} {x : String} {e : Mir.Expr} {alt : List Mir.TypeId × Mir.Expr}
    (hp : ∀ t ∈ S, ∀ u ∈ S, typeId K t = typeId K u → t = u) (hcan : Hir.Canon A t c) (hs : tagged S c = true)
    (ht : tag ∈ S) (h : compileAlternative K x c e = some alt) (n : Nat) (ρ : Mir.Env) (u : Mir.Value) (as : Mir.Alts)
    (l : Mir.Log) :
    Mir.evalAlts w p Mir.captureAll (Mir.apply w p Mir.captureAll n) ρ (typeId K tag) (box K tag u)
        (.cons (some alt.1) x alt.2 as) l =
      if Hir.alternativeMatches c tag then meval w p n (ρ.set x (alternativeRep K c tag u)) e l
      else Mir.evalAlts w p Mir.captureAll (Mir.apply w p Mir.captureAll n) ρ (typeId K tag) (box K tag u) as l := by
  have hne : c ≠ .any := by
    intro hc
    subst hc
    simp [compileAlternative, boxed, Hir.unionMembers] at h
  have hmem : ∀ t ∈ Hir.unionMembers c, t ∈ S := by
    intro t ht
    have : (Hir.unionMembers c).all (fun t => S.contains t) = true := by
      cases c <;> first | exact hs | exact (hne rfl).elim
    simpa using List.all_eq_true.mp this t ht
  have hid := id_mem (c := c) hp ht hmem
  rw [Mir.evalAlts]
  by_cases hb : boxed c = true
  · have hu : Hir.unionMembers c = [c] := by cases c <;> simp [boxed] at hb <;> rfl
    have hr : alternativeRep K c tag u = u := by cases c <;> simp [boxed] at hb <;> rfl
    rw [compileAlternative, if_pos hb, Option.some.injEq] at h
    subst h
    rw [hu] at hid
    simp only [List.map_cons, List.map_nil, List.mem_singleton] at hid
    simp only [Mir.matchAlternative]
    by_cases hm : Hir.alternativeMatches c tag = true
    · have h1 := hid.mpr hm
      have h2 : tag = c := by
        simpa [Hir.alternativeMatches, hu] using hm
      rw [if_pos h1.symm, hm, if_pos rfl]
      subst h2
      simp only [meval, Mir.eval, Mir.evals, Mir.lookup, Mir.Env.set, if_true, Mir.R.ofOption, Mir.R.bind, Mir.Op.scalar,
        Bool.false_and, Bool.false_eq_true, if_false, box_eq, hb, Mir.applyOp, List.getElem?_cons_zero, hr]
      congr 1
      funext y
      by_cases hy : y = x <;> simp [Mir.Env.set, hy]
    · have h1 : ¬ typeId K c = typeId K tag := fun h => hm (hid.mp h.symm)
      rw [if_neg h1]
      simp [hm]
  · rw [compileAlternative, if_neg hb] at h
    split at h
    · cases h
    · simp only [Option.some.injEq] at h
      subst h
      rw [unionMembers_canonical hcan hne]
      cases hc : c with
      | union c1 c2 =>
        have hl : ((Hir.unionMembers (.union c1 c2)).map (typeId K)).length ≠ 1 := by
          have h1 := unionMembers_length c1
          have h2 := unionMembers_length c2
          simp only [List.length_map, Hir.unionMembers, List.length_append]
          omega
        rw [matchAlternative_many hl, ← hc]
        by_cases hm : Hir.alternativeMatches c tag = true
        · rw [if_pos (hid.mpr hm), hm, if_pos rfl, hc]
          rfl
        · rw [if_neg (fun h => hm (hid.mp h))]
          simp [hm]
      | _ =>
        rw [← hc]
        have hu : Hir.unionMembers c = [c] := by rw [hc]; rfl
        have hr : alternativeRep K c tag u = u := by rw [hc]; rfl
        rw [hu] at hid ⊢
        simp only [List.map_cons, List.map_nil, List.mem_singleton] at hid ⊢
        simp only [Mir.matchAlternative]
        by_cases hm : Hir.alternativeMatches c tag = true
        · have h1 := hid.mpr hm
          have h2 : tag = c := by simpa [Hir.alternativeMatches, hu] using hm
          rw [if_pos h1.symm, hm, if_pos rfl, hr, h2]
          simp [box_eq, hb]
        · have h1 : ¬ typeId K c = typeId K tag := fun h => hm (hid.mp h.symm)
          rw [if_neg h1]
          simp [hm]

/-! ## Records -/

theorem RelFields.get {fs : List (String × Val)} {x : String} : ∀ {ts : List RecordField} {us : List Mir.Value},
    RelFields K a S m fs ts us → ∀ {i : Nat}, fieldIndex ts x = some i →
    ∃ v u, Hir.lookupField fs x = some v ∧ us[i]? = some u ∧ Rel K a S m v u
  | _, _, .nil, i, h => by simp [fieldIndex] at h
  | _, _, @RelFields.cons _ _ _ _ _ t ts v u us h1 h2 h3, i, h => by
    unfold fieldIndex at h
    rw [List.findIdx?_cons] at h
    by_cases ht : t.name == x
    · rw [if_pos ht] at h
      cases h
      have : t.name = x := by simpa using ht
      exact ⟨v, u, this ▸ h1, rfl, h2⟩
    · rw [if_neg ht, Option.map_eq_some_iff] at h
      obtain ⟨j, hj, rfl⟩ := h
      obtain ⟨v', u', h4, h5, h6⟩ := RelFields.get h3 hj
      exact ⟨v', u', h4, by simpa using h5, h6⟩

theorem RelFields.length {fs : List (String × Val)} : ∀ {ts : List RecordField} {us : List Mir.Value},
    RelFields K a S m fs ts us → us.length = ts.length
  | _, _, .nil => rfl
  | _, _, .cons _ _ h => by simp [h.length]

theorem lookupField_cons (x : String) (v : Val) (fs : List (String × Val)) (y : String) :
    Hir.lookupField ((x, v) :: fs) y = if x = y then some v else Hir.lookupField fs y := by
  unfold Hir.lookupField
  rw [List.find?_cons]
  by_cases h : x = y
  · simp [h]
  · have : (x == y) = false := by simpa using h
    simp [this, h]

theorem RelFields.other {fs : List (String × Val)} {x : String} {v : Val} : ∀ {ts : List RecordField} {us : List Mir.Value},
    RelFields K a S m fs ts us → x ∉ ts.map (·.name) → RelFields K a S m ((x, v) :: fs) ts us
  | _, _, .nil, _ => .nil
  | _, _, @RelFields.cons _ _ _ _ _ t ts v' u us h1 h2 h3, h => by
    simp only [List.map_cons, List.mem_cons, not_or] at h
    refine .cons ?_ h2 (h3.other h.2)
    rw [lookupField_cons, if_neg h.1, h1]

theorem RelFields.set {fs : List (String × Val)} {x : String} {v : Val} {u : Mir.Value} (hv : Rel K a S m v u) :
    ∀ {ts : List RecordField} {us : List Mir.Value}, RelFields K a S m fs ts us → (ts.map (·.name)).Nodup →
    ∀ {i : Nat}, fieldIndex ts x = some i → RelFields K a S m ((x, v) :: fs) ts (us.set i u)
  | _, _, .nil, _, i, h => by simp [fieldIndex] at h
  | _, _, @RelFields.cons _ _ _ _ _ t ts v' u' us h1 h2 h3, hn, i, h => by
    unfold fieldIndex at h
    rw [List.findIdx?_cons] at h
    simp only [List.map_cons, List.nodup_cons] at hn
    by_cases ht : t.name == x
    · rw [if_pos ht] at h
      cases h
      have ht : t.name = x := by simpa using ht
      refine .cons (v := v) ?_ hv (h3.other (ht ▸ hn.1))
      rw [lookupField_cons, if_pos ht.symm]
    · rw [if_neg ht, Option.map_eq_some_iff] at h
      obtain ⟨j, hj, rfl⟩ := h
      refine .cons (v := v') ?_ h2 (RelFields.set hv h3 hn.2 hj)
      rw [lookupField_cons, if_neg (fun hx => ht (by simp [hx])), h1]

theorem fieldIndex_lt {ts : List RecordField} {x : String} {i : Nat} (h : fieldIndex ts x = some i) : i < ts.length := by
  unfold fieldIndex at h
  rw [List.findIdx?_eq_some_iff_getElem] at h
  exact h.1

/-- Fields as they are evaluated. -/
inductive FieldsRel (K : Config) (a : Nat) (S : List Ty) (m : Module) : List (String × Val) → List Mir.Value → Prop
  | nil : FieldsRel K a S m [] []
  | cons {x v u fs us} : Rel K a S m v u → FieldsRel K a S m fs us → FieldsRel K a S m ((x, v) :: fs) (u :: us)

theorem RelFields.update {ts : List RecordField} (hn : (ts.map (·.name)).Nodup) :
    ∀ {gs : List (String × Val)} {ws : List Mir.Value}, FieldsRel K a S m gs ws →
    ∀ {fs : List (String × Val)} {us : List Mir.Value} {is : List Nat}, RelFields K a S m fs ts us →
    gs.mapM (fun g => fieldIndex ts g.1) = some is →
    ∃ us', Mir.updateFields us is ws = some us' ∧ RelFields K a S m (gs.reverse ++ fs) ts us'
  | _, _, .nil, fs, us, is, h, hi => by
    simp at hi
    subst hi
    exact ⟨us, rfl, by simpa using h⟩
  | _, _, @FieldsRel.cons _ _ _ _ x v u gs ws h1 h2, fs, us, is, h, hi => by
    simp only [List.mapM_cons, Option.bind_eq_bind, Option.pure_def, Option.bind_eq_some_iff, Option.some.injEq] at hi
    obtain ⟨i, hi1, is', hi2, rfl⟩ := hi
    obtain ⟨us', h3, h4⟩ := RelFields.update hn h2 (RelFields.set h1 h hn hi1) hi2
    refine ⟨us', ?_, by simpa using h4⟩
    rw [Mir.updateFields, if_pos (by rw [h.length]; exact fieldIndex_lt hi1)]
    exact h3

/-! ## Coercions -/

theorem sim_coercion {A : Hir.Aliases} {src dst c d : Ty} {n : Nat} {ρ : Mir.Env} {x : Out Val} {e e' : Mir.Expr}
    (hc : Hir.canonicalize a A src = .ok c) (hd : Hir.canonicalize a A dst = .ok d) (hs : tagged S c = true)
    (h : Sim K a S m q (Rel K a S m) x (meval w p n ρ e)) (he : compileCoercion K c d e = some e') :
    Sim K a S m q (Rel K a S m) (x >>= fun v => Hir.coerceValue a A src dst v) (meval w p n ρ e') := by
  have same : e' = e → (∀ v, Hir.coerceValue a A src dst v = Out.val v) →
      Sim K a S m q (Rel K a S m) (x >>= fun v => Hir.coerceValue a A src dst v) (meval w p n ρ e') := by
    intro h1 h2
    subst h1
    intro l l' hl
    have h3 := h l l' hl
    show ResRel K a S m q _ (Out.bind x _ l) _
    unfold Out.bind
    cases hx : x l <;> rw [hx] at h3 <;> first | exact h3 | skip
    simp only [h2]
    exact h3
  have wrap : e' = .op (.variant (typeId K c)) (.cons (if boxed c then .op (.record (typeId K c)) (.cons e .nil) else e) .nil) →
      (∀ v, Hir.coerceValue a A src dst v = Out.val (.variant c v)) → c ∈ S →
      Sim K a S m q (Rel K a S m) (x >>= fun v => Hir.coerceValue a A src dst v) (meval w p n ρ e') := by
    intro h1 h2 h3
    subst h1
    have h4 : Sim K a S m q (Rel K a S m) (x >>= fun v => Hir.coerceValue a A src dst v)
        (fun l => (meval w p n ρ e l).bind fun v l => .ok (.variant (typeId K c) (box K c v)) l) := by
      refine Sim.bind h fun v u hv => ?_
      rw [h2]
      exact Sim.val (.variant h3 hv)
    intro l l' hl
    have h5 := h4 l l' hl
    have h6 : meval w p n ρ (.op (.variant (typeId K c))
        (.cons (if boxed c then .op (.record (typeId K c)) (.cons e .nil) else e) .nil)) l' =
        (meval w p n ρ e l').bind fun v l => .ok (.variant (typeId K c) (box K c v)) l := by
      by_cases hb : boxed c = true
      · simp only [hb, if_true, meval, Mir.eval, Mir.evals, Mir.Op.scalar, Bool.false_and, Bool.false_eq_true, if_false]
        cases Mir.eval w p Mir.captureAll (Mir.apply w p Mir.captureAll n) ρ e l' <;>
          simp [Mir.R.bind, Mir.applyOp, Mir.R.ofOption, box_eq, hb]
      · simp only [hb, if_false, meval, Mir.eval, Mir.evals, Mir.Op.scalar, Bool.false_and, Bool.false_eq_true]
        cases Mir.eval w p Mir.captureAll (Mir.apply w p Mir.captureAll n) ρ e l' <;>
          simp [Mir.R.bind, Mir.applyOp, Mir.R.ofOption, box_eq, hb]
    rw [h6]
    exact h5
  have ev : ∀ v, Hir.coerceValue a A src dst v = (match (generalizing := false) c, d with
      | .any, _ => Out.val v
      | .union _ _, _ => .val v
      | .list _, .list _ => .val v
      | .map _ _, .map _ _ => .val v
      | .reference _, _ => .stuck
      | f, _ => .val (.variant f v)) := by
    intro v
    unfold Hir.coerceValue
    rw [hc, hd]
    rfl
  cases c <;> cases d <;> simp only [compileCoercion, Option.some.injEq, reduceCtorEq] at he <;>
    first
    | exact same he.symm ev
    | exact wrap he.symm ev (by simpa [tagged, Hir.unionMembers] using hs)

end Verif.Lower
