import Verif.Hir.Elaboration

/-! # Accepted expressions are typed after coercion: the induction -/

namespace Verif.Hir

open Verif.Res

variable {C : Ctx} {M : TypeModule}

/-- Types written in an expression exist. -/
def Written (M : TypeModule) (e : Expr) : Prop := ∃ k, typesExist k M e = .ok ()

/-- If `?` may occur, functions return more than errors. -/
def TryOk (C : Ctx) (o : Bool) (res ρ : Option Ty) : Prop :=
  o = true → ∀ rt, res = some rt → ∃ cr, ρ = some cr ∧ Canon C.types rt cr ∧ cr ≠ .error

theorem TryOk.none {o : Bool} {ρ : Option Ty} : TryOk C o Option.none ρ := fun _ _ h => by cases h

theorem TryOk.never {res ρ : Option Ty} : TryOk C false res ρ := fun h => by cases h

/-- Expressions that pass the analysis with fuel `n` are typed. -/
def Elab (M : TypeModule) (C : Ctx) (n : Nat) : Prop :=
  ∀ {Γ : Vars} {o : Bool} {res ρ : Option Ty} {e0 e1 e2 : Expr} {t : Ty}, VarsOk C Γ → Tame C.types o e0 →
    TryOk C o res ρ → Written M e0 → infer n C Γ e0 = .ok e1 → check n C Γ e1 = .ok t →
    validateTry n C res e1 = .ok () → coerce n C Γ e1 = .ok e2 →
    ∃ c, Canon C.types t c ∧ Typed C Γ ρ e2 c ∧ ∀ j t', extract j C Γ e1 = .ok t' → Canon C.types t' c

variable {n : Nat}

/-- An expression coerced to another type. -/
theorem Elab.to (E : Elab M C n) {Γ : Vars} {o : Bool} {res ρ : Option Ty} {e0 e1 e2 e3 : Expr} {t u d : Ty}
    (hΓ : VarsOk C Γ) (hT : Tame C.types o e0) (hR : TryOk C o res ρ) (hW : Written M e0)
    (hI : infer n C Γ e0 = .ok e1) (hK : check n C Γ e1 = .ok t) (hV : validateTry n C res e1 = .ok ())
    (hO : coerce n C Γ e1 = .ok e2) {k : Nat} (hs : expectSub k C t u = .ok ()) (hu : Canon C.types u d)
    {l : Nat} {u' : Ty} (hu' : Canon C.types u' d) (h : coerceTo l C Γ e2 u' = .ok e3) : Typed C Γ ρ e3 d := by
  obtain ⟨c, h1, h2, _⟩ := E hΓ hT hR hW hI hK hV hO
  exact coerceTo_typed h2 hu' (Or.inl (expectSub_ok hs h1 hu)) h

/-- An expression of an atomic type. -/
theorem Elab.atom (E : Elab M C n) {Γ : Vars} {o : Bool} {res ρ : Option Ty} {e0 e1 e2 : Expr} {t u : Ty}
    (hΓ : VarsOk C Γ) (hT : Tame C.types o e0) (hR : TryOk C o res ρ) (hW : Written M e0)
    (hI : infer n C Γ e0 = .ok e1) (hK : check n C Γ e1 = .ok t) (hV : validateTry n C res e1 = .ok ())
    (hO : coerce n C Γ e1 = .ok e2) {k : Nat} (hs : expectSub k C t u = .ok ()) (hu : Canon C.types u u)
    (hn : NotUnion u) (ha : u ≠ .any) : Typed C Γ ρ e2 u := by
  obtain ⟨c, h1, h2, _⟩ := E hΓ hT hR hW hI hK hV hO
  rw [← (expectSub_ok hs h1 hu).eq_atom h1 hu hn ha]
  exact h2

theorem written_all {es : List Expr} {k : Nat} (h : forList (typesExist k M) es = .ok ()) :
    ∀ e ∈ es, Written M e := fun e he => ⟨k, forList_ok h e he⟩

/-- Arguments. -/
theorem Elab.args (E : Elab M C n) {Γ : Vars} {o : Bool} {res ρ : Option Ty} (hΓ : VarsOk C Γ)
    (hR : TryOk C o res ρ) : ∀ {args0 args1 args2 : List Expr} {as : List Ty} {us : List Unit},
    (∀ a ∈ args0, Tame C.types o a) → (∀ a ∈ args0, Written M a) →
    List.Forall₂ (fun a b => infer n C Γ a = .ok b) args0 args1 → args1.length = as.length →
    List.Forall₂ (fun (p : Expr × Ty) u => (do
      let t ← check n C Γ p.1
      expectSub n C t p.2) = .ok u) (args1.zip as) us →
    (∀ a ∈ args1, validateTry n C res a = .ok ()) →
    List.Forall₂ (fun (p : Expr × Ty) e2 => (do
      let e ← coerce n C Γ p.1
      coerceTo n C Γ e p.2) = .ok e2) (args1.zip as) args2 →
    (∀ a ∈ as, Canon C.types a a) →
    args2.length = as.length ∧ ∀ p ∈ args2.zip as, Typed C Γ ρ p.1 p.2
  | _, _, _, [], _, hT, hW, .nil, _, _, _, h, _ => by
    cases h
    simp
  | _, _, _, [], _, _, _, .cons _ _, hl, _, _, _, _ => by simp at hl
  | _, _, _, _ :: _, _, _, _, .nil, hl, _, _, _, _ => by simp at hl
  | a0 :: args0, a1 :: args1, _, a :: as, _, hT, hW, .cons hI hIs, hl, .cons hK hKs, hV, .cons hO hOs, hc => by
    obtain ⟨t, g1, g2⟩ := bind_eq_ok.mp hK
    obtain ⟨e, g3, g4⟩ := bind_eq_ok.mp hO
    have ih := Elab.args E hΓ hR (fun a ha => hT a (by simp [ha])) (fun a ha => hW a (by simp [ha])) hIs
      (by simpa using hl) hKs (fun a ha => hV a (by simp [ha])) hOs fun a ha => hc a (by simp [ha])
    refine ⟨by simp [ih.1], fun p hp => ?_⟩
    simp only [List.zip_cons_cons, List.mem_cons] at hp
    rcases hp with rfl | hp
    · have hca := hc a (by simp)
      exact E.to hΓ (hT a0 (by simp)) hR (hW a0 (by simp)) hI g1 (hV a1 (by simp)) g3 g2 hca hca g4
    · exact ih.2 p hp

/-- Types of built-in calls. -/
theorem builtInTy_of {f : BuiltIn} {ts as : List Ty} {ty r : Ty} (h : builtInType n C f ts = .ok ty)
    (hc : Canon C.types ty (.function as r)) (hk : checkBuiltIn n C f as r = .ok ()) : BuiltInTy f as r := by
  cases f with
  | debug =>
    simp only [builtInType, Res.ok.injEq] at h
    subst h
    cases hc.det (Canon.function (.cons canon_any .nil) canon_none)
    exact .debug
  | error =>
    simp only [builtInType, Res.ok.injEq] at h
    subst h
    cases hc.det (Canon.function (.cons canon_any .nil) canon_error)
    exact .error
  | delete =>
    cases ts with
    | nil => simp [builtInType] at h
    | cons t ts =>
      simp only [builtInType, Res.ok.injEq] at h
      subst h
      obtain ⟨cs, d, h1, h2, h3⟩ := canon_function_inv hc
      cases h1
      cases h2 with
      | @cons _ m _ as h4 h5 =>
        cases h3.det h4
        cases h5 with
        | nil => simp [checkBuiltIn] at hk
        | @cons _ k _ as h6 h7 =>
          cases h7 with
          | cons _ _ => simp [checkBuiltIn] at hk
          | nil =>
            simp only [checkBuiltIn, bind_eq_ok] at hk
            obtain ⟨_, _, kv, g1, g2⟩ := hk
            have g3 := (expectMap_ok g1).det h4.self
            subst g3
            have := (expectMap_ok g1).map_arg.1
            exact .delete (expectSub_ok g2 h6.self this)
  | keys =>
    match ts, h with
    | [t], h =>
      simp only [builtInType, bind_eq_ok] at h
      obtain ⟨kv, g1, g2⟩ := h
      cases g2
      have g3 := expectMap_ok g1
      have := hc.det (Canon.function (.cons g3 .nil) g3.map_arg.1.list)
      cases this
      exact .keys _ _
    | [], h => simp [builtInType] at h
    | _ :: _ :: _, h => simp [builtInType] at h
  | values =>
    match ts, h with
    | [t], h =>
      simp only [builtInType, bind_eq_ok] at h
      obtain ⟨kv, g1, g2⟩ := h
      cases g2
      have g3 := expectMap_ok g1
      have := hc.det (Canon.function (.cons g3 .nil) g3.map_arg.2.list)
      cases this
      exact .values _ _
    | [], h => simp [builtInType] at h
    | _ :: _ :: _, h => simp [builtInType] at h
  | race =>
    match ts, h with
    | [t], h =>
      simp only [builtInType, bind_eq_ok] at h
      obtain ⟨e, g1, g2⟩ := h
      cases g2
      have g3 := expectList_ok g1
      have := hc.det (Canon.function (.cons g3 .nil) g3.list_arg)
      cases this
      simp only [checkBuiltIn, bind_eq_ok] at hk
      obtain ⟨e', g4, x, g5, _⟩ := hk
      have g6 := (expectList_ok g4).det g3.self
      cases g6
      have g7 := (expectList_ok g5).det g3.list_arg
      subst g7
      exact .race _
    | [], h => simp [builtInType] at h
    | _ :: _ :: _, h => simp [builtInType] at h
  | reflectDebug =>
    simp only [builtInType, Res.ok.injEq] at h
    subst h
    cases hc.det (Canon.function (.cons canon_any .nil) canon_string)
    exact .reflectDebug
  | reflectEqual =>
    simp only [builtInType, Res.ok.injEq] at h
    subst h
    cases hc.det (Canon.function (.cons canon_any (.cons canon_any .nil))
      (canon_self (c := .union .boolean .none) (.union .boolean .none) (by decide)))
    exact .reflectEqual
  | size =>
    simp only [builtInType, Res.ok.injEq] at h
    subst h
    obtain ⟨cs, d, h1, h2, h3⟩ := canon_function_inv hc
    cases h1
    cases h3.det canon_number
    match as, hk with
    | [.list e], _ => exact .sizeList e
    | [.map k v], _ => exact .sizeMap k v
    | [], hk => simp [checkBuiltIn] at hk
    | _ :: _ :: _, hk => simp [checkBuiltIn] at hk
    | [.number], hk => simp [checkBuiltIn] at hk
    | [.boolean], hk => simp [checkBuiltIn] at hk
    | [.string], hk => simp [checkBuiltIn] at hk
    | [.none], hk => simp [checkBuiltIn] at hk
    | [.any], hk => simp [checkBuiltIn] at hk
    | [.error], hk => simp [checkBuiltIn] at hk
    | [.function _ _], hk => simp [checkBuiltIn] at hk
    | [.union _ _], hk => simp [checkBuiltIn] at hk
    | [.record _], hk => simp [checkBuiltIn] at hk
    | [.reference _], hk => simp [checkBuiltIn] at hk
  | source =>
    simp only [builtInType, Res.ok.injEq] at h
    subst h
    cases hc.det (Canon.function (.cons canon_error .nil) canon_any)
    exact .source
  | spawn =>
    cases ts with
    | nil => simp [builtInType] at h
    | cons t ts =>
      simp only [builtInType, Res.ok.injEq] at h
      subst h
      obtain ⟨cs, d, h1, h2, h3⟩ := canon_function_inv hc
      cases h1
      cases h2 with
      | @cons _ m _ as h4 h5 =>
        cases h3.det h4
        cases h5 with
        | cons _ _ => simp [checkBuiltIn] at hk
        | nil =>
          simp only [checkBuiltIn, bind_eq_ok] at hk
          obtain ⟨f, g1, g2⟩ := hk
          have g3 := (expectFunction_ok g1).det h4.self
          split at g2
          · rename_i g4
            subst g3
            rw [g4]
            exact .spawn _
          · cases g2

theorem bindElement_ok {x : String} {t : Option Ty} {p : String × Ty} (h : bindElement n C x t = .ok p) :
    ∃ u e, t = some u ∧ Canon C.types u (.list e) ∧ p = (x, .function [] e) := by
  unfold bindElement at h
  obtain ⟨u, h1, h2⟩ := bind_eq_ok.mp h
  obtain ⟨e, h3, h4⟩ := bind_eq_ok.mp h2
  cases h4
  exact ⟨u, e, orErr_ok h1, expectList_ok h3, rfl⟩

/-- A transformed condition. -/
def CondTo (f : Expr → Res Err Expr) (c c' : Option Expr) : Prop :=
  (c = Option.none ∧ c' = Option.none) ∨ ∃ e e', c = some e ∧ c' = some e' ∧ f e = .ok e'

theorem inferBranches_cons {f : Vars → Expr → Res Err Expr} {Γ Γ1 : Vars} {b : Branch Expr}
    {bs bs1 : List (Branch Expr)} (h : inferBranches n C f Γ (b :: bs) = .ok (bs1, Γ1)) :
    ∃ is xs c bs', List.Forall₂ (fun (i : Option Ty × Expr) j => ∃ e t, f Γ i.2 = .ok e ∧
        extract n C Γ e = .ok t ∧ j = (some t, e)) b.iteratees is ∧
      List.Forall₂ (fun (p : String × (Option Ty × Expr)) x => bindElement n C p.1 p.2.1 = .ok x)
        (b.names.zip is) xs ∧
      CondTo (f (Γ.insertAll xs)) b.condition c ∧
      inferBranches n C f (Γ.insertAll xs) bs = .ok (bs', Γ1) ∧ bs1 = ⟨b.names, is, c⟩ :: bs' := by
  unfold inferBranches at h
  obtain ⟨is, h1, h⟩ := bind_eq_ok.mp h
  obtain ⟨xs, h2, h⟩ := bind_eq_ok.mp h
  have h1' : List.Forall₂ (fun (i : Option Ty × Expr) j => ∃ e t, f Γ i.2 = .ok e ∧
        extract n C Γ e = .ok t ∧ j = (some t, e)) b.iteratees is :=
    (mapList_eq_ok.mp h1).imp fun i j h => by
      obtain ⟨e, g1, g2⟩ := bind_eq_ok.mp h
      obtain ⟨t, g3, g4⟩ := bind_eq_ok.mp g2
      cases g4
      exact ⟨e, t, g1, g3, rfl⟩
  cases hb : b.condition with
  | none =>
    simp only [hb, ok_bind, bind_eq_ok, Res.ok.injEq, Prod.mk.injEq] at h
    obtain ⟨⟨bs', Γ'⟩, h4, h5, h6⟩ := h
    simp only at h5 h6
    subst h6
    exact ⟨is, xs, _, bs', h1', mapList_eq_ok.mp h2, Or.inl ⟨rfl, rfl⟩, h4, h5.symm⟩
  | some e =>
    simp only [hb, ok_bind, bind_eq_ok, Res.ok.injEq, Prod.mk.injEq] at h
    obtain ⟨e', h3, ⟨bs', Γ'⟩, h4, h5, h6⟩ := h
    simp only at h5 h6
    subst h6
    exact ⟨is, xs, _, bs', h1', mapList_eq_ok.mp h2, Or.inr ⟨e, e', rfl, rfl, h3⟩, h4, h5.symm⟩

theorem coerceBranches_cons {f : Vars → Expr → Res Err Expr} {Γ Γ1 : Vars} {b : Branch Expr}
    {bs bs1 : List (Branch Expr)} (h : coerceBranches n C f Γ (b :: bs) = .ok (bs1, Γ1)) :
    ∃ is xs c bs', List.Forall₂ (fun (i : Option Ty × Expr) j => ∃ e, f Γ i.2 = .ok e ∧ j = (i.1, e))
        b.iteratees is ∧
      List.Forall₂ (fun (p : String × (Option Ty × Expr)) x => bindElement n C p.1 p.2.1 = .ok x)
        (b.names.zip b.iteratees) xs ∧
      CondTo (f (Γ.insertAll xs)) b.condition c ∧
      coerceBranches n C f (Γ.insertAll xs) bs = .ok (bs', Γ1) ∧ bs1 = ⟨b.names, is, c⟩ :: bs' := by
  unfold coerceBranches at h
  obtain ⟨is, h1, h⟩ := bind_eq_ok.mp h
  obtain ⟨xs, h2, h⟩ := bind_eq_ok.mp h
  have h1' : List.Forall₂ (fun (i : Option Ty × Expr) j => ∃ e, f Γ i.2 = .ok e ∧ j = (i.1, e))
        b.iteratees is :=
    (mapList_eq_ok.mp h1).imp fun i j h => by
      obtain ⟨e, g1, g2⟩ := bind_eq_ok.mp h
      cases g2
      exact ⟨e, g1, rfl⟩
  cases hb : b.condition with
  | none =>
    simp only [hb, ok_bind, bind_eq_ok, Res.ok.injEq, Prod.mk.injEq] at h
    obtain ⟨⟨bs', Γ'⟩, h4, h5, h6⟩ := h
    simp only at h5 h6
    subst h6
    exact ⟨is, xs, _, bs', h1', mapList_eq_ok.mp h2, Or.inl ⟨rfl, rfl⟩, h4, h5.symm⟩
  | some e =>
    simp only [hb, ok_bind, bind_eq_ok, Res.ok.injEq, Prod.mk.injEq] at h
    obtain ⟨e', h3, ⟨bs', Γ'⟩, h4, h5, h6⟩ := h
    simp only at h5 h6
    subst h6
    exact ⟨is, xs, _, bs', h1', mapList_eq_ok.mp h2, Or.inr ⟨e, e', rfl, rfl, h3⟩, h4, h5.symm⟩

theorem checkBranches_cons {f : Vars → Expr → Res Err Ty} {Γ Γ1 : Vars} {b : Branch Expr}
    {bs : List (Branch Expr)} (h : checkBranches n C f Γ (b :: bs) = .ok Γ1) :
    b.names.length = b.iteratees.length ∧ ∃ Γ', checkIteratees n C f Γ (b.names.zip b.iteratees) = .ok Γ' ∧
      (∀ c, b.condition = some c → ∃ t, f Γ' c = .ok t ∧ expectSub n C t .boolean = .ok ()) ∧
      checkBranches n C f Γ' bs = .ok Γ1 := by
  unfold checkBranches at h
  split at h
  · cases h
  · rename_i hl
    obtain ⟨Γ', h1, h⟩ := bind_eq_ok.mp h
    refine ⟨by simpa using hl, Γ', h1, ?_⟩
    cases hb : b.condition with
    | none =>
      simp only [hb, ok_bind] at h
      exact ⟨by simp, h⟩
    | some e =>
      simp only [hb, bind_eq_ok] at h
      obtain ⟨t, h2, _, h3, h4⟩ := h
      refine ⟨?_, h4⟩
      intro c hc
      cases hc
      exact ⟨t, h2, h3⟩

/-- The iteratees of a branch. They are checked in the scope of the names of those before. -/
theorem Elab.iteratees (E : Elab M C n) {o : Bool} {Γ : Vars} (hΓ : VarsOk C Γ) :
    ∀ {names : List String} {its is1 is2 : List (Option Ty × Expr)} {xs : List (String × Ty)} {Δ Δ' : Vars},
    names.length = is1.length → Apart (names.zip its) → (∀ i ∈ its, Tame C.types o i.2) →
    (∀ i ∈ its, Written M i.2) →
    List.Forall₂ (fun (i : Option Ty × Expr) j => ∃ e t, infer n C Γ i.2 = .ok e ∧ extract n C Γ e = .ok t ∧
      j = (some t, e)) its is1 →
    List.Forall₂ (fun (p : String × (Option Ty × Expr)) x => bindElement n C p.1 p.2.1 = .ok x) (names.zip is1) xs →
    (∀ i ∈ is1, validateTry n C Option.none i.2 = .ok ()) →
    List.Forall₂ (fun (i : Option Ty × Expr) j => ∃ e, coerce n C Γ i.2 = .ok e ∧ j = (i.1, e)) is1 is2 →
    (∀ i ∈ is1, check n C Δ i.2 = check n C Γ i.2) →
    checkIteratees n C (check n C) Δ (names.zip is1) = .ok Δ' →
    ∃ ts : List Ty, is2.length = ts.length ∧
      (∀ p ∈ is2.zip ts, ∃ t, p.1.1 = some t ∧ Canon C.types t (.list p.2)) ∧
      (∀ p ∈ is2.zip ts, Typed C Γ Option.none p.1.2 (.list p.2)) ∧
      xs = names.zip (ts.map (.function [])) ∧ Δ' = Δ.insertAll xs ∧ ∀ p ∈ xs, ∃ c, Canon C.types p.2 c
  | [], its, is1, is2, xs, Δ, Δ', k0, _, _, _, i1, i2, _, o1, _, k1 => by
    cases is1 with
    | cons _ _ => simp at k0
    | nil =>
      cases o1
      cases i2
      simp only [List.zip_nil_right, checkIteratees, Res.ok.injEq] at k1
      exact ⟨[], rfl, by simp, by simp, rfl, k1.symm, by simp⟩
  | x :: names, its, is1, is2, xs, Δ, Δ', k0, hA, hT, hW, i1, i2, hV, o1, hΔ, k1 => by
    cases i1 with
    | nil => simp at k0
    | @cons i j is js i1 i1' =>
      obtain ⟨e, t, g1, g2, rfl⟩ := i1
      cases o1 with
      | @cons _ _ _ ks o1 o1' =>
        obtain ⟨e', g3, rfl⟩ := o1
        cases i2 with
        | @cons _ y _ ys i2 i2' =>
          simp only at i2
          obtain ⟨u, te, b1, b2, b3⟩ := bindElement_ok i2
          cases b1
          subst b3
          simp only [List.zip_cons_cons, checkIteratees, orErr, ok_bind, bind_eq_ok] at k1
          obtain ⟨tc, k4, _, k5, xt, k6, k7⟩ := k1
          rw [i2] at k6
          cases k6
          rw [hΔ (some t, e) (by simp)] at k4
          obtain ⟨c, m1, m2, m3⟩ := E (ρ := Option.none) hΓ (hT i (by simp)) .none (hW i (by simp)) g1 k4
            (hV (some t, e) (by simp)) g3
          have hce := (m3 _ _ g2).det b2
          subst hce
          simp only [List.zip_cons_cons, Apart] at hA
          have hom : ∀ j ∈ js, Omits x j.2 := by
            intro j hj
            obtain ⟨i', hi', e1, t1, g4, g5, rfl⟩ := forall₂_mem_right i1' hj
            have hlen : names.length = is.length := by
              simp only [List.length_cons, Nat.add_right_cancel_iff] at k0
              rw [k0, i1'.length_eq]
            obtain ⟨q, hq⟩ := List.getElem_of_mem hi'
            obtain ⟨hq1, hq2⟩ := hq
            refine infer_omits (hA.1 (names[q], i') ?_) g4
            rw [← hq2]
            have : (names.zip is)[q]'(by simp [hlen, hq1]) = (names[q], is[q]) := by simp
            rw [← this]
            exact List.getElem_mem _
          obtain ⟨ts, t1, t2, t3, t4, t5, t6⟩ := Elab.iteratees E hΓ (names := names) (by simpa using k0) hA.2
            (fun i hi => hT i (by simp [hi])) (fun i hi => hW i (by simp [hi])) i1' i2'
            (fun i hi => hV i (by simp [hi])) o1' (Δ := Δ.insert x (.function [] te)) (fun j hj => by
              rw [← hΔ j (by simp [hj])]
              refine check_omits (x := x) ?_ (hom j hj)
              intro y hy
              simp [Vars.insert, hy]) k7
          refine ⟨te :: ts, by simp [t1], ?_, ?_, by simp [t4], by rw [t5]; rfl, ?_⟩
          · intro p hp
            simp only [List.zip_cons_cons, List.mem_cons] at hp
            rcases hp with rfl | hp
            · exact ⟨t, rfl, b2⟩
            · exact t2 p hp
          · intro p hp
            simp only [List.zip_cons_cons, List.mem_cons] at hp
            rcases hp with rfl | hp
            · exact m2
            · exact t3 p hp
          · intro p hp
            rcases List.mem_cons.mp hp with rfl | hp
            · exact ⟨_, Canon.function .nil b2.list_arg⟩
            · exact t6 p hp

/-- Branches of comprehensions. -/
theorem Elab.branches (E : Elab M C n) {o : Bool} : ∀ {bs0 bs1 bs2 : List (Branch Expr)} {Γ Γ1 Γ2 Γ3 : Vars},
    VarsOk C Γ → (∀ p ∈ bs0, Apart (p.names.zip p.iteratees)) →
    (∀ p ∈ bs0, ∀ i ∈ p.iteratees, Tame C.types o i.2) →
    (∀ p ∈ bs0, ∀ c, p.condition = some c → Tame C.types o c) →
    (∀ p ∈ bs0, ∀ i ∈ p.iteratees, Written M i.2) →
    (∀ p ∈ bs0, ∀ c, p.condition = some c → Written M c) →
    inferBranches n C (infer n C) Γ bs0 = .ok (bs1, Γ1) →
    checkBranches n C (check n C) Γ bs1 = .ok Γ2 →
    (∀ p ∈ bs1, ∀ i ∈ p.iteratees, validateTry n C Option.none i.2 = .ok ()) →
    (∀ p ∈ bs1, ∀ c, p.condition = some c → validateTry n C Option.none c = .ok ()) →
    coerceBranches n C (coerce n C) Γ bs1 = .ok (bs2, Γ3) →
    Γ2 = Γ1 ∧ Γ3 = Γ1 ∧ VarsOk C Γ1 ∧ ∀ e c, Typed C Γ1 Option.none e c → TypedBranches C Γ bs2 e c
  | [], _, _, Γ, _, _, _, hΓ, _, _, _, _, _, hI, hK, _, _, hO => by
    simp only [inferBranches, Res.ok.injEq, Prod.mk.injEq] at hI
    obtain ⟨rfl, rfl⟩ := hI
    simp only [checkBranches, Res.ok.injEq] at hK
    simp only [coerceBranches, Res.ok.injEq, Prod.mk.injEq] at hO
    obtain ⟨rfl, rfl⟩ := hO
    exact ⟨hK.symm, rfl, hΓ, fun e c h => .nil h⟩
  | ⟨names, its, cond⟩ :: bs0, _, _, Γ, _, _, _, hΓ, hl, hT, hT', hW, hW', hI, hK, hV, hV', hO => by
    have hl0 : Apart (names.zip its) := hl ⟨names, its, cond⟩ (by simp)
    have hT0 := hT ⟨names, its, cond⟩ (by simp)
    have hW0 := hW ⟨names, its, cond⟩ (by simp)
    have hT1 := hT' ⟨names, its, cond⟩ (by simp)
    have hW1 := hW' ⟨names, its, cond⟩ (by simp)
    simp only at hT0 hW0 hT1 hW1
    obtain ⟨is1, xs, c1, bs1, i1, i2, i3, i4, rfl⟩ := inferBranches_cons hI
    obtain ⟨k0, Γ', k1, k2, k3⟩ := checkBranches_cons hK
    obtain ⟨is2, ys, c2, bs2, o1, o2, o3, o4, rfl⟩ := coerceBranches_cons hO
    simp only at i1 i2 i3 k0 k1 k2 o1 o2 o3
    have hV0 := hV ⟨names, is1, c1⟩ (by simp)
    have hV1 := hV' ⟨names, is1, c1⟩ (by simp)
    simp only at hV0 hV1
    have hxy : ys = xs := by
      clear i3 i4 o3 o4
      revert i2 o2
      generalize names.zip is1 = l
      intro i2 o2
      induction i2 generalizing ys with
      | nil => cases o2; rfl
      | cons h _ ih =>
        cases o2 with
        | cons h' hs => rw [ih _ hs]; rw [h] at h'; cases h'; rfl
    subst hxy
    -- the iteratees
    obtain ⟨ts, t1, t2, t3, t4, t5, t6⟩ : ∃ ts : List Ty, is2.length = ts.length ∧
        (∀ p ∈ is2.zip ts, ∃ t, p.1.1 = some t ∧ Canon C.types t (.list p.2)) ∧
        (∀ p ∈ is2.zip ts, Typed C Γ Option.none p.1.2 (.list p.2)) ∧
        ys = names.zip (ts.map (.function [])) ∧ Γ' = Γ.insertAll ys ∧ VarsOk C (Γ.insertAll ys) := by
      obtain ⟨ts, t1, t2, t3, t4, t5, t6⟩ := E.iteratees hΓ k0 hl0 hT0 hW0 i1 i2 hV0 o1 (fun _ _ => rfl) k1
      exact ⟨ts, t1, t2, t3, t4, t5, hΓ.insertAll t6⟩
    subst t5
    have hcond : ∀ d, c2 = some d → Typed C (Γ.insertAll ys) Option.none d .boolean := by
      intro d hd
      rcases o3 with ⟨_, h⟩ | ⟨e1, e2, h1, h2, h3⟩
      · rw [h] at hd; cases hd
      · rw [h2] at hd
        cases hd
        rcases i3 with ⟨_, h⟩ | ⟨e0, e1', h4, h5, h6⟩
        · rw [h] at h1; cases h1
        · rw [h5] at h1
          cases h1
          obtain ⟨t, h7, h8⟩ := k2 e1 h5
          exact E.atom t6 (hT1 e0 h4) .none (hW1 e0 h4) h6 h7 (hV1 e1 h5) h3 h8 canon_boolean
            (by simp [NotUnion]) (by simp)
    obtain ⟨r1, r2, r3, r4⟩ := Elab.branches E t6 (fun p hp => hl p (by simp [hp]))
      (fun p hp => hT p (by simp [hp])) (fun p hp => hT' p (by simp [hp])) (fun p hp => hW p (by simp [hp]))
      (fun p hp => hW' p (by simp [hp])) i4 k3 (fun p hp => hV p (by simp [hp]))
      (fun p hp => hV' p (by simp [hp])) o4
    refine ⟨r1, r2, r3, fun e c he => ?_⟩
    have hln : names.length = is2.length := by rw [k0, o1.length_eq]
    refine .cons (ts := ts) hln t1 t2 t3 ?_ ?_
    · simp only [← t4]; exact hcond
    · simp only [← t4]; exact r4 e c he

theorem infer_var {Γ : Vars} {x : String} {e : Expr} (h : infer (n + 1) C Γ (.variable x) = .ok e) :
    e = .variable x := by simp only [infer, Res.ok.injEq] at h; exact h.symm

/-- Record fields. -/
theorem Elab.fields (hC : CtxOk M C) (E : Elab M C n) {Γ : Vars} {o : Bool} {res ρ : Option Ty}
    (hΓ : VarsOk C Γ) (hR : TryOk C o res ρ) {r : String} {fs : List RecordField} (hr : C.records r = some fs)
    {l0 l1 l2 : List (String × Expr)} {us : List Unit} (hT : ∀ f ∈ l0, Tame C.types o f.2)
    (hW : ∀ f ∈ l0, Written M f.2)
    (hI : List.Forall₂ (fun (f : String × Expr) g => (do
      let e ← infer n C Γ f.2
      .ok (f.1, e) : Res Err (String × Expr)) = .ok g) l0 l1)
    (hK : List.Forall₂ (fun (f : String × Expr) u => (do
      let ft ← fieldType fs f.1
      let t ← check n C Γ f.2
      expectSub n C t ft) = .ok u) l1 us)
    (hV : ∀ f ∈ l1, validateTry n C res f.2 = .ok ())
    (hO : List.Forall₂ (fun (f : String × Expr) g => (do
      let e ← coerce n C Γ f.2
      let ft ← fieldType fs f.1
      let e ← coerceTo n C Γ e ft
      .ok (f.1, e) : Res Err (String × Expr)) = .ok g) l1 l2) :
    (∀ x ∈ l1.map (·.1), x ∈ l2.map (·.1)) ∧ ∃ F : String → Ty, (∀ f ∈ l2, FieldTy C r f.1 (F f.1)) ∧
      ∀ f ∈ l2, Typed C Γ ρ f.2 (F f.1) := by
  classical
  refine ⟨fun x hx => ?_, fun x => if h : ∃ c, FieldTy C r x c then h.choose else .any, ?_⟩
  · obtain ⟨f, hf, rfl⟩ := List.mem_map.mp hx
    obtain ⟨g, hg, h⟩ := forall₂_mem_left hO hf
    obtain ⟨e, g1, h⟩ := bind_eq_ok.mp h
    obtain ⟨ft, g2, h⟩ := bind_eq_ok.mp h
    obtain ⟨e', g3, h⟩ := bind_eq_ok.mp h
    cases h
    exact List.mem_map.mpr ⟨_, hg, rfl⟩
  · have key : ∀ f ∈ l2, ∃ c, FieldTy C r f.1 c ∧ Typed C Γ ρ f.2 c := by
      intro f2 hf2
      obtain ⟨f1, hf1, h⟩ := forall₂_mem_right hO hf2
      obtain ⟨e, g1, h⟩ := bind_eq_ok.mp h
      obtain ⟨ft, g2, h⟩ := bind_eq_ok.mp h
      obtain ⟨e', g3, h⟩ := bind_eq_ok.mp h
      cases h
      obtain ⟨f0, hf0, h⟩ := forall₂_mem_right hI hf1
      obtain ⟨e1, g4, h⟩ := bind_eq_ok.mp h
      cases h
      obtain ⟨u, _, h⟩ := forall₂_mem_left hK hf1
      obtain ⟨ft', g5, h⟩ := bind_eq_ok.mp h
      obtain ⟨t, g6, g7⟩ := bind_eq_ok.mp h
      rw [g2] at g5
      cases g5
      obtain ⟨f, hf, _, h9⟩ := fieldType_mem g2
      obtain ⟨c, hc⟩ := hC.records hr f hf
      rw [h9] at hc
      exact ⟨c, ⟨fs, ft, hr, g2, hc⟩, E.to hΓ (hT f0 hf0) hR (hW f0 hf0) g4 g6 (hV _ hf1) g1 g7 hc hc g3⟩
    refine ⟨fun f hf => ?_, fun f hf => ?_⟩
    · obtain ⟨c, h1, _⟩ := key f hf
      have hex : ∃ c, FieldTy C r f.1 c := ⟨c, h1⟩
      simp only [hex, dif_pos]
      exact hex.choose_spec
    · obtain ⟨c, h1, h2⟩ := key f hf
      have hex : ∃ c, FieldTy C r f.1 c := ⟨c, h1⟩
      simp only [hex, dif_pos]
      rw [hex.choose_spec.det h1]
      exact h2

theorem resolveFields_ok {t : Ty} {fs : List RecordField} (h : resolveFields n C t = .ok fs) :
    ∃ r, Canon C.types t (.record r) ∧ C.records r = some fs := by
  unfold resolveFields at h
  obtain ⟨c, h1, h2⟩ := bind_eq_ok.mp h
  cases c <;> simp at h2
  exact ⟨_, .of_ok h1, resolveRecord_ok h2⟩

/-- Functions. -/
theorem elab_lambda (hC : CtxOk M C) (E : Elab M C n) {Γ : Vars} {o : Bool} {res ρ : Option Ty}
    {ps : List (String × Ty)} {r : Ty} {b e1 e2 : Expr} {t : Ty} {k : Nat} (hΓ : VarsOk C Γ)
    (hT : Tame C.types o b) (hR : ∀ c, Canon C.types r c → TryOk C o (some r) (some c))
    (hW : typesExist (k + 1) M (.lambda ps r b) = .ok ())
    (hI : infer (n + 1) C Γ (.lambda ps r b) = .ok e1) (hK : check (n + 1) C Γ e1 = .ok t)
    (hV : validateTry (n + 1) C res e1 = .ok ()) (hO : coerce (n + 1) C Γ e1 = .ok e2) :
    ∃ c, Canon C.types t c ∧ Typed C Γ ρ e2 c ∧ ∀ j t', extract j C Γ e1 = .ok t' → Canon C.types t' c := by
  simp only [typesExist, bind_eq_ok] at hW
  obtain ⟨_, w1, _, w2, w3⟩ := hW
  simp only [infer, bind_eq_ok, Res.ok.injEq] at hI
  obtain ⟨b1, i1, rfl⟩ := hI
  simp only [check, bind_eq_ok, Res.ok.injEq] at hK
  obtain ⟨tb, k1, _, k2, rfl⟩ := hK
  simp only [validateTry] at hV
  simp only [coerce, bind_eq_ok, Res.ok.injEq] at hO
  obtain ⟨b2, o1, b3, o2, rfl⟩ := hO
  obtain ⟨c, hc⟩ := hC.written w2
  have hps : ∀ p ∈ ps, ∃ c, Canon C.types p.2 c := fun p hp => hC.written (forList_ok w1 p hp)
  obtain ⟨as, has⟩ : ∃ as, List.Forall₂ (Canon C.types) (ps.map (·.2)) as := by
    clear w1 i1 k1 hV o1 o2
    induction ps with
    | nil => exact ⟨[], .nil⟩
    | cons p ps ih =>
      obtain ⟨c, hc⟩ := hps p (by simp)
      obtain ⟨as, has⟩ := ih fun p hp => hps p (by simp [hp])
      exact ⟨c :: as, .cons hc has⟩
  have hl : Canon C.types (lambdaType ps r) (.function as c) := Canon.function has hc
  refine ⟨_, hl, .lambda hl (E.to (hΓ.insertAll hps) hT (hR c hc) ⟨k, w3⟩ i1 k1 hV o1 k2 hc hc o2),
    fun j t' h => ?_⟩
  cases j with
  | zero => simp [extract] at h
  | succ j =>
    simp only [extract, Res.ok.injEq] at h
    subst h
    exact hl

theorem forall₂_of_exists {α β : Type} {P : α → β → Prop} : ∀ {as : List α}, (∀ a ∈ as, ∃ b, P a b) →
    ∃ bs, List.Forall₂ P as bs
  | [], _ => ⟨[], .nil⟩
  | a :: as, h => by
    obtain ⟨b, hb⟩ := h a (by simp)
    obtain ⟨bs, hbs⟩ := forall₂_of_exists fun a ha => h a (List.mem_cons_of_mem _ ha)
    exact ⟨b :: bs, .cons hb hbs⟩

/-- What the analysis of the branches of a type case says about each of them. -/
def BranchOk (n : Nat) (C : Ctx) (Γ : Vars) (ρ : Option Ty) (x : String) (t : Ty) (e : Expr) (c : Ty) : Prop :=
  (∀ e2, coerce n C (Γ.insert x t) e = .ok e2 → Typed C (Γ.insert x t) ρ e2 c) ∧
    (∃ u, Canon C.types u c) ∧ ∀ j t', extract j C (Γ.insert x t) e = .ok t' → Canon C.types t' c

theorem Elab.branch (E : Elab M C n) {Γ : Vars} {o : Bool} {res ρ : Option Ty} {e0 e1 : Expr} {x : String}
    {t u d : Ty} (hΓ : VarsOk C Γ) (hd : Canon C.types u d) (hT : Tame C.types o e0) (hR : TryOk C o res ρ)
    (hW : Written M e0) (hI : infer n C (Γ.insert x u) e0 = .ok e1)
    (hK : check n C (Γ.insert x u) e1 = .ok t) (hV : validateTry n C res e1 = .ok ()) {e2 : Expr}
    (hO : coerce n C (Γ.insert x u) e1 = .ok e2) : ∃ c, BranchOk n C Γ ρ x u e1 c := by
  obtain ⟨c, h1, h2, h3⟩ := E (hΓ.insert hd) hT hR hW hI hK hV hO
  refine ⟨c, fun e2' h => ?_, ⟨t, h1⟩, h3⟩
  rw [hO] at h
  cases h
  exact h2

theorem createUnion_det {A : Aliases} {ts ts' cs : List Ty} {u u' c : Ty} (h : createUnion ts = some u)
    (h' : createUnion ts' = some u') (hs : List.Forall₂ (Canon A) ts cs) (hs' : List.Forall₂ (Canon A) ts' cs)
    (hc : Canon A u c) : Canon A u' c := by
  obtain ⟨j, g1, g2, g3, g4⟩ := canon_createUnion h hs
  obtain ⟨j', g1', g2', g3', g4'⟩ := canon_createUnion h' hs'
  rw [hc.det g1]
  have : j' = j := by
    by_cases hj : j = .any
    · rw [hj]; exact (g2' _ (g3 hj)).any_left g1'
    · have hj' : j' ≠ .any := fun h => hj ((g2 _ (g3' h)).any_left g1)
      exact canon_ext g1' g1 fun x => by rw [g4 hj, g4' hj']
  rw [← this]
  exact g1'

theorem check_branch {Γ : Vars} {x : String} {ce : Ty} {b : Ty × Expr} {u : Unit} (h : (do
      expectSub n C b.1 ce
      let _ ← check n C (Γ.insert x b.1) b.2
      let u ← canonicalize n C.types b.1
      if u = .any then .err .anyTypeBranch else .ok () : Res Err Unit) = .ok u) :
    ∃ tb cb, check n C (Γ.insert x b.1) b.2 = .ok tb ∧ Canon C.types b.1 cb ∧ cb ≠ .any := by
  simp only [bind_eq_ok] at h
  obtain ⟨_, _, tb, h2, cb, h3, h4⟩ := h
  split at h4
  · cases h4
  · rename_i h5
    exact ⟨tb, cb, h2, .of_ok h3, h5⟩

theorem check_ifType {Γ : Vars} {x : String} {e : Expr} {bs : List (Ty × Expr)}
    {el : Option (Option Ty × Expr)} {t : Ty} (h : check (n + 1) C Γ (.ifType x e bs el) = .ok t) :
    ∃ te ce, check n C Γ e = .ok te ∧ Canon C.types te ce ∧ IsVariant ce ∧
      (∀ b ∈ bs, ∃ tb cb, check n C (Γ.insert x b.1) b.2 = .ok tb ∧ Canon C.types b.1 cb ∧ cb ≠ .any) ∧
      (∀ u b, el = some (u, b) → ∃ u' tb, u = some u' ∧ check n C (Γ.insert x u') b = .ok tb) ∧
      (el = Option.none → ∃ u, createUnion (bs.map (·.1)) = some u ∧ equalCheck n C.types ce u = .ok true) ∧
      extract n C Γ (.ifType x e bs el) = .ok t := by
  simp only [check, bind_eq_ok] at h
  obtain ⟨te, k1, ce, k2, h⟩ := h
  have hv : IsVariant ce ∧ (Res.mapList (fun b : Ty × Expr => (do
        expectSub n C b.1 ce
        let _ ← check n C (Γ.insert x b.1) b.2
        let u ← canonicalize n C.types b.1
        if u = .any then .err .anyTypeBranch else .ok () : Res Err Unit)) bs >>= fun _ => (match (generalizing := false) el with
      | some (u, b) => do
        let u ← orErr u .typeNotInferred
        let _ ← check n C (Γ.insert x u) b
        extract n C Γ (.ifType x e bs el)
      | Option.none => do
        let u ← orErr (createUnion (bs.map (·.1))) .panic
        if ← equalCheck n C.types ce u then extract n C Γ (.ifType x e bs el)
        else .err .missingElseBlock : Res Err Ty)) = .ok t := by
    cases ce <;> first
      | (refine ⟨Or.inl rfl, ?_⟩; simp only [ok_bind, bind_eq_ok] at h ⊢; exact h)
      | (refine ⟨Or.inr ⟨_, _, rfl⟩, ?_⟩; simp only [ok_bind, bind_eq_ok] at h ⊢; exact h)
      | (simp at h; done)
  obtain ⟨hv, h⟩ := hv
  simp only [bind_eq_ok] at h
  obtain ⟨us, k3, h⟩ := h
  have hb : ∀ b ∈ bs, ∃ tb cb, check n C (Γ.insert x b.1) b.2 = .ok tb ∧ Canon C.types b.1 cb ∧ cb ≠ .any := by
    intro b hb
    obtain ⟨u, _, h⟩ := forall₂_mem_left (mapList_eq_ok.mp k3) hb
    exact check_branch h
  refine ⟨te, ce, k1, .of_ok k2, hv, hb, ?_⟩
  cases el with
  | none =>
    simp only [bind_eq_ok] at h
    obtain ⟨u, h1, q, h2, h3⟩ := h
    cases q with
    | false => simp at h3
    | true =>
      simp only [if_true, ok_bind] at h3
      exact ⟨by simp, fun _ => ⟨u, orErr_ok h1, h2⟩, h3⟩
  | some p =>
    obtain ⟨u, b⟩ := p
    simp only [bind_eq_ok] at h
    obtain ⟨u', h1, tb, h2, h3⟩ := h
    refine ⟨?_, by simp, h3⟩
    intro u0 b0 hub
    cases hub
    exact ⟨u', tb, orErr_ok h1, h2⟩

theorem elab_zero : Elab M C 0 := by
  intro Γ o res ρ e0 e1 e2 t _ _ _ _ hI
  simp [infer] at hI

set_option maxHeartbeats 2000000 in
theorem elab_succ (hC : CtxOk M C) (E : Elab M C n) : Elab M C (n + 1) := by
  intro Γ o res ρ e0 e1 e2 t hΓ hT hR hW hI hK hV hO
  obtain ⟨k, hW⟩ := hW
  cases k with
  | zero => simp [typesExist] at hW
  | succ k =>
  cases hT with
  | boolean b =>
    simp only [infer, Res.ok.injEq] at hI
    subst hI
    simp only [check, coerce, Res.ok.injEq] at hK hO
    subst hK; subst hO
    refine ⟨_, canon_boolean, .boolean b, fun j t' h => ?_⟩
    cases j <;> simp [extract] at h
    subst h; exact canon_boolean
  | none =>
    simp only [infer, Res.ok.injEq] at hI
    subst hI
    simp only [check, coerce, Res.ok.injEq] at hK hO
    subst hK; subst hO
    refine ⟨_, canon_none, .none, fun j t' h => ?_⟩
    cases j <;> simp [extract] at h
    subst h; exact canon_none
  | number b =>
    simp only [infer, Res.ok.injEq] at hI
    subst hI
    simp only [check, coerce, Res.ok.injEq] at hK hO
    subst hK; subst hO
    refine ⟨_, canon_number, .number b, fun j t' h => ?_⟩
    cases j <;> simp [extract] at h
    subst h; exact canon_number
  | string b =>
    simp only [infer, Res.ok.injEq] at hI
    subst hI
    simp only [check, coerce, Res.ok.injEq] at hK hO
    subst hK; subst hO
    refine ⟨_, canon_string, .string b, fun j t' h => ?_⟩
    cases j <;> simp [extract] at h
    subst h; exact canon_string
  | var x =>
    simp only [infer, Res.ok.injEq] at hI
    subst hI
    simp only [check, coerce, Res.ok.injEq] at hK hO
    subst hO
    have h1 := orErr_ok hK
    obtain ⟨c, h2⟩ := hΓ x t h1
    refine ⟨c, h2, .var h1 h2, fun j t' h => ?_⟩
    cases j with
    | zero => simp [extract] at h
    | succ j =>
      simp only [extract] at h
      have := orErr_ok h
      rw [h1] at this
      cases this
      exact h2
  | builtIn f =>
    simp only [infer, Res.ok.injEq] at hI
    subst hI
    simp [check] at hK
  | @call _ t0 f args hTf hTa =>
    simp only [typesExist, bind_eq_ok] at hW
    obtain ⟨_, w1, w2⟩ := hW
    simp only [infer, bind_eq_ok, Res.ok.injEq] at hI
    obtain ⟨f1, i1, tf, i2, args1, i3, rfl⟩ := hI
    simp only [check, orErr, ok_bind, bind_eq_ok] at hK
    obtain ⟨ft, k1, hK⟩ := hK
    split at hK
    · cases hK
    rename_i hl
    simp only [ne_eq, Decidable.not_not] at hl
    simp only [bind_eq_ok, Res.ok.injEq] at hK
    obtain ⟨us, k2, tu, k3, _, k4, rfl⟩ := hK
    simp only [validateTry, bind_eq_ok] at hV
    obtain ⟨_, v1, v2⟩ := hV
    simp only [coerce, orErr, ok_bind, bind_eq_ok, Res.ok.injEq] at hO
    obtain ⟨ft', o1, f2, o2, args2, o3, rfl⟩ := hO
    rw [k1] at o1
    cases o1
    obtain ⟨c, c1, c2, c3⟩ := E hΓ hTf hR ⟨k, w1⟩ i1 k3 v1 o2
    have hft := expectFunction_ok k1
    cases (c3 _ _ i2).det hft
    obtain ⟨a1, a2⟩ := E.args hΓ hR hTa (written_all w2) (mapList_eq_ok.mp i3) hl (mapList_eq_ok.mp k2)
      (forList_ok v2) (mapList_eq_ok.mp o3) hft.function_arg.1
    refine ⟨ft.2, hft.function_arg.2, .call hft c2 a1 a2, fun j t' h => ?_⟩
    cases j with
    | zero => simp [extract] at h
    | succ j =>
      simp only [extract, orErr, ok_bind, bind_eq_ok, Res.ok.injEq] at h
      obtain ⟨ft2, h1, rfl⟩ := h
      have := (expectFunction_ok h1).det hft
      simp only [Ty.function.injEq] at this
      rw [this.2]
      exact hft.function_arg.2
  | @builtInCall _ t0 f args hTa =>
    simp only [typesExist] at hW
    simp only [infer, bind_eq_ok, Res.ok.injEq] at hI
    obtain ⟨args1, i1, ts, i2, tf, i3, rfl⟩ := hI
    simp only [check, orErr, ok_bind, bind_eq_ok] at hK
    obtain ⟨ft, k1, hK⟩ := hK
    split at hK
    · cases hK
    rename_i hl
    simp only [ne_eq, Decidable.not_not] at hl
    simp only [bind_eq_ok, Res.ok.injEq] at hK
    obtain ⟨us, k2, _, k3, rfl⟩ := hK
    simp only [validateTry] at hV
    simp only [coerce, orErr, ok_bind, bind_eq_ok, Res.ok.injEq] at hO
    obtain ⟨ft', o1, args2, o3, rfl⟩ := hO
    rw [k1] at o1
    cases o1
    have hft := expectFunction_ok k1
    have hR' : TryOk C (o && !f.deferred) res (if f.deferred then Option.none else ρ) := by
      intro h rt hrt
      simp only [Bool.and_eq_true, Bool.not_eq_true'] at h
      simp only [h.2, Bool.false_eq_true, if_false]
      exact hR h.1 rt hrt
    obtain ⟨a1, a2⟩ := E.args hΓ hR' hTa (written_all hW) (mapList_eq_ok.mp i1) hl (mapList_eq_ok.mp k2)
      (forList_ok hV) (mapList_eq_ok.mp o3) hft.function_arg.1
    refine ⟨ft.2, hft.function_arg.2, .builtInCall hft (builtInTy_of i3 hft k3) a1 a2, fun j t' h => ?_⟩
    cases j with
    | zero => simp [extract] at h
    | succ j =>
      simp only [extract, orErr, ok_bind, bind_eq_ok, Res.ok.injEq] at h
      obtain ⟨ft2, h1, rfl⟩ := h
      have := (expectFunction_ok h1).det hft
      simp only [Ty.function.injEq] at this
      rw [this.2]
      exact hft.function_arg.2
  | @if_ _ c a b hTc hTa hTb =>
    simp only [typesExist, bind_eq_ok] at hW
    obtain ⟨_, w1, _, w2, w3⟩ := hW
    simp only [infer, bind_eq_ok, Res.ok.injEq] at hI
    obtain ⟨a1, i2, b1, i3, c1, i1, rfl⟩ := hI
    simp only [check, bind_eq_ok] at hK
    obtain ⟨tc, k1, _, k2, ta, k3, tb, k4, k5⟩ := hK
    simp only [validateTry, bind_eq_ok] at hV
    obtain ⟨_, v1, _, v2, v3⟩ := hV
    simp only [coerce, bind_eq_ok, Res.ok.injEq] at hO
    obtain ⟨t2, o0, c2, o1, a2, o2, a3, o3, b2, o4, b3, o5, rfl⟩ := hO
    rw [k5] at o0
    cases o0
    obtain ⟨ca, p1, p2, p3⟩ := E hΓ hTa hR ⟨k, w2⟩ i2 k3 v2 o2
    obtain ⟨cb, q1, q2, q3⟩ := E hΓ hTb hR ⟨k, w3⟩ i3 k4 v3 o4
    have hc := E.atom hΓ hTc hR ⟨k, w1⟩ i1 k1 v1 o1 k2 canon_boolean (by simp [NotUnion]) (by simp)
    have ext : ∃ d, Sub ca d ∧ Sub cb d ∧ ∀ j t', extract j C Γ (.if_ c1 a1 b1) = .ok t' → Canon C.types t' d := by
      obtain ⟨d, d1, d2, d3, d4, d5⟩ := (p1.self).union (q1.self)
      refine ⟨d, d2, d3, fun j t' h => ?_⟩
      cases j with
      | zero => simp [extract] at h
      | succ j =>
        simp only [extract, bind_eq_ok, Res.ok.injEq] at h
        obtain ⟨ta', h1, tb', h2, rfl⟩ := h
        exact canon_union_congr (p3 _ _ h1) (q3 _ _ h2) d1
    obtain ⟨d, d1, d2, d3⟩ := ext
    have hd := d3 _ _ k5
    exact ⟨d, hd, .if_ hc (coerceTo_typed p2 hd (Or.inl d1) o3) (coerceTo_typed q2 hd (Or.inl d2) o5), d3⟩
  | @ifList _ t0 l x y a b hTl hTa hTb =>
    simp only [typesExist, bind_eq_ok] at hW
    obtain ⟨_, w1, _, w2, w3⟩ := hW
    simp only [infer, bind_eq_ok, Res.ok.injEq] at hI
    obtain ⟨l1, i1, tl, i2, e, i3, a1, i4, b1, i5, rfl⟩ := hI
    simp only [check, orErr, ok_bind, bind_eq_ok] at hK
    obtain ⟨tc, k1, _, k2, ta, k3, tb, k4, k5⟩ := hK
    simp only [validateTry, bind_eq_ok] at hV
    obtain ⟨_, v1, _, v2, v3⟩ := hV
    simp only [coerce, orErr, ok_bind, bind_eq_ok, Res.ok.injEq] at hO
    obtain ⟨t2, o0, l2, o1, a2, o2, a3, o3, b2, o4, b3, o5, rfl⟩ := hO
    rw [k5] at o0
    cases o0
    obtain ⟨cl, l1', l2', l3'⟩ := E hΓ hTl hR ⟨k, w1⟩ i1 k1 v1 o1
    have hl := expectList_ok i3
    cases (l3' _ _ i2).det hl
    have he := hl.list_arg
    have hΓ' : VarsOk C ((Γ.insert x (.function [] e)).insert y (.list e)) :=
      (hΓ.insert (Canon.function .nil he)).insert he.list
    obtain ⟨ca, p1, p2, p3⟩ := E hΓ' hTa hR ⟨k, w2⟩ i4 k3 v2 o2
    obtain ⟨cb, q1, q2, q3⟩ := E hΓ hTb hR ⟨k, w3⟩ i5 k4 v3 o4
    have ext : ∃ d, Sub ca d ∧ Sub cb d ∧
        ∀ j t', extract j C Γ (.ifList (some e) l1 x y a1 b1) = .ok t' → Canon C.types t' d := by
      obtain ⟨d, d1, d2, d3, d4, d5⟩ := (p1.self).union (q1.self)
      refine ⟨d, d2, d3, fun j t' h => ?_⟩
      cases j with
      | zero => simp [extract] at h
      | succ j =>
        simp only [extract, bind_eq_ok, Res.ok.injEq] at h
        obtain ⟨tl', h0, e', h0', ta', h1, tb', h2, rfl⟩ := h
        cases (l3' _ _ h0).det (expectList_ok h0')
        exact canon_union_congr (p3 _ _ h1) (q3 _ _ h2) d1
    obtain ⟨d, d1, d2, d3⟩ := ext
    have hd := d3 _ _ k5
    exact ⟨d, hd, .ifList he l2' (coerceTo_typed p2 hd (Or.inl d1) o3) (coerceTo_typed q2 hd (Or.inl d2) o5), d3⟩
  | @ifMap _ t0 u0 x m i a b hTm hTi hTa hTb =>
    simp only [typesExist, bind_eq_ok] at hW
    obtain ⟨_, w1, _, w1', _, w2, w3⟩ := hW
    simp only [infer, bind_eq_ok, Res.ok.injEq] at hI
    obtain ⟨m1, i1, i1', i2, tm, i3, kv, i4, a1, i5, b1, i6, rfl⟩ := hI
    simp only [check, orErr, ok_bind, bind_eq_ok] at hK
    obtain ⟨ti, k0, _, k0', tm', k1, _, k2, ta, k3, tb, k4, k5⟩ := hK
    simp only [validateTry, bind_eq_ok] at hV
    obtain ⟨_, v1, _, v1', _, v2, v3⟩ := hV
    simp only [coerce, orErr, ok_bind, bind_eq_ok, Res.ok.injEq] at hO
    obtain ⟨t2, o0, m2, o1, i2', oi, i3', oi', a2, o2, a3, o3, b2, o4, b3, o5, rfl⟩ := hO
    rw [k5] at o0
    cases o0
    obtain ⟨cm, l1', l2', l3'⟩ := E hΓ hTm hR ⟨k, w1⟩ i1 k1 v1 o1
    have hm := expectMap_ok i4
    cases (l3' _ _ i3).det hm
    obtain ⟨hk, hv⟩ := hm.map_arg
    obtain ⟨ca, p1, p2, p3⟩ := E (hΓ.insert hv) hTa hR ⟨k, w2⟩ i5 k3 v2 o2
    obtain ⟨cb, q1, q2, q3⟩ := E hΓ hTb hR ⟨k, w3⟩ i6 k4 v3 o4
    have hi := E.to hΓ hTi hR ⟨k, w1'⟩ i2 k0 v1' oi k0' hk hk oi'
    have ext : ∃ d, Sub ca d ∧ Sub cb d ∧
        ∀ j t', extract j C Γ (.ifMap (some kv.1) (some kv.2) x m1 i1' a1 b1) = .ok t' → Canon C.types t' d := by
      obtain ⟨d, d1, d2, d3, d4, d5⟩ := (p1.self).union (q1.self)
      refine ⟨d, d2, d3, fun j t' h => ?_⟩
      cases j with
      | zero => simp [extract] at h
      | succ j =>
        simp only [extract, bind_eq_ok, Res.ok.injEq] at h
        obtain ⟨tl', h0, e', h0', ta', h1, tb', h2, rfl⟩ := h
        have := (l3' _ _ h0).det (expectMap_ok h0')
        simp only [Ty.map.injEq] at this
        rw [← this.2] at h1
        exact canon_union_congr (p3 _ _ h1) (q3 _ _ h2) d1
    obtain ⟨d, d1, d2, d3⟩ := ext
    have hd := d3 _ _ k5
    exact ⟨d, hd, .ifMap hk hv l2' hi (coerceTo_typed p2 hd (Or.inl d1) o3)
      (coerceTo_typed q2 hd (Or.inl d2) o5), d3⟩
  | @lambda _ ps r b hTb =>
    exact elab_lambda hC E hΓ hTb (fun _ _ => .never) hW hI hK hV hO
  | @lambdaTry _ ps r b hr hTb =>
    refine elab_lambda hC E hΓ hTb (fun c hc _ rt hrt => ?_) hW hI hK hV hO
    cases hrt
    exact ⟨c, rfl, hc, fun h => hr (h ▸ hc)⟩
  | @let_ _ x t0 a b hTa hTb =>
    simp only [typesExist, bind_eq_ok] at hW
    obtain ⟨_, w1, w2⟩ := hW
    simp only [infer, bind_eq_ok, Res.ok.injEq] at hI
    obtain ⟨a1, i1, ta, i2, b1, i3, rfl⟩ := hI
    have hbl : bindLet x (some ta) = .ok (letBinding x ta) := by cases x <;> rfl
    replace i3 : infer n C (Γ.insertAll (letBinding x ta)) b = .ok b1 := by cases x <;> exact i3
    simp only [check, orErr, ok_bind, bind_eq_ok, hbl] at hK
    obtain ⟨tc, k1, _, k2, k3⟩ := hK
    simp only [validateTry, bind_eq_ok] at hV
    obtain ⟨_, v1, v2⟩ := hV
    simp only [coerce, hbl, ok_bind, bind_eq_ok, Res.ok.injEq] at hO
    obtain ⟨a2, o1, b2, o2, rfl⟩ := hO
    obtain ⟨ca, p1, p2, p3⟩ := E hΓ hTa hR ⟨k, w1⟩ i1 k1 v1 o1
    have hta := p3 _ _ i2
    have hΓ' : VarsOk C (Γ.insertAll (letBinding x ta)) := by
      refine hΓ.insertAll fun p hp => ?_
      cases x with
      | none => simp [letBinding] at hp
      | some x =>
        simp only [letBinding, List.mem_singleton] at hp
        subst hp
        exact ⟨ca, hta⟩
    obtain ⟨cb, q1, q2, q3⟩ := E hΓ' hTb hR ⟨k, w2⟩ i3 k3 v2 o2
    refine ⟨cb, q1, .let_ hta p2 q2, fun j t' h => ?_⟩
    cases j with
    | zero => simp [extract] at h
    | succ j =>
      simp only [extract, hbl, ok_bind] at h
      exact q3 _ _ h
  | @list _ t0 elems hTs hTm =>
    simp only [typesExist, bind_eq_ok] at hW
    obtain ⟨_, w1, w2⟩ := hW
    simp only [infer, bind_eq_ok, Res.ok.injEq] at hI
    obtain ⟨el1, i1, rfl⟩ := hI
    simp only [check, bind_eq_ok, Res.ok.injEq] at hK
    obtain ⟨us, k1, rfl⟩ := hK
    simp only [validateTry] at hV
    simp only [coerce, bind_eq_ok, Res.ok.injEq] at hO
    obtain ⟨el2, o1, rfl⟩ := hO
    obtain ⟨c, hc⟩ := hC.written w1
    refine ⟨_, hc.list, .list hc ?_ ?_, fun j t' h => ?_⟩
    · intro e2 he2
      obtain ⟨x1, hx1, h1⟩ := forall₂_mem_right (mapList_eq_ok.mp o1) he2
      obtain ⟨x0, hx0, h2⟩ := forall₂_mem_right (mapList_eq_ok.mp i1) hx1
      obtain ⟨u, _, h3⟩ := forall₂_mem_left (mapList_eq_ok.mp k1) hx1
      have h4 := forList_ok hV _ hx1
      have h5 := forList_ok w2 _ hx0
      cases x1 with
      | multiple e1 =>
        simp [bind_eq_ok] at h1
      | single e1 =>
        cases x0 with
        | multiple e0 => simp [bind_eq_ok] at h2
        | single e0 =>
          simp only [bind_eq_ok, Res.ok.injEq, ListElem.single.injEq] at h1 h2 h3 h4 h5
          obtain ⟨e1', h1, e2', h1', rfl⟩ := h1
          obtain ⟨_, h2, rfl⟩ := h2
          obtain ⟨tu, h3, h3'⟩ := h3
          exact E.to hΓ (hTs e0 hx0) .none ⟨k, h5⟩ h2 h3 h4 h1 h3' hc hc h1'
    · intro e2 he2
      obtain ⟨x1, hx1, h1⟩ := forall₂_mem_right (mapList_eq_ok.mp o1) he2
      obtain ⟨x0, hx0, h2⟩ := forall₂_mem_right (mapList_eq_ok.mp i1) hx1
      obtain ⟨u, _, h3⟩ := forall₂_mem_left (mapList_eq_ok.mp k1) hx1
      have h4 := forList_ok hV _ hx1
      have h5 := forList_ok w2 _ hx0
      cases x1 with
      | single e1 =>
        simp [bind_eq_ok] at h1
      | multiple e1 =>
        cases x0 with
        | single e0 => simp [bind_eq_ok] at h2
        | multiple e0 =>
          simp only [bind_eq_ok, Res.ok.injEq, ListElem.multiple.injEq] at h1 h2 h3 h4 h5
          obtain ⟨e1', h1, e2', h1', rfl⟩ := h1
          obtain ⟨_, h2, rfl⟩ := h2
          obtain ⟨tu, h3, tu', h3', h3''⟩ := h3
          obtain ⟨ce, p1, p2, p3⟩ := E (ρ := Option.none) hΓ (hTm e0 hx0) .none ⟨k, h5⟩ h2 h3 h4 h1
          have hl := expectList_ok h3'
          cases p1.det hl
          exact coerceTo_typed p2 hc.list (Or.inr (.list (expectSub_ok h3'' hl.list_arg hc))) h1'
    · cases j with
      | zero => simp [extract] at h
      | succ j =>
        simp only [extract, Res.ok.injEq] at h
        subst h
        exact hc.list
  | @comprehension _ t0 e b bs hTe hl hTi hTc =>
    simp only [typesExist, bind_eq_ok] at hW
    obtain ⟨_, w1, _, w2, w3⟩ := hW
    simp only [infer, bind_eq_ok] at hI
    obtain ⟨⟨bs1, Γ1⟩, i1, e1', i2, hI⟩ := hI
    cases bs1 with
    | nil => cases hI
    | cons b1 bs1 =>
    cases hI
    simp only [check, bind_eq_ok, Res.ok.injEq] at hK
    obtain ⟨Γ2, k1, tu, k2, _, k3, rfl⟩ := hK
    simp only [validateTry, bind_eq_ok] at hV
    obtain ⟨_, v1, v2⟩ := hV
    simp only [coerce, bind_eq_ok] at hO
    obtain ⟨⟨bs2, Γ3⟩, o1, e2', o2, e3', o3, hO⟩ := hO
    cases bs2 with
    | nil => cases hO
    | cons b2 bs2 =>
    cases hO
    simp only at i2 o2 o3
    obtain ⟨c, hc⟩ := hC.written w1
    have hw : ∀ p ∈ b :: bs, (∀ i ∈ p.iteratees, Written M i.2) ∧ ∀ d, p.condition = some d → Written M d := by
      intro p hp
      have h := forList_ok w3 p hp
      simp only [bind_eq_ok] at h
      obtain ⟨_, h1, h2⟩ := h
      refine ⟨fun i hi => ⟨k, forList_ok h1 i hi⟩, fun d hd => ?_⟩
      rw [hd] at h2
      exact ⟨k, h2⟩
    have hv : ∀ p ∈ b1 :: bs1, (∀ i ∈ p.iteratees, validateTry n C Option.none i.2 = .ok ()) ∧
        ∀ d, p.condition = some d → validateTry n C Option.none d = .ok () := by
      intro p hp
      have h := forList_ok v1 p hp
      simp only [bind_eq_ok] at h
      obtain ⟨_, h1, h2⟩ := h
      refine ⟨fun i hi => forList_ok h1 i hi, fun d hd => ?_⟩
      rw [hd] at h2
      exact h2
    obtain ⟨r1, r2, r3, r4⟩ := E.branches hΓ hl hTi hTc (fun p hp => (hw p hp).1) (fun p hp => (hw p hp).2)
      i1 k1 (fun p hp => (hv p hp).1) (fun p hp => (hv p hp).2) o1
    subst r1
    subst r2
    refine ⟨_, hc.list, .comprehension hc (r4 _ _ (E.to r3 hTe .none ⟨k, w2⟩ i2 k2 v2 o2 k3 hc hc o3)),
      fun j t' h => ?_⟩
    cases j with
    | zero => simp [extract] at h
    | succ j =>
      simp only [extract, Res.ok.injEq] at h
      subst h
      exact hc.list
  | @map _ kt vt elems hTk hTv hTm =>
    simp only [typesExist, bind_eq_ok] at hW
    obtain ⟨_, w1, _, w2, w3⟩ := hW
    simp only [infer, bind_eq_ok, Res.ok.injEq] at hI
    obtain ⟨el1, i1, rfl⟩ := hI
    simp only [check, bind_eq_ok, Res.ok.injEq] at hK
    obtain ⟨us, k1, rfl⟩ := hK
    simp only [validateTry] at hV
    simp only [coerce, bind_eq_ok, Res.ok.injEq] at hO
    obtain ⟨el2, o1, rfl⟩ := hO
    obtain ⟨ck, hck⟩ := hC.written w1
    obtain ⟨cv, hcv⟩ := hC.written w2
    have hsing : ∀ a b, MapElem.single a b ∈ el2 → Typed C Γ ρ a ck ∧ Typed C Γ ρ b cv := by
      intro a2 b2 he2
      obtain ⟨x1, hx1, h1⟩ := forall₂_mem_right (mapList_eq_ok.mp o1) he2
      obtain ⟨x0, hx0, h2⟩ := forall₂_mem_right (mapList_eq_ok.mp i1) hx1
      obtain ⟨u, _, h3⟩ := forall₂_mem_left (mapList_eq_ok.mp k1) hx1
      have h4 := forList_ok hV _ hx1
      have h5 := forList_ok w3 _ hx0
      cases x1 with
      | multiple e1 =>
        simp [bind_eq_ok] at h1
      | single a1 b1 =>
        cases x0 with
        | multiple e0 => simp [bind_eq_ok] at h2
        | single a0 b0 =>
          simp only [bind_eq_ok, Res.ok.injEq, MapElem.single.injEq] at h1 h2 h3 h4 h5
          obtain ⟨a1', g1, a2', g2, b1', g3, b2', g4, rfl, rfl⟩ := h1
          obtain ⟨_, h2, _, h2', rfl, rfl⟩ := h2
          obtain ⟨ta, m1, _, m2, tb, m3, m4⟩ := h3
          obtain ⟨_, h4, h4'⟩ := h4
          obtain ⟨_, h5, h5'⟩ := h5
          exact ⟨E.to hΓ (hTk a0 b0 hx0) hR ⟨k, h5⟩ h2 m1 h4 g1 m2 hck hck g2,
            E.to hΓ (hTv a0 b0 hx0) hR ⟨k, h5'⟩ h2' m3 h4' g3 m4 hcv hcv g4⟩
    refine ⟨_, hck.map hcv, .map hck hcv (fun a b h => (hsing a b h).1) (fun a b h => (hsing a b h).2) ?_,
      fun j t' h => ?_⟩
    · intro e2 he2
      obtain ⟨x1, hx1, h1⟩ := forall₂_mem_right (mapList_eq_ok.mp o1) he2
      obtain ⟨x0, hx0, h2⟩ := forall₂_mem_right (mapList_eq_ok.mp i1) hx1
      obtain ⟨u, _, h3⟩ := forall₂_mem_left (mapList_eq_ok.mp k1) hx1
      have h4 := forList_ok hV _ hx1
      have h5 := forList_ok w3 _ hx0
      cases x1 with
      | single a1 b1 =>
        simp [bind_eq_ok] at h1
      | multiple e1 =>
        cases x0 with
        | single a0 b0 => simp [bind_eq_ok] at h2
        | multiple e0 =>
          simp only [bind_eq_ok, Res.ok.injEq, MapElem.multiple.injEq] at h1 h2 h3 h4 h5
          obtain ⟨e1', h1, e2', h1', rfl⟩ := h1
          obtain ⟨_, h2, rfl⟩ := h2
          obtain ⟨tu, h3, kv, h3', _, h3'', h3'''⟩ := h3
          obtain ⟨ce, p1, p2, p3⟩ := E (ρ := ρ) hΓ (hTm e0 hx0) hR ⟨k, h5⟩ h2 h3 h4 h1
          have hl := expectMap_ok h3'
          cases p1.det hl
          exact coerceTo_typed p2 (hck.map hcv) (Or.inr (.map (expectSub_ok h3'' hl.map_arg.1 hck)
            (expectSub_ok h3''' hl.map_arg.2 hcv))) h1'
    · cases j with
      | zero => simp [extract] at h
      | succ j =>
        simp only [extract, Res.ok.injEq] at h
        subst h
        exact hck.map hcv
  | @addition _ t0 a b hTa hTb =>
    simp only [typesExist, bind_eq_ok] at hW
    obtain ⟨_, w1, w2⟩ := hW
    simp only [infer, bind_eq_ok, Res.ok.injEq] at hI
    obtain ⟨a1, i1, ta, i2, ca, i2', b1, i3, rfl⟩ := hI
    simp only [check, orErr, ok_bind, bind_eq_ok] at hK
    obtain ⟨ta', k1, tb', k2, q, k3, hK⟩ := hK
    simp only [validateTry, bind_eq_ok] at hV
    obtain ⟨_, v1, v2⟩ := hV
    simp only [coerce, bind_eq_ok, Res.ok.injEq] at hO
    obtain ⟨a2, o1, b2, o2, rfl⟩ := hO
    have hca := (Canon.of_ok i2').self
    cases q with
    | true =>
      simp only [if_true, bind_eq_ok, Res.ok.injEq] at hK
      obtain ⟨_, k4, _, k5, rfl⟩ := hK
      have := (equalCheck_ok k3 hca canon_number).mp rfl
      subst this
      refine ⟨_, canon_number, .addNumber
        (E.atom hΓ hTa hR ⟨k, w1⟩ i1 k1 v1 o1 k4 canon_number (by simp [NotUnion]) (by simp))
        (E.atom hΓ hTb hR ⟨k, w2⟩ i3 k2 v2 o2 k5 canon_number (by simp [NotUnion]) (by simp)), fun j t' h => ?_⟩
      cases j with
      | zero => simp [extract] at h
      | succ j =>
        simp only [extract, orErr, Res.ok.injEq] at h
        subst h
        exact canon_number
    | false =>
      simp only [Bool.false_eq_true, if_false, bind_eq_ok] at hK
      obtain ⟨q', k3', hK⟩ := hK
      cases q' with
      | false => simp at hK
      | true =>
      simp only [if_true, bind_eq_ok, Res.ok.injEq] at hK
      obtain ⟨_, k4, _, k5, rfl⟩ := hK
      have := (equalCheck_ok k3' hca canon_string).mp rfl
      subst this
      refine ⟨_, canon_string, .addString
        (E.atom hΓ hTa hR ⟨k, w1⟩ i1 k1 v1 o1 k4 canon_string (by simp [NotUnion]) (by simp))
        (E.atom hΓ hTb hR ⟨k, w2⟩ i3 k2 v2 o2 k5 canon_string (by simp [NotUnion]) (by simp)), fun j t' h => ?_⟩
      cases j with
      | zero => simp [extract] at h
      | succ j =>
        simp only [extract, orErr, Res.ok.injEq] at h
        subst h
        exact canon_string
  | @arithmetic _ op a b hTa hTb =>
    simp only [typesExist, bind_eq_ok] at hW
    obtain ⟨_, w1, w2⟩ := hW
    simp only [infer, bind_eq_ok, Res.ok.injEq] at hI
    obtain ⟨a1, i1, b1, i3, rfl⟩ := hI
    simp only [check, bind_eq_ok, Res.ok.injEq] at hK
    obtain ⟨ta, k1, _, k2, tb, k3, _, k4, rfl⟩ := hK
    simp only [validateTry, bind_eq_ok] at hV
    obtain ⟨_, v1, v2⟩ := hV
    simp only [coerce, bind_eq_ok, Res.ok.injEq] at hO
    obtain ⟨a2, o1, b2, o2, rfl⟩ := hO
    refine ⟨_, canon_number, .arithmetic
      (E.atom hΓ hTa hR ⟨k, w1⟩ i1 k1 v1 o1 k2 canon_number (by simp [NotUnion]) (by simp))
      (E.atom hΓ hTb hR ⟨k, w2⟩ i3 k3 v2 o2 k4 canon_number (by simp [NotUnion]) (by simp)), fun j t' h => ?_⟩
    cases j <;> simp [extract] at h
    subst h; exact canon_number
  | @booleanOp _ op a b hTa hTb =>
    simp only [typesExist, bind_eq_ok] at hW
    obtain ⟨_, w1, w2⟩ := hW
    simp only [infer, bind_eq_ok, Res.ok.injEq] at hI
    obtain ⟨a1, i1, b1, i3, rfl⟩ := hI
    simp only [check, bind_eq_ok, Res.ok.injEq] at hK
    obtain ⟨ta, k1, _, k2, tb, k3, _, k4, rfl⟩ := hK
    simp only [validateTry, bind_eq_ok] at hV
    obtain ⟨_, v1, v2⟩ := hV
    simp only [coerce, bind_eq_ok, Res.ok.injEq] at hO
    obtain ⟨a2, o1, b2, o2, rfl⟩ := hO
    refine ⟨_, canon_boolean, .booleanOp
      (E.atom hΓ hTa hR ⟨k, w1⟩ i1 k1 v1 o1 k2 canon_boolean (by simp [NotUnion]) (by simp))
      (E.atom hΓ hTb hR ⟨k, w2⟩ i3 k3 v2 o2 k4 canon_boolean (by simp [NotUnion]) (by simp)), fun j t' h => ?_⟩
    cases j <;> simp [extract] at h
    subst h; exact canon_boolean
  | @order _ op a b hTa hTb =>
    simp only [typesExist, bind_eq_ok] at hW
    obtain ⟨_, w1, w2⟩ := hW
    simp only [infer, bind_eq_ok, Res.ok.injEq] at hI
    obtain ⟨a1, i1, b1, i3, rfl⟩ := hI
    simp only [check, bind_eq_ok, Res.ok.injEq] at hK
    obtain ⟨ta, k1, _, k2, tb, k3, _, k4, rfl⟩ := hK
    simp only [validateTry, bind_eq_ok] at hV
    obtain ⟨_, v1, v2⟩ := hV
    simp only [coerce, bind_eq_ok, Res.ok.injEq] at hO
    obtain ⟨a2, o1, b2, o2, rfl⟩ := hO
    refine ⟨_, canon_boolean, .order
      (E.atom hΓ hTa hR ⟨k, w1⟩ i1 k1 v1 o1 k2 canon_number (by simp [NotUnion]) (by simp))
      (E.atom hΓ hTb hR ⟨k, w2⟩ i3 k3 v2 o2 k4 canon_number (by simp [NotUnion]) (by simp)), fun j t' h => ?_⟩
    cases j <;> simp [extract] at h
    subst h; exact canon_boolean
  | @not _ a hTa =>
    simp only [typesExist] at hW
    simp only [infer, bind_eq_ok, Res.ok.injEq] at hI
    obtain ⟨a1, i1, rfl⟩ := hI
    simp only [check, bind_eq_ok, Res.ok.injEq] at hK
    obtain ⟨ta, k1, _, k2, rfl⟩ := hK
    simp only [validateTry] at hV
    simp only [coerce, bind_eq_ok, Res.ok.injEq] at hO
    obtain ⟨a2, o1, rfl⟩ := hO
    refine ⟨_, canon_boolean, .not
      (E.atom hΓ hTa hR ⟨k, hW⟩ i1 k1 hV o1 k2 canon_boolean (by simp [NotUnion]) (by simp)), fun j t' h => ?_⟩
    cases j <;> simp [extract] at h
    subst h; exact canon_boolean
  | @equality _ t0 op a b hTa hTb =>
    simp only [typesExist, bind_eq_ok] at hW
    obtain ⟨_, w1, w2⟩ := hW
    simp only [infer, bind_eq_ok, Res.ok.injEq] at hI
    obtain ⟨a1, i1, b1, i3, ta, i4, tb, i5, rfl⟩ := hI
    simp only [check, orErr, ok_bind, bind_eq_ok] at hK
    obtain ⟨ta', k1, _, k2, tb', k3, _, k4, ta'', k5, tb'', k6, q, k7, hK⟩ := hK
    simp only [validateTry, bind_eq_ok] at hV
    obtain ⟨_, v1, v2⟩ := hV
    simp only [coerce, orErr, ok_bind, bind_eq_ok, Res.ok.injEq] at hO
    obtain ⟨a2, o1, a3, o1', b2, o2, b3, o2', rfl⟩ := hO
    obtain ⟨ca, p1, p2, p3⟩ := E hΓ hTa hR ⟨k, w1⟩ i1 k1 v1 o1
    obtain ⟨cb, q1, q2, q3⟩ := E hΓ hTb hR ⟨k, w2⟩ i3 k3 v2 o2
    obtain ⟨d, d1, d2, d3, _, _⟩ := (p3 _ _ i4).union (q3 _ _ i5)
    have ht : t = .boolean := by
      split at hK
      · cases hK; rfl
      · obtain ⟨q', _, hK⟩ := bind_eq_ok.mp hK
        split at hK
        · cases hK; rfl
        · cases hK
    subst ht
    refine ⟨_, canon_boolean, .equality d1 (coerceTo_typed p2 d1 (Or.inl d2) o1')
      (coerceTo_typed q2 d1 (Or.inl d3) o2'), fun j t' h => ?_⟩
    cases j <;> simp [extract] at h
    subst h; exact canon_boolean
  | @try_ t0 a hTa =>
    simp only [typesExist] at hW
    simp only [infer, bind_eq_ok] at hI
    obtain ⟨a1, i1, ta, i2, od, i3, d, i4, hI⟩ := hI
    split at hI
    · cases hI
    rename_i hd
    cases hI
    have i5 := orErr_ok i4
    subst i5
    simp only [check, orErr, ok_bind, bind_eq_ok, Res.ok.injEq] at hK
    obtain ⟨ta', k1, _, k2, _, k3, _, k4, rfl⟩ := hK
    cases res with
    | none => simp [validateTry] at hV
    | some rt =>
    simp only [validateTry, bind_eq_ok] at hV
    obtain ⟨q, v1, hV⟩ := hV
    cases q with
    | false => simp at hV
    | true =>
    simp only [if_true, ok_bind] at hV
    simp only [coerce, bind_eq_ok, Res.ok.injEq] at hO
    obtain ⟨a2, o1, rfl⟩ := hO
    obtain ⟨cr, rfl, hcr, hne⟩ := hR rfl rt rfl
    obtain ⟨ca, p1, p2, p3⟩ := E hΓ hTa hR ⟨k, hW⟩ i1 k1 hV o1
    have hsub := (subsumeCheck_ok v1 canon_error hcr).mp rfl
    have hvr : IsVariant cr := by
      rcases isVariant_or cr with h | ⟨h1, h2⟩
      · exact h
      · exact absurd (hsub.eq_atom canon_error hcr h1 h2).symm hne
    obtain ⟨_, hdiff⟩ := typeDifference_ok i3 (p3 _ _ i2) canon_error
    obtain ⟨_, h | ⟨hca, cf, hcf, hfa, hm⟩⟩ := hdiff d rfl
    · exact absurd h.2 hd
    have herr : Ty.error ∈ unionMembers ca := by
      rcases expectSub_ok k2 canon_error p1 with h | h
      · exact absurd h hca
      · exact h _ (by simp [unionMembers])
    have hva : IsVariant ca := by
      rcases isVariant_or ca with h | ⟨h1, h2⟩
      · exact h
      · exfalso
        obtain ⟨y, hy⟩ := List.exists_mem_of_ne_nil _ (members_ne_nil cf)
        have := (hm y).mp hy
        rw [unionMembers_of_notUnion h1] at herr this
        simp only [List.mem_singleton] at herr this
        rw [← herr] at this
        exact this.2 (by simp [unionMembers, this.1])
    refine ⟨cf, hcf, .try_ p2 hva hca hcf hfa ?_ hvr hsub, fun j t' h => ?_⟩
    · intro y hy
      by_cases hye : y = .error
      · exact Or.inl hye
      · exact Or.inr ((hm y).mpr ⟨hy, by simp [unionMembers, hye]⟩)
    · cases j with
      | zero => simp [extract] at h
      | succ j =>
        simp only [extract, orErr, Res.ok.injEq] at h
        subst h
        exact hcf
  | @record _ t0 fields hTf =>
    simp only [typesExist, bind_eq_ok] at hW
    obtain ⟨_, w1, w2⟩ := hW
    simp only [infer, bind_eq_ok, Res.ok.injEq] at hI
    obtain ⟨f1, i1, rfl⟩ := hI
    simp only [check, bind_eq_ok] at hK
    obtain ⟨fs, k1, us, k2, hK⟩ := hK
    split at hK
    swap
    · cases hK
    rename_i hall
    cases hK
    simp only [validateTry] at hV
    simp only [coerce, bind_eq_ok, Res.ok.injEq] at hO
    obtain ⟨fs', o1, f2, o2, rfl⟩ := hO
    rw [k1] at o1
    cases o1
    obtain ⟨r, hr1, hr2⟩ := resolveFields_ok k1
    obtain ⟨g1, F, g2, g3⟩ := E.fields hC hΓ hR hr2 hTf (fun f hf => ⟨k, forList_ok w2 f hf⟩)
      (mapList_eq_ok.mp i1) (mapList_eq_ok.mp k2) (forList_ok hV) (mapList_eq_ok.mp o2)
    refine ⟨_, hr1, .record hr1 hr2 ?_ g2 g3, fun j t' h => ?_⟩
    · intro f hf
      have := List.all_eq_true.mp hall f hf
      exact g1 _ (by simpa using this)
    · cases j with
      | zero => simp [extract] at h
      | succ j =>
        simp only [extract, Res.ok.injEq] at h
        subst h
        exact hr1
  | @deconstruct _ t0 e x hTe =>
    simp only [typesExist] at hW
    simp only [infer, bind_eq_ok, Res.ok.injEq] at hI
    obtain ⟨a1, i1, ta, i2, rfl⟩ := hI
    simp only [check, orErr, ok_bind, bind_eq_ok] at hK
    obtain ⟨tu, k1, _, k2, fs, k3, k4⟩ := hK
    simp only [validateTry] at hV
    simp only [coerce, bind_eq_ok, Res.ok.injEq] at hO
    obtain ⟨a2, o1, rfl⟩ := hO
    obtain ⟨ca, p1, p2, p3⟩ := E hΓ hTe hR ⟨k, hW⟩ i1 k1 hV o1
    obtain ⟨r, hr1, hr2⟩ := resolveFields_ok k3
    cases (p3 _ _ i2).det hr1
    obtain ⟨f, hf, _, h9⟩ := fieldType_mem k4
    obtain ⟨c, hc⟩ := hC.records hr2 f hf
    rw [h9] at hc
    refine ⟨c, hc, .deconstruct hr1 p2 ⟨fs, t, hr2, k4, hc⟩, fun j t' h => ?_⟩
    cases j with
    | zero => simp [extract] at h
    | succ j =>
      simp only [extract, orErr, ok_bind, bind_eq_ok] at h
      obtain ⟨fs', h1, h2⟩ := h
      obtain ⟨r', hr1', hr2'⟩ := resolveFields_ok h1
      cases hr1'.det hr1
      rw [hr2] at hr2'
      cases hr2'
      rw [k4] at h2
      cases h2
      exact hc
  | @update _ t0 e fields hTe hTf =>
    simp only [typesExist, bind_eq_ok] at hW
    obtain ⟨_, w1, _, w2, w3⟩ := hW
    simp only [infer, bind_eq_ok, Res.ok.injEq] at hI
    obtain ⟨e1', i1, f1, i2, rfl⟩ := hI
    simp only [check, bind_eq_ok, Res.ok.injEq] at hK
    obtain ⟨tu, k1, _, k2, fs, k3, us, k4, rfl⟩ := hK
    simp only [validateTry, bind_eq_ok] at hV
    obtain ⟨_, v1, v2⟩ := hV
    simp only [coerce, bind_eq_ok, Res.ok.injEq] at hO
    obtain ⟨e2', o1, fs', o2, f2, o3, rfl⟩ := hO
    rw [k3] at o2
    cases o2
    obtain ⟨r, hr1, hr2⟩ := resolveFields_ok k3
    obtain ⟨ca, p1, p2, p3⟩ := E hΓ hTe hR ⟨k, w2⟩ i1 k1 v1 o1
    have := (expectSub_ok k2 p1 hr1).eq_atom p1 hr1 (by simp [NotUnion]) (by simp)
    subst this
    obtain ⟨g1, F, g2, g3⟩ := E.fields hC hΓ hR hr2 hTf (fun f hf => ⟨k, forList_ok w3 f hf⟩)
      (mapList_eq_ok.mp i2) (mapList_eq_ok.mp k4) (forList_ok v2) (mapList_eq_ok.mp o3)
    refine ⟨_, hr1, .update hr1 p2 g2 g3, fun j t' h => ?_⟩
    cases j with
    | zero => simp [extract] at h
    | succ j =>
      simp only [extract, Res.ok.injEq] at h
      subst h
      exact hr1
  | @ifType _ x e bs hTe hTb =>
    simp only [typesExist, bind_eq_ok] at hW
    obtain ⟨_, w1, _, w2, _⟩ := hW
    simp only [infer, ok_bind, bind_eq_ok, Res.ok.injEq] at hI
    obtain ⟨e1', i1, bs1, i2, rfl⟩ := hI
    obtain ⟨te, ce, k1, k2, k3, k4, _, k5, k6⟩ := check_ifType hK
    obtain ⟨u, k7, k8⟩ := k5 rfl
    simp only [validateTry, bind_eq_ok] at hV
    obtain ⟨_, v1, _, v2, _⟩ := hV
    simp only [coerce, ok_bind, bind_eq_ok, Res.ok.injEq] at hO
    obtain ⟨t2, o0, e2', o1, bs2, o2, rfl⟩ := hO
    rw [k6] at o0
    cases o0
    obtain ⟨ce', p1, p2, p3⟩ := E hΓ hTe hR ⟨k, w1⟩ i1 k1 v1 o1
    cases k2.det p1
    have hbr : ∀ p ∈ bs1, ∃ c, BranchOk n C Γ ρ x p.1 p.2 c := by
      intro p1 hp1
      obtain ⟨p0, hp0, g1⟩ := forall₂_mem_right (mapList_eq_ok.mp i2) hp1
      obtain ⟨e', g2, g3⟩ := bind_eq_ok.mp g1
      cases g3
      obtain ⟨tb, cb, g4, g5, g6⟩ := k4 _ hp1
      have g7 := forList_ok w2 _ hp0
      obtain ⟨_, _, g8⟩ := bind_eq_ok.mp g7
      obtain ⟨p2, _, g9⟩ := forall₂_mem_left (mapList_eq_ok.mp o2) hp1
      obtain ⟨e2', g9, _⟩ := bind_eq_ok.mp g9
      exact E.branch hΓ g5 (hTb _ hp0) hR ⟨k, g8⟩ g2 g4 (forList_ok v2 _ hp1) g9
    obtain ⟨cs, hcs⟩ := forall₂_of_exists hbr
    obtain ⟨m, rfl⟩ : ∃ m, n = m + 1 := by
      cases n with
      | zero => simp [infer] at i1
      | succ m => exact ⟨m, rfl⟩
    have hext : ∀ {j : Nat} {t' : Ty}, extract (j + 1) C Γ (.ifType x e1' bs1 Option.none) = .ok t' →
        ∃ ts, createUnion ts = some t' ∧ List.Forall₂ (Canon C.types) ts cs := by
      intro j t' h
      simp only [extract, ok_bind, bind_eq_ok] at h
      obtain ⟨ts, g1, g4⟩ := h
      simp only [List.append_nil] at g4
      refine ⟨ts, orErr_ok g4, ?_⟩
      exact (forall₂_comp (mapList_eq_ok.mp g1) hcs).imp fun a c h => by
        obtain ⟨p, _, h1, h2⟩ := h
        exact h2.2.2 _ _ h1
    obtain ⟨ts, h1, h2⟩ := hext k6
    obtain ⟨d, d1, d2, d3, d4⟩ := canon_createUnion h1 h2
    obtain ⟨cu, hcu⟩ := forall₂_of_exists (as := bs1.map (·.1)) (P := Canon C.types) (by
      intro a ha
      obtain ⟨p, hp, rfl⟩ := List.mem_map.mp ha
      obtain ⟨tb, cb, _, g5, _⟩ := k4 _ hp
      exact ⟨cb, g5⟩)
    obtain ⟨ju, u1, u2, u3, u4⟩ := canon_createUnion k7 hcu
    have hju := (equalCheck_ok k8 k2.self u1).mp rfl
    subst hju
    have hcany : ce ≠ .any := by
      intro h
      obtain ⟨a, ha, g⟩ := forall₂_mem_right hcu (u3 h)
      obtain ⟨p, hp, rfl⟩ := List.mem_map.mp ha
      obtain ⟨tb, cb, _, g5, g6⟩ := k4 _ hp
      exact g6 (g5.det g)
    have hback : ∀ p2 ∈ bs2, ∃ p1 ∈ bs1, p1.1 = p2.1 ∧ Typed C (Γ.insert x p2.1) ρ p2.2 d := by
      intro p2 hp2
      obtain ⟨p1, hp1, g1⟩ := forall₂_mem_right (mapList_eq_ok.mp o2) hp2
      obtain ⟨e2', g2, g3⟩ := bind_eq_ok.mp g1
      obtain ⟨e3', g4, g5⟩ := bind_eq_ok.mp g3
      cases g5
      obtain ⟨c, hc, hb⟩ := forall₂_mem_left hcs hp1
      exact ⟨p1, hp1, rfl, coerceTo_typed (hb.1 _ g2) d1 (Or.inl (d2 c hc)) g4⟩
    have hfwd : ∀ p1 ∈ bs1, ∃ p2 ∈ bs2, p2.1 = p1.1 := by
      intro p1 hp1
      obtain ⟨p2, hp2, g1⟩ := forall₂_mem_left (mapList_eq_ok.mp o2) hp1
      obtain ⟨e2', g2, g3⟩ := bind_eq_ok.mp g1
      obtain ⟨e3', g4, g5⟩ := bind_eq_ok.mp g3
      cases g5
      exact ⟨_, hp2, rfl⟩
    refine ⟨d, d1, .ifType p2 k3 hcany ?_ (fun p hp => (hback p hp).choose_spec.2.2) ?_, fun j t' h => ?_⟩
    · intro p hp
      obtain ⟨p1, hp1, g1, _⟩ := hback p hp
      obtain ⟨tb, cb, _, g5, g6⟩ := k4 _ hp1
      exact ⟨cb, g1 ▸ g5, g6⟩
    · intro y hy
      obtain ⟨c, hc, hy'⟩ := (u4 hcany y).mp hy
      obtain ⟨a, ha, g⟩ := forall₂_mem_right hcu hc
      obtain ⟨p, hp, rfl⟩ := List.mem_map.mp ha
      obtain ⟨p2, hp2, g2⟩ := hfwd p hp
      exact ⟨p2, hp2, c, g2 ▸ g, hy'⟩
    · cases j with
      | zero => simp [extract] at h
      | succ j =>
        obtain ⟨ts', g1, g2⟩ := hext h
        exact createUnion_det h1 g1 h2 g2 d1
  | @ifTypeElse _ x e bs t0 b hTe hTb hTb' =>
    simp only [typesExist, bind_eq_ok] at hW
    obtain ⟨_, w1, _, w2, w3⟩ := hW
    simp only [infer, bind_eq_ok, Res.ok.injEq] at hI
    obtain ⟨e1', i1, bs1, i2, tx, i3, u, i4, od, i5, d0, i6, b1, i7, _, rfl, rfl⟩ := hI
    obtain ⟨te, ce, k1, k2, k3, k4, k5, _, k6⟩ := check_ifType hK
    obtain ⟨u', tb', k7, k8⟩ := k5 _ _ rfl
    cases k7
    simp only [validateTry, bind_eq_ok] at hV
    obtain ⟨_, v1, _, v2, v3⟩ := hV
    have hor : ∀ t : Ty, orErr (some t) Err.typeNotInferred = .ok t := fun _ => rfl
    simp only [coerce, hor, ok_bind, bind_eq_ok, Res.ok.injEq] at hO
    obtain ⟨t2, o0, e2', o1, bs2, o2, b2, o3, b3, o4, rfl⟩ := hO
    rw [k6] at o0
    cases o0
    obtain ⟨ce', p1, p2, p3⟩ := E hΓ hTe hR ⟨k, w1⟩ i1 k1 v1 o1
    cases k2.det p1
    have hbr : ∀ p ∈ bs1, ∃ c, BranchOk n C Γ ρ x p.1 p.2 c := by
      intro p1 hp1
      obtain ⟨p0, hp0, g1⟩ := forall₂_mem_right (mapList_eq_ok.mp i2) hp1
      obtain ⟨e', g2, g3⟩ := bind_eq_ok.mp g1
      cases g3
      obtain ⟨tb, cb, g4, g5, g6⟩ := k4 _ hp1
      have g7 := forList_ok w2 _ hp0
      obtain ⟨_, _, g8⟩ := bind_eq_ok.mp g7
      obtain ⟨p2, _, g9⟩ := forall₂_mem_left (mapList_eq_ok.mp o2) hp1
      obtain ⟨e2', g9, _⟩ := bind_eq_ok.mp g9
      exact E.branch hΓ g5 (hTb _ hp0) hR ⟨k, g8⟩ g2 g4 (forList_ok v2 _ hp1) g9
    have hnames : bs1.map (·.1) = bs.map (·.1) := by
      have := mapList_eq_ok.mp i2
      clear i2 hbr o2 w2 v2 i4 i5 hTb k4 hK k6 k5
      induction this with
      | nil => rfl
      | cons h _ ih =>
        obtain ⟨e', g2, g3⟩ := bind_eq_ok.mp h
        cases g3
        simp [ih]
    have i4' := orErr_ok i4
    rw [← hnames] at i4'
    obtain ⟨cu, hcu⟩ := forall₂_of_exists (as := bs1.map (·.1)) (P := Canon C.types) (by
      intro a ha
      obtain ⟨p, hp, rfl⟩ := List.mem_map.mp ha
      obtain ⟨tb, cb, _, g5, _⟩ := k4 _ hp
      exact ⟨cb, g5⟩)
    obtain ⟨ju, u1, u2, u3, u4⟩ := canon_createUnion i4' hcu
    have i6' := orErr_ok i6
    subst i6'
    obtain ⟨hjany, hdiff⟩ := (typeDifference_ok i5 (p3 _ _ i3) u1).2 d0 rfl
    obtain ⟨cd, hcd, hcov⟩ : ∃ cd, Canon C.types d0 cd ∧ (cd ≠ .any → ce ≠ .any ∧ ∀ y ∈ unionMembers ce,
        y ∈ unionMembers cd ∨ y ∈ unionMembers ju) := by
      rcases hdiff with ⟨_, rfl⟩ | ⟨h1, cf, h2, _, h3⟩
      · exact ⟨.any, canon_any, by simp⟩
      · refine ⟨cf, h2, fun _ => ⟨h1, fun y hy => ?_⟩⟩
        by_cases hyj : y ∈ unionMembers ju
        · exact Or.inr hyj
        · exact Or.inl ((h3 y).mpr ⟨hy, hyj⟩)
    obtain ⟨cb, hcb⟩ := E.branch hΓ hcd hTb' hR ⟨k, w3⟩ i7 k8 v3 o3
    obtain ⟨cs, hcs⟩ := forall₂_of_exists hbr
    obtain ⟨m, rfl⟩ : ∃ m, n = m + 1 := by
      cases n with
      | zero => simp [infer] at i1
      | succ m => exact ⟨m, rfl⟩
    have hext : ∀ {j : Nat} {t' : Ty}, extract (j + 1) C Γ (.ifType x e1' bs1 (some (some d0, b1))) = .ok t' →
        ∃ ts, createUnion ts = some t' ∧ List.Forall₂ (Canon C.types) ts (cs ++ [cb]) := by
      intro j t' h
      simp only [extract, hor, ok_bind, bind_eq_ok] at h
      obtain ⟨ts, g1, u, g2, g4⟩ := h
      refine ⟨ts ++ [u], orErr_ok g4, ?_⟩
      refine List.rel_append ?_ (.cons (hcb.2.2 _ _ g2) .nil)
      exact (forall₂_comp (mapList_eq_ok.mp g1) hcs).imp fun a c h => by
        obtain ⟨p, _, h1, h2⟩ := h
        exact h2.2.2 _ _ h1
    obtain ⟨ts, h1, h2⟩ := hext k6
    obtain ⟨d, d1, d2, d3, d4⟩ := canon_createUnion h1 h2
    have hback : ∀ p2 ∈ bs2, ∃ p1 ∈ bs1, p1.1 = p2.1 ∧ Typed C (Γ.insert x p2.1) ρ p2.2 d := by
      intro p2 hp2
      obtain ⟨p1, hp1, g1⟩ := forall₂_mem_right (mapList_eq_ok.mp o2) hp2
      obtain ⟨e2', g2, g3⟩ := bind_eq_ok.mp g1
      obtain ⟨e3', g4, g5⟩ := bind_eq_ok.mp g3
      cases g5
      obtain ⟨c, hc, hb⟩ := forall₂_mem_left hcs hp1
      exact ⟨p1, hp1, rfl, coerceTo_typed (hb.1 _ g2) d1 (Or.inl (d2 c (by simp [hc]))) g4⟩
    have hfwd : ∀ p1 ∈ bs1, ∃ p2 ∈ bs2, p2.1 = p1.1 := by
      intro p1 hp1
      obtain ⟨p2, hp2, g1⟩ := forall₂_mem_left (mapList_eq_ok.mp o2) hp1
      obtain ⟨e2', g2, g3⟩ := bind_eq_ok.mp g1
      obtain ⟨e3', g4, g5⟩ := bind_eq_ok.mp g3
      cases g5
      exact ⟨_, hp2, rfl⟩
    refine ⟨d, d1, .ifTypeElse p2 k3 ?_ (fun p hp => (hback p hp).choose_spec.2.2) hcd ?_
      (coerceTo_typed (hcb.1 _ o3) d1 (Or.inl (d2 cb (by simp))) o4), fun j t' h => ?_⟩
    · intro p hp
      obtain ⟨p1, hp1, g1, _⟩ := hback p hp
      obtain ⟨tb, cb, _, g5, g6⟩ := k4 _ hp1
      exact ⟨cb, g1 ▸ g5, g6⟩
    · intro hne
      obtain ⟨c1, c2⟩ := hcov hne
      refine ⟨c1, fun y hy => ?_⟩
      rcases c2 y hy with h | h
      · exact Or.inl h
      · right
        obtain ⟨c, hc, hy'⟩ := (u4 hjany y).mp h
        obtain ⟨a, ha, g⟩ := forall₂_mem_right hcu hc
        obtain ⟨p, hp, rfl⟩ := List.mem_map.mp ha
        obtain ⟨p2, hp2, g2⟩ := hfwd p hp
        exact ⟨p2, hp2, c, g2 ▸ g, hy'⟩
    · cases j with
      | zero => simp [extract] at h
      | succ j =>
        obtain ⟨ts', g1, g2⟩ := hext h
        exact createUnion_det h1 g1 h2 g2 d1

/-- Accepted expressions are typed after coercion. -/
theorem elab_all (hC : CtxOk M C) : ∀ n, Elab M C n
  | 0 => elab_zero
  | n + 1 => elab_succ hC (elab_all hC n)

end Verif.Hir
