import Verif.Mir.RcLinear

/- Programs that handle references correctly pass the validation. -/
namespace Verif.Mir

mutual
/-- Variables are local ones in `D` or global ones `G`, and no local variable has the name of a global one. -/
def inScope (G : Name → Prop) (D : List Name) : Expr → Prop
  | .literal _ => True
  | .variable x => x ∈ D ∨ G x
  | .op _ es => inScopeExprs G D es
  | .case e as => inScope G D e ∧ inScopeAlts G D as
  | .if_ c t e => inScope G D c ∧ inScope G D t ∧ inScope G D e
  | .let_ x e b => ¬ G x ∧ inScope G D e ∧ inScope G (x :: D) b
  | .letRec f env args _ body b =>
    (∀ x ∈ f :: env ++ args, ¬ G x) ∧ inScope G (f :: env ++ args) body ∧ inScope G (f :: D) b
  | .try_ e x _ b => ¬ G x ∧ inScope G D e ∧ inScope G (x :: D) b
  | .clone _ e => inScope G D e
  | .drop _ e => inScope G D e
def inScopeExprs (G : Name → Prop) (D : List Name) : Exprs → Prop
  | .nil => True
  | .cons e es => inScope G D e ∧ inScopeExprs G D es
def inScopeAlts (G : Name → Prop) (D : List Name) : Alts → Prop
  | .nil => True
  | .cons _ x e as => (¬ G x ∧ inScope G (x :: D) e) ∧ inScopeAlts G D as
end

theorem inScope_drop {G : Name → Prop} {D D' xs : List Name} {e : Expr} (h : inScope G D e) :
    inScope G D (dropVariables D' xs e) := by
  unfold dropVariables; split <;> exact h

theorem inScope_clone {G : Name → Prop} {D D' xs : List Name} {e : Expr} (h : inScope G D e) :
    inScope G D (cloneVariables D' xs e) := by
  unfold cloneVariables; split <;> exact h

theorem inScope_finishAlts {G : Name → Prop} {D D' all : List Name} : ∀ {rs : List AltResult},
    (∀ r ∈ rs, ¬ G r.name ∧ inScope G (r.name :: D) r.body) → inScopeAlts G D (finishAlts D' all rs)
  | [], _ => trivial
  | r :: rs, h => ⟨⟨(h r (by simp)).1, inScope_drop (h r (by simp)).2⟩,
      inScope_finishAlts fun s hs => h s (by simp [hs])⟩

mutual
theorem inScope_rc {G : Name → Prop} : ∀ (e : Expr) (D D' M : List Name), inScope G D e → inScope G D (rc D' e M).1
  | .literal l, _, _, _, _ => trivial
  | .variable x, D, D', M, h => by
    simp only [rc]; split
    · exact (inScope_clone h : inScope G D (cloneVariables D' [x] (.variable x)))
    · exact h
  | .op o es, D, D', M, h => by
    simp only [rc]; split
    · exact inScope_rcForward es D D' M h
    · exact inScope_rcBackward es D D' M h
  | .case e as, D, D', M, h => ⟨inScope_rc e D D' _ h.1, inScope_finishAlts (inScope_rcAlts as D D' M h.2)⟩
  | .if_ c t e, D, D', M, h =>
    ⟨inScope_rc c D D' _ h.1, inScope_drop (inScope_rc t D D' _ h.2.1), inScope_drop (inScope_rc e D D' _ h.2.2)⟩
  | .let_ x e b, D, D', M, h => by
    refine ⟨h.1, inScope_rc e D D' _ h.2.1, ?_⟩
    have := inScope_rc b (x :: D) (own x D') (M.filter (· ≠ x)) h.2.2
    split
    · exact this
    · exact inScope_drop this
  | .letRec f env args th body b, D, D', M, h => by
    refine inScope_clone ⟨h.1, inScope_drop (inScope_rc body _ _ _ h.2.1), ?_⟩
    have := inScope_rc b (f :: D) (own f D') (M.filter (· ≠ f)) h.2.2
    split
    · exact this
    · exact inScope_drop this
  | .try_ e x t b, D, D', M, h =>
    inScope_drop ⟨h.1, inScope_rc e D D' _ h.2.1, inScope_drop (inScope_rc b (x :: D) D' _ h.2.2)⟩
  | .clone xs e, _, _, _, h => h
  | .drop xs e, _, _, _, h => h
theorem inScope_rcBackward {G : Name → Prop} : ∀ (es : Exprs) (D D' M : List Name), inScopeExprs G D es →
    inScopeExprs G D (rcBackward D' es M).1
  | .nil, _, _, _, _ => trivial
  | .cons e es, D, D', M, h => ⟨inScope_rc e D D' _ h.1, inScope_rcBackward es D D' M h.2⟩
theorem inScope_rcForward {G : Name → Prop} : ∀ (es : Exprs) (D D' M : List Name), inScopeExprs G D es →
    inScopeExprs G D (rcForward D' es M).1
  | .nil, _, _, _, _ => trivial
  | .cons e es, D, D', M, h => ⟨inScope_rc e D D' _ h.1, inScope_rcForward es D D' _ h.2⟩
theorem inScope_rcAlts {G : Name → Prop} : ∀ (as : Alts) (D D' M : List Name), inScopeAlts G D as →
    ∀ r ∈ rcAlts D' as M, ¬ G r.name ∧ inScope G (r.name :: D) r.body
  | .nil, _, _, _, _, r, hr => by cases hr
  | .cons ts x e as, D, D', M, h, r, hr => by
    simp only [rcAlts] at hr
    rw [List.mem_cons] at hr
    rcases hr with rfl | hr
    · exact ⟨h.1.1, inScope_rc e _ _ _ h.1.2⟩
    · exact inScope_rcAlts as D D' M h.2 r hr
end

/-! ### VCounts -/

/-- VCounts are those of tokens; those of variables that are not in scope anymore are zero. -/
structure VCounts (G : Name → Prop) (D : List Name) (O : Tokens) (V : VMap) : Prop where
  local_ : ∀ x ∈ D, V.get x = some (O.count x : Int)
  other : ∀ x, x ∉ D → V.get x = none ∨ V.get x = some 0
  notGlobal : ∀ x, G x → V.get x = none

theorem VMap.get_set (V : VMap) (x y : Name) (n : Int) : (V.set x n).get y = if y = x then some n else V.get y := by
  unfold VMap.set VMap.get
  rw [List.find?_cons]
  by_cases h : y = x
  · subst h; simp
  · have : (x == y) = false := by simp; exact fun h' => h h'.symm
    simp [this, h]

theorem VMap.get_add (V : VMap) (n : Int) (x y : Name) :
    (V.add n x).get y = if y = x then (V.get x).map (· + n) else V.get y := by
  unfold VMap.add
  cases hx : V.get x with
  | none =>
    by_cases h : y = x
    · subst h; simp [hx]
    · simp [h]
  | some c =>
    by_cases h : y = x
    · subst h; simp [VMap.get_set]
    · simp [VMap.get_set, h]

theorem VMap.get_addAll (n : Int) (y : Name) : ∀ (xs : List Name) (V : VMap),
    (V.addAll n xs).get y = (V.get y).map (· + n * (xs.count y : Nat))
  | [], V => by simp [VMap.addAll]
  | x :: xs, V => by
    have ih := VMap.get_addAll n y xs (V.add n x)
    unfold VMap.addAll at ih ⊢
    rw [List.foldl_cons, ih, VMap.get_add]
    by_cases h : y = x
    · subst h
      cases V.get y with
      | none => simp
      | some c => simp [Int.mul_add]; omega
    · have : (x == y) = false := by simp; exact fun h' => h h'.symm
      simp [h, List.count_cons, this]

theorem VCounts.sub {G : Name → Prop} {D : List Name} {O O1 : Tokens} {V : VMap} (h : VCounts G D O V) (xs : List Name)
    (hO : O = (xs : Tokens) + O1) (hx : ∀ x ∈ xs, x ∈ D) : VCounts G D O1 (V.addAll (-1) xs) := by
  refine ⟨fun x hxD => ?_, fun x hxD => ?_, fun x hG => ?_⟩
  · rw [VMap.get_addAll, h.local_ x hxD, hO, Multiset.count_add, Multiset.coe_count]
    simp
    omega
  · have : xs.count x = 0 := List.count_eq_zero.mpr fun h => hxD (hx x h)
    rw [VMap.get_addAll, this]
    simpa using h.other x hxD
  · rw [VMap.get_addAll, h.notGlobal x hG]; rfl

theorem VCounts.plus {G : Name → Prop} {D : List Name} {O : Tokens} {V : VMap} (h : VCounts G D O V) (xs : List Name)
    (hx : ∀ x ∈ xs, x ∈ D) : VCounts G D ((xs : Tokens) + O) (V.addAll 1 xs) := by
  refine ⟨fun x hxD => ?_, fun x hxD => ?_, fun x hG => ?_⟩
  · rw [VMap.get_addAll, h.local_ x hxD, Multiset.count_add, Multiset.coe_count]
    simp
    omega
  · have : xs.count x = 0 := List.count_eq_zero.mpr fun h => hxD (hx x h)
    rw [VMap.get_addAll, this]
    simpa using h.other x hxD
  · rw [VMap.get_addAll, h.notGlobal x hG]; rfl

theorem VCounts.valid {G : Name → Prop} {D : List Name} {O : Tokens} {V : VMap} (h : VCounts G D O V) (x : Name) :
    V.valid x = if x ∈ D then (O.count x : Int) else 0 := by
  unfold VMap.valid
  split
  · rw [h.local_ x ‹_›]; rfl
  · rcases h.other x ‹_› with h | h <;> rw [h] <;> rfl

theorem VCounts.agree {G : Name → Prop} {D : List Name} {O : Tokens} {V W : VMap} (hV : VCounts G D O V)
    (hW : VCounts G D O W) : V.agree W = true := by
  unfold VMap.agree
  rw [List.all_eq_true]
  intro x _
  rw [hV.valid, hW.valid]
  simp

theorem VCounts.allZero {G : Name → Prop} {D : List Name} {V : VMap} (h : VCounts G D 0 V) : V.allZero = true := by
  unfold VMap.allZero
  rw [List.all_eq_true]
  intro x _
  rw [h.valid]
  simp

theorem VCounts.bind {G : Name → Prop} {D : List Name} {O : Tokens} {V : VMap} (h : VCounts G D O V) {x : Name}
    (hx : x ∉ D) (hO : x ∉ O) (hG : ¬ G x) : VCounts G (x :: D) (x ::ₘ O) (V.set x 1) := by
  refine ⟨fun y hy => ?_, fun y hy => ?_, fun y hy => ?_⟩
  · rw [VMap.get_set]
    by_cases hyx : y = x
    · subst hyx; simp [Multiset.count_eq_zero.mpr hO]
    · rw [if_neg hyx, Multiset.count_cons_of_ne hyx]
      exact h.local_ y (by simpa [hyx] using hy)
  · rw [VMap.get_set, if_neg (fun h => hy (by simp [h]))]
    exact h.other y fun h => hy (by simp [h])
  · rw [VMap.get_set, if_neg (fun h : y = x => hG (h ▸ hy))]
    exact h.notGlobal y hy

theorem VCounts.leave {G : Name → Prop} {D : List Name} {O : Tokens} {V : VMap} {x : Name} {old : Option Int}
    (h : VCounts G (x :: D) O V) (hx : x ∉ D) (hO : x ∉ O) (hold : old = none ∨ old = some 0) :
    ∃ W, VMap.leave old x V = some W ∧ VCounts G D O W := by
  have h0 : V.get x = some 0 := by rw [h.local_ x (by simp), Multiset.count_eq_zero.mpr hO]; rfl
  have hc : VCounts G D O V := ⟨fun y hy => h.local_ y (by simp [hy]), fun y hy => by
    by_cases hyx : y = x
    · exact Or.inr (hyx ▸ h0)
    · exact h.other y (by simp [hyx, hy]), h.notGlobal⟩
  unfold VMap.leave
  rw [if_pos h0]
  rcases hold with rfl | rfl
  · exact ⟨V, rfl, hc⟩
  · refine ⟨V.set x 0, rfl, ⟨fun y hy => ?_, fun y hy => ?_, fun y hy => ?_⟩⟩
    · rw [VMap.get_set, if_neg (fun h : y = x => hx (h ▸ hy))]; exact hc.local_ y hy
    · rw [VMap.get_set]; split
      · exact Or.inr rfl
      · exact hc.other y hy
    · rw [VMap.get_set, if_neg]
      · exact hc.notGlobal y hy
      · rintro rfl
        rw [hc.notGlobal y hy] at h0; cases h0

theorem VCounts.init {G : Name → Prop} {D : List Name} (hD : D.Nodup) (hG : ∀ x ∈ D, ¬ G x) :
    VCounts G D (D : Tokens) (D.map fun x => (x, (1 : Int))) := by
  have key : ∀ (D : List Name) (x : Name), VMap.get (D.map fun x => (x, (1 : Int))) x = if x ∈ D then some 1 else none := by
    intro D x
    induction D with
    | nil => rfl
    | cons y D ih =>
      unfold VMap.get at ih ⊢
      rw [List.map_cons, List.find?_cons]
      by_cases h : y = x
      · subst h; simp
      · have hb : (y == x) = false := by simp [h]
        have : ¬ x = y := fun h' => h h'.symm
        simp only [hb, ih, List.mem_cons, this, false_or]
  refine ⟨fun x hx => ?_, fun x hx => ?_, fun x hx => ?_⟩
  · rw [key, if_pos hx, count_list hD, if_pos hx]; rfl
  · rw [key, if_neg hx]; exact Or.inl rfl
  · rw [key, if_neg fun h => hG x h hx]

theorem casesAgree_ok {G : Name → Prop} {D : List Name} {O : Tokens} {rs : List (Bool × VMap)} (hne : rs ≠ [])
    (h : ∀ r ∈ rs, VCounts G D O r.2) : ∃ V, casesAgree rs = some V ∧ VCounts G D O V := by
  have key : ∀ r ∈ rs, (if rs.all fun s => r.2.agree s.2 then some r.2 else none) = some r.2 := by
    intro r hr
    rw [if_pos]
    rw [List.all_eq_true]
    exact fun s hs => (h r hr).agree (h s hs)
  unfold casesAgree
  cases hf : rs.find? (·.1) with
  | some r =>
    have hr := List.mem_of_find?_eq_some hf
    exact ⟨r.2, key r hr, h r hr⟩
  | none =>
    cases rs with
    | nil => exact absurd rfl hne
    | cons r rs => exact ⟨r.2, key r (by simp), h r (by simp)⟩

/-- Tokens are those of variables in scope. -/
def Inside (D : List Name) (O : Tokens) : Prop := ∀ x ∈ O, x ∈ D

theorem lin_letLike {G : Name → Prop} {b : Expr} {D : List Name} {O O' : Tokens} {V : VMap} {x : Name}
    (h : Inside (x :: D) (x ::ₘ O) → VCounts G (x :: D) (x ::ₘ O) (V.set x 1) →
      ∃ V', move b (V.set x 1) = some V' ∧ VCounts G (x :: D) O' V' ∧ Inside (x :: D) O')
    (hx : x ∉ D) (hO' : x ∉ O') (hG : ¬ G x) (hi : Inside D O) (hV : VCounts G D O V) :
    ∃ W, (move b (V.set x 1)).bind (VMap.leave (V.get x) x) = some W ∧ VCounts G D O' W ∧ Inside D O' := by
  obtain ⟨V1, e1, hV1, hi1⟩ := h
    (fun y hy => by
      rw [Multiset.mem_cons] at hy
      rcases hy with rfl | hy
      · simp
      · simp [hi y hy])
    (hV.bind hx (fun h => hx (hi x h)) hG)
  obtain ⟨W, e2, hW⟩ := hV1.leave hx hO' (hV.other x hx)
  refine ⟨W, by rw [e1, Option.bind_some, e2], hW, fun y hy => ?_⟩
  have := hi1 y hy
  rw [List.mem_cons] at this
  rcases this with rfl | h
  · exact absurd hy hO'
  · exact h

mutual
theorem lin_move {G : Name → Prop} : ∀ (e : Expr) (D : List Name) (O O' : Tokens) (V : VMap), lin D e O O' → inScope G D e →
    Inside D O → VCounts G D O V → ∃ V', move e V = some V' ∧ VCounts G D O' V' ∧ Inside D O'
  | .literal l, D, O, O', V, h, _, hi, hV => by
    have : O' = O := h
    subst this
    exact ⟨V, rfl, hV, hi⟩
  | .variable x, D, O, O', V, h, hs, hi, hV => by
    refine ⟨V.add (-1) x, rfl, ?_⟩
    rcases h with ⟨hx, rfl⟩ | ⟨hx, hxO, rfl⟩
    · have hG : G x := hs.resolve_left hx
      have : V.add (-1) x = V := by unfold VMap.add; rw [hV.notGlobal x hG]
      rw [this]; exact ⟨hV, hi⟩
    · refine ⟨?_, fun y hy => hi y (Multiset.mem_of_mem_erase hy)⟩
      exact hV.sub [x] (by simpa using (Multiset.cons_erase hxO).symm) (by simpa using hx)
  | .op o es, D, O, O', V, h, hs, hi, hV => lin_moveExprs es D o.scalar true [] O O' V h.2 hs hi hV
  | .case e as, D, O, O', V, h, hs, hi, hV => by
    obtain ⟨hne, O1, h1, h2⟩ := h
    obtain ⟨V1, e1, hV1, hi1⟩ := lin_move e D O O1 V h1 hs.1 hi hV
    obtain ⟨rs, e2, hrs, hl⟩ := lin_moveAlts as D O1 O' V1 h2 hs.2 hi1 hV1
    have hne' : rs ≠ [] := by
      intro h; apply hne; cases as with
      | nil => rfl
      | cons => exact absurd h (hl (by simp))
    obtain ⟨W, e3, hW⟩ := casesAgree_ok hne' fun r hr => (hrs r hr).1
    refine ⟨W, ?_, hW, ?_⟩
    · simp only [move, e1, Option.bind_some, e2, e3]
    · cases rs with
      | nil => exact absurd rfl hne'
      | cons r rs => exact (hrs r (by simp)).2
  | .if_ c t e, D, O, O', V, h, hs, hi, hV => by
    obtain ⟨O1, h1, h2, h3⟩ := h
    obtain ⟨V1, e1, hV1, hi1⟩ := lin_move c D O O1 V h1 hs.1 hi hV
    obtain ⟨Vt, e2, hVt, hit⟩ := lin_move t D O1 O' V1 h2 hs.2.1 hi1 hV1
    obtain ⟨Ve, e3, hVe, hie⟩ := lin_move e D O1 O' V1 h3 hs.2.2 hi1 hV1
    refine ⟨Ve, ?_, hVe, hie⟩
    simp only [move, e1, Option.bind_some, e2, e3, hVe.agree hVt, if_true]
  | .let_ x e b, D, O, O', V, h, hs, hi, hV => by
    obtain ⟨hx, hO', O1, h1, h2⟩ := h
    obtain ⟨V1, e1, hV1, hi1⟩ := lin_move e D O O1 V h1 hs.2.1 hi hV
    obtain ⟨W, e2, hW, hi2⟩ := lin_letLike (fun hi hc => lin_move b (x :: D) _ O' _ h2 hs.2.2 hi hc) hx hO' hs.1 hi1 hV1
    exact ⟨W, by simp only [move, e1, Option.bind_some, e2], hW, hi2⟩
  | .letRec f env args th body b, D, O, O', V, h, hs, hi, hV => by
    obtain ⟨hf, hO', henv, hnd, hbody, O1, hO, hb⟩ := h
    obtain ⟨Wb, eb, hWb, _⟩ := lin_move body (f :: env ++ args) _ 0 _ hbody hs.2.1 (fun x hx => by simpa using hx)
      (VCounts.init hnd hs.1)
    have hV1 := hV.sub env hO henv
    have hi1 : Inside D O1 := fun x hx => hi x (by rw [hO]; exact Multiset.mem_add.mpr (Or.inr hx))
    obtain ⟨W, e2, hW, hi2⟩ := lin_letLike (fun hi hc => lin_move b (f :: D) _ O' _ hb hs.2.2 hi hc) hf hO' (hs.1 f (by simp)) hi1 hV1
    refine ⟨W, ?_, hW, hi2⟩
    simp only [move]
    rw [eb]
    simp only [hWb.allZero, if_true, e2]
  | .try_ e x t b, D, O, O', V, h, hs, hi, hV => by
    obtain ⟨hx, h1, h2⟩ := h
    obtain ⟨V1, e1, hV1, hi1⟩ := lin_move e D O O' V h1 hs.2.1 hi hV
    obtain ⟨W, e2, hW, hi2⟩ := lin_letLike (fun hi hc => lin_move b (x :: D) _ 0 _ h2 hs.2.2 hi hc) hx (by simp) hs.1 hi1 hV1
    exact ⟨V1, by simp only [move, e1, Option.bind_some, e2, hW.allZero, if_true], hV1, hi1⟩
  | .clone xs e, D, O, O', V, h, hs, hi, hV => by
    refine lin_move e D _ O' _ h.2 hs ?_ (hV.plus xs fun x hx => hi x (h.1 x hx))
    intro x hx
    rw [Multiset.mem_add] at hx
    rcases hx with hx | hx
    · exact hi x (h.1 x (by simpa using hx))
    · exact hi x hx
  | .drop xs e, D, O, O', V, h, hs, hi, hV => by
    obtain ⟨O1, hO, h1⟩ := h
    have hxs : ∀ x ∈ xs, x ∈ D := fun x hx => hi x (by rw [hO]; exact Multiset.mem_add.mpr (Or.inl (by simpa using hx)))
    exact lin_move e D O1 O' _ h1 hs (fun x hx => hi x (by rw [hO]; exact Multiset.mem_add.mpr (Or.inr hx)))
      (hV.sub xs hO hxs)
theorem lin_moveExprs {G : Name → Prop} : ∀ (es : Exprs) (D : List Name) (scalar first : Bool) (held : List Name)
    (O O' : Tokens) (V : VMap), linExprs D scalar first held es O O' → inScopeExprs G D es →
    Inside D O → VCounts G D O V → ∃ V', moveExprs es V = some V' ∧ VCounts G D O' V' ∧ Inside D O'
  | .nil, D, _, _, _, O, O', V, h, _, hi, hV => by
    have : O' = O := h
    subst this
    exact ⟨V, rfl, hV, hi⟩
  | .cons e es, D, scalar, first, held, O, O', V, h, hs, hi, hV => by
    rcases h with ⟨x, rfl, hx, _, h⟩ | ⟨_, O1, h1, h2⟩
    · have hV' : VCounts G D O ((V.addAll 1 [x]).add (-1) x) :=
        (hV.plus [x] (by simpa using hx)).sub [x] rfl (by simpa using hx)
      obtain ⟨V', e1, h1⟩ := lin_moveExprs es D scalar false held O O' _ h hs.2 hi hV'
      exact ⟨V', by simp only [moveExprs, move, Option.bind_some, e1], h1⟩
    · obtain ⟨V1, e1, hV1, hi1⟩ := lin_move e D O O1 V h1 hs.1 hi hV
      obtain ⟨V', e2, h2⟩ := lin_moveExprs es D scalar false _ O1 O' V1 h2 hs.2 hi1 hV1
      exact ⟨V', by simp only [moveExprs, e1, Option.bind_some, e2], h2⟩
theorem lin_moveAlts {G : Name → Prop} : ∀ (as : Alts) (D : List Name) (O O' : Tokens) (V : VMap), linAlts D as O O' →
    inScopeAlts G D as → Inside D O → VCounts G D O V →
    ∃ rs, moveAlts as V = some rs ∧ (∀ r ∈ rs, VCounts G D O' r.2 ∧ Inside D O') ∧ (as ≠ .nil → rs ≠ [])
  | .nil, _, _, _, _, _, _, _, _ => ⟨[], rfl, (by intro r hr; cases hr), fun h => absurd rfl h⟩
  | .cons ts x e as, D, O, O', V, h, hs, hi, hV => by
    obtain ⟨⟨hx, hO', h1⟩, h2⟩ := h
    obtain ⟨W, e1, hW, hi1⟩ := lin_letLike (fun hi hc => lin_move e (x :: D) _ O' _ h1 hs.1.2 hi hc) hx hO' hs.1.1 hi hV
    obtain ⟨rs, e2, hrs, _⟩ := lin_moveAlts as D O O' V h2 hs.2 hi hV
    refine ⟨(ts.isNone, W) :: rs, by simp only [moveAlts, e1, Option.bind_some, e2, Option.map_some], ?_, by simp⟩
    intro r hr
    rw [List.mem_cons] at hr
    rcases hr with rfl | hr
    · exact ⟨hW, hi1⟩
    · exact hrs r hr
end

theorem linear_validate {G : Name → Prop} {d : Global} (h : d.linear) (hs : inScope G d.args d.body)
    (hG : ∀ x ∈ d.args, ¬ G x) : validateGlobal d = true := by
  obtain ⟨V, e1, hV, _⟩ := lin_move d.body d.args _ 0 _ h.2 hs (fun x hx => by simpa using hx) (VCounts.init h.1 hG)
  unfold validateGlobal
  rw [e1]
  exact hV.allZero

end Verif.Mir
