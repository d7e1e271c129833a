import Verif.Hir.Norm

/-! # `canonicalize` is alias expansion followed by normalisation -/

namespace Verif.Hir

theorem Expands.notUnion {Γ : Aliases} {t e : Ty} (h : Expands Γ t e) (ht : NotUnion t)
    (hr : ∀ x, t ≠ .reference x) : NotUnion e := by
  intro l r he
  cases h <;> first | cases he | skip
  · exact ht _ _ rfl
  · exact hr _ rfl

theorem forall₂_exists {α β γ : Type} {R : α → β → Prop} {S : α → γ → Prop} {f : γ → β} :
    ∀ {as : List α} {bs : List β}, List.Forall₂ R as bs →
      (∀ a ∈ as, ∀ b, R a b → ∃ c, S a c ∧ b = f c) →
      ∃ cs, List.Forall₂ S as cs ∧ bs = cs.map f
  | [], _, .nil, _ => ⟨[], .nil, rfl⟩
  | a :: as, _, .cons h1 h2, H => by
    obtain ⟨c, h3, h4⟩ := H a (by simp) _ h1
    obtain ⟨cs, h5, h6⟩ := forall₂_exists h2 (fun a ha => H a (by simp [ha]))
    exact ⟨c :: cs, .cons h3 h5, by simp [h4, h6]⟩

theorem canonicalize_sound_aux (Γ : Aliases) : ∀ n,
    (∀ t c, canonicalize n Γ t = .ok c → ∃ e, Expands Γ t e ∧ c = norm e) ∧
    (∀ t s s', collectTypes n Γ t s = .ok s' →
      ∃ e, Expands Γ t e ∧ s' = (atoms e).foldl (fun s t => btreeInsert t s) s) := by
  intro n
  induction n with
  | zero => exact ⟨fun t c h => by simp [canonicalize] at h, fun t s s' h => by simp [collectTypes] at h⟩
  | succ n ih =>
    have hc : ∀ t c, canonicalize (n + 1) Γ t = .ok c → ∃ e, Expands Γ t e ∧ c = norm e := by
      intro t c h
      cases t with
      | function as r =>
        simp only [canonicalize, Res.bind_eq_ok, Res.mapList_eq_ok] at h
        obtain ⟨as', h1, r', h2, h3⟩ := h
        obtain ⟨es, h4, h5⟩ := forall₂_exists h1 (fun a _ b hb => ih.1 a b hb)
        obtain ⟨s, h6, h7⟩ := ih.1 _ _ h2
        cases h3
        rw [List.forall₂_iff_zip] at h4
        refine ⟨.function es s, .function h4.1 (fun p hp => h4.2 hp) h6, ?_⟩
        simp [h5, h7]
      | list e =>
        simp only [canonicalize, Res.bind_eq_ok] at h
        obtain ⟨e', h1, h2⟩ := h
        obtain ⟨d, h3, h4⟩ := ih.1 _ _ h1
        cases h2
        exact ⟨.list d, .list h3, by simp [h4]⟩
      | map k v =>
        simp only [canonicalize, Res.bind_eq_ok] at h
        obtain ⟨k', h1, v', h2, h3⟩ := h
        obtain ⟨d, h4, h5⟩ := ih.1 _ _ h1
        obtain ⟨d', h6, h7⟩ := ih.1 _ _ h2
        cases h3
        exact ⟨.map d d', .map h4 h6, by simp [h5, h7]⟩
      | union l r =>
        simp only [canonicalize, Res.bind_eq_ok] at h
        obtain ⟨ts, h1, h2⟩ := h
        obtain ⟨e, h3, h4⟩ := ih.2 _ _ _ h1
        refine ⟨e, h3, ?_⟩
        rw [norm_eq_joinAll, joinAll, btreeSet, ← h4]
        split at h2
        · rename_i h5; cases h2; rw [h5]; rfl
        · cases h2
      | reference x =>
        simp only [canonicalize, Res.bind_eq_ok, resolve] at h
        obtain ⟨t, h1, h2⟩ := h
        split at h1
        · rename_i h3
          cases h1
          obtain ⟨e, h4, h5⟩ := ih.1 _ _ h2
          exact ⟨e, .reference h3 h4, h5⟩
        · cases h1
      | any => simp only [canonicalize] at h; cases h; exact ⟨_, .any, by simp⟩
      | boolean => simp only [canonicalize] at h; cases h; exact ⟨_, .boolean, by simp⟩
      | error => simp only [canonicalize] at h; cases h; exact ⟨_, .error, by simp⟩
      | none => simp only [canonicalize] at h; cases h; exact ⟨_, .none, by simp⟩
      | number => simp only [canonicalize] at h; cases h; exact ⟨_, .number, by simp⟩
      | string => simp only [canonicalize] at h; cases h; exact ⟨_, .string, by simp⟩
      | record x => simp only [canonicalize] at h; cases h; exact ⟨_, .record _, by simp⟩
    refine ⟨hc, ?_⟩
    intro t s s' h
    have leaf : NotUnion t → (∀ x, t ≠ .reference x) →
        (do let t ← canonicalize n Γ t; .ok (btreeInsert t s) : Res Err (List Ty)) = .ok s' →
        ∃ e, Expands Γ t e ∧ s' = (atoms e).foldl (fun s t => btreeInsert t s) s := by
      intro h1 h2 h
      simp only [Res.bind_eq_ok] at h
      obtain ⟨c, h3, h4⟩ := h
      obtain ⟨e, h5, h6⟩ := ih.1 _ _ h3
      refine ⟨e, h5, ?_⟩
      rw [atoms_of_notUnion (h5.notUnion h1 h2), ← h6]
      cases h4
      rfl
    cases t with
    | union l r =>
      simp only [collectTypes, Res.bind_eq_ok] at h
      obtain ⟨s1, h1, h2⟩ := h
      obtain ⟨e1, h3, h4⟩ := ih.2 _ _ _ h1
      obtain ⟨e2, h5, h6⟩ := ih.2 _ _ _ h2
      refine ⟨.union e1 e2, .union h3 h5, ?_⟩
      rw [h6, h4, atoms_union, List.foldl_append]
    | reference x =>
      simp only [collectTypes, Res.bind_eq_ok, resolve] at h
      obtain ⟨t, h1, h2⟩ := h
      split at h1
      · rename_i h3
        cases h1
        obtain ⟨e, h4, h5⟩ := ih.2 _ _ _ h2
        exact ⟨e, .reference h3 h4, h5⟩
      · cases h1
    | _ => exact leaf (by intro _ _ h; cases h) (by intro _ h; cases h) (by simpa only [collectTypes] using h)

theorem canonicalize_sound {Γ : Aliases} {n : Nat} {t c : Ty} (h : canonicalize n Γ t = .ok c) :
    ∃ e, Expands Γ t e ∧ c = norm e := (canonicalize_sound_aux Γ n).1 t c h

theorem exists_bound {α : Type} {P : α → Nat → Prop} : ∀ (as : List α),
    (∀ a ∈ as, ∃ N, ∀ n, N ≤ n → P a n) → ∃ N, ∀ n, N ≤ n → ∀ a ∈ as, P a n
  | [], _ => ⟨0, by simp⟩
  | a :: as, h => by
    obtain ⟨N1, h1⟩ := h a (by simp)
    obtain ⟨N2, h2⟩ := exists_bound as (fun a ha => h a (by simp [ha]))
    refine ⟨max N1 N2, fun n hn b hb => ?_⟩
    rcases List.mem_cons.mp hb with rfl | hb
    · exact h1 n (le_trans (le_max_left _ _) hn)
    · exact h2 n (le_trans (le_max_right _ _) hn) b hb

theorem canonicalize_complete_aux {Γ : Aliases} {t e : Ty} (h : Expands Γ t e) :
    ∃ N, ∀ n, N ≤ n → canonicalize n Γ t = .ok (norm e) ∧
      ∀ s, collectTypes n Γ t s = .ok ((atoms e).foldl (fun s t => btreeInsert t s) s) := by
  have leaf : ∀ {t e : Ty}, Expands Γ t e → NotUnion t → (∀ x, t ≠ .reference x) →
      (∃ N, ∀ n, N ≤ n → canonicalize n Γ t = .ok (norm e)) →
      ∃ N, ∀ n, N ≤ n → canonicalize n Γ t = .ok (norm e) ∧
        ∀ s, collectTypes n Γ t s = .ok ((atoms e).foldl (fun s t => btreeInsert t s) s) := by
    intro t e h h1 h2 ⟨N, h3⟩
    refine ⟨N + 1, fun n hn => ⟨h3 n (by omega), fun s => ?_⟩⟩
    obtain ⟨m, rfl⟩ : ∃ m, n = m + 1 := ⟨n - 1, by omega⟩
    have h4 := h3 m (by omega)
    rw [atoms_of_notUnion (h.notUnion h1 h2)]
    cases t <;> first | (exact absurd rfl (h1 _ _)) | (exact absurd rfl (h2 _)) | (
      simp only [collectTypes, h4]; rfl)
  have atomic : ∀ {t e : Ty}, (∀ m, canonicalize (m + 1) Γ t = .ok (norm e)) →
      ∃ N, ∀ n, N ≤ n → canonicalize n Γ t = .ok (norm e) := by
    intro t e h
    refine ⟨1, fun n hn => ?_⟩
    obtain ⟨m, rfl⟩ : ∃ m, n = m + 1 := ⟨n - 1, by omega⟩
    exact h m
  induction h with
  | any => exact leaf .any (by intro _ _ h; cases h) (by intro _ h; cases h) (atomic fun m => by simp [canonicalize])
  | boolean => exact leaf .boolean (by intro _ _ h; cases h) (by intro _ h; cases h) (atomic fun m => by simp [canonicalize])
  | error => exact leaf .error (by intro _ _ h; cases h) (by intro _ h; cases h) (atomic fun m => by simp [canonicalize])
  | none => exact leaf .none (by intro _ _ h; cases h) (by intro _ h; cases h) (atomic fun m => by simp [canonicalize])
  | number => exact leaf .number (by intro _ _ h; cases h) (by intro _ h; cases h) (atomic fun m => by simp [canonicalize])
  | string => exact leaf .string (by intro _ _ h; cases h) (by intro _ h; cases h) (atomic fun m => by simp [canonicalize])
  | record x => exact leaf (.record x) (by intro _ _ h; cases h) (by intro _ h; cases h) (atomic fun m => by simp [canonicalize])
  | @function as bs r s hl ha hr iha ihr =>
    refine leaf (.function hl ha hr) (by intro _ _ h; cases h) (by intro _ h; cases h) ?_
    obtain ⟨N1, h1⟩ := ihr
    obtain ⟨N2, h2⟩ := exists_bound (as.zip bs) iha
    refine ⟨max N1 N2 + 1, fun n hn => ?_⟩
    obtain ⟨m, rfl⟩ : ∃ m, n = m + 1 := ⟨n - 1, by omega⟩
    have hm1 : N1 ≤ m := le_trans (le_max_left N1 N2) (by omega)
    have hm2 : N2 ≤ m := le_trans (le_max_right N1 N2) (by omega)
    simp only [canonicalize, (h1 m hm1).1]
    have : Res.mapList (canonicalize m Γ) as = .ok (bs.map norm) := by
      rw [Res.mapList_eq_ok, List.forall₂_map_right_iff, List.forall₂_iff_zip]
      exact ⟨hl, fun hp => (h2 m hm2 _ hp).1⟩
    simp [this]
  | @list a b h ih =>
    refine leaf (.list h) (by intro _ _ h; cases h) (by intro _ h; cases h) ?_
    obtain ⟨N1, h1⟩ := ih
    refine ⟨N1 + 1, fun n hn => ?_⟩
    obtain ⟨m, rfl⟩ : ∃ m, n = m + 1 := ⟨n - 1, by omega⟩
    simp [canonicalize, (h1 m (by omega)).1]
  | @map k v k' v' hk hv ih1 ih2 =>
    refine leaf (.map hk hv) (by intro _ _ h; cases h) (by intro _ h; cases h) ?_
    obtain ⟨N1, h1⟩ := ih1
    obtain ⟨N2, h2⟩ := ih2
    refine ⟨max N1 N2 + 1, fun n hn => ?_⟩
    obtain ⟨m, rfl⟩ : ∃ m, n = m + 1 := ⟨n - 1, by omega⟩
    have hm1 : N1 ≤ m := le_trans (le_max_left N1 N2) (by omega)
    have hm2 : N2 ≤ m := le_trans (le_max_right N1 N2) (by omega)
    simp [canonicalize, (h1 m hm1).1, (h2 m hm2).1]
  | @union l r l' r' hl hr ih1 ih2 =>
    obtain ⟨N1, h1⟩ := ih1
    obtain ⟨N2, h2⟩ := ih2
    refine ⟨max N1 N2 + 2, fun n hn => ?_⟩
    have key : ∀ n, max N1 N2 + 1 ≤ n → ∀ s, collectTypes n Γ (.union l r) s =
        .ok ((atoms (.union l' r')).foldl (fun s t => btreeInsert t s) s) := by
      intro n hn s
      obtain ⟨m, rfl⟩ : ∃ m, n = m + 1 := ⟨n - 1, by omega⟩
      have hm1 : N1 ≤ m := le_trans (le_max_left N1 N2) (by omega)
      have hm2 : N2 ≤ m := le_trans (le_max_right N1 N2) (by omega)
      simp [collectTypes, (h1 m hm1).2, (h2 m hm2).2]
    refine ⟨?_, key n (by omega)⟩
    obtain ⟨m, rfl⟩ : ∃ m, n = m + 1 := ⟨n - 1, by omega⟩
    simp only [canonicalize, key m (by omega), Res.ok_bind]
    have hne : btreeSet (atoms (.union l' r')) ≠ [] := btreeSet_ne_nil (atoms_ne_nil _)
    rw [norm_eq_joinAll, joinAll, btreeSet] at *
    cases hb : List.foldl (fun s t => btreeInsert t s) [] (atoms (l'.union r')) with
    | nil => exact absurd hb hne
    | cons a as => simp [reduce]
  | @reference x t u hx h ih =>
    obtain ⟨N1, h1⟩ := ih
    refine ⟨N1 + 1, fun n hn => ?_⟩
    obtain ⟨m, rfl⟩ : ∃ m, n = m + 1 := ⟨n - 1, by omega⟩
    have := h1 m (by omega)
    simp [canonicalize, collectTypes, resolve, hx, this.1, this.2]

theorem canonicalize_complete {Γ : Aliases} {t e : Ty} (h : Expands Γ t e) :
    ∃ N, ∀ n, N ≤ n → canonicalize n Γ t = .ok (norm e) := by
  obtain ⟨N, h⟩ := canonicalize_complete_aux h
  exact ⟨N, fun n hn => (h n hn).1⟩

/-- Expansion is functional. -/
theorem Expands.det {Γ : Aliases} {t e : Ty} (h : Expands Γ t e) : ∀ {e'}, Expands Γ t e' → e = e' := by
  induction h with
  | @function as bs r s hl ha hr iha ihr =>
    intro e' h'
    cases h' with
    | @function _ cs _ s' hl' ha' hr' =>
      rw [ihr hr']
      congr 1
      refine List.ext_getElem (by omega) ?_
      intro i h1 h2
      have hi : i < as.length := by omega
      have m1 : (as[i], bs[i]) ∈ as.zip bs := by
        rw [List.mem_iff_getElem]
        exact ⟨i, by simp; omega, by simp⟩
      have m2 : (as[i], cs[i]) ∈ as.zip cs := by
        rw [List.mem_iff_getElem]
        exact ⟨i, by simp; omega, by simp⟩
      exact iha _ m1 (ha' _ m2)
  | list _ ih => intro e' h'; cases h' with | list h => rw [ih h]
  | map _ _ ih1 ih2 => intro e' h'; cases h' with | map h1 h2 => rw [ih1 h1, ih2 h2]
  | union _ _ ih1 ih2 => intro e' h'; cases h' with | union h1 h2 => rw [ih1 h1, ih2 h2]
  | reference hx _ ih =>
    intro e' h'
    cases h' with
    | reference hy h => rw [hx] at hy; cases hy; exact ih h
  | _ => intro e' h'; cases h'; rfl

theorem Expands.noReference {Γ : Aliases} {t e : Ty} (h : Expands Γ t e) : NoReference e := by
  induction h with
  | any => exact .any
  | boolean => exact .boolean
  | error => exact .error
  | none => exact .none
  | number => exact .number
  | string => exact .string
  | record n => exact .record n
  | @function as bs r s hl ha hr iha ihr =>
    refine .function (fun b hb => ?_) ihr
    obtain ⟨i, hi, rfl⟩ := List.mem_iff_getElem.mp hb
    have m1 : (as[i], bs[i]) ∈ as.zip bs := by
      rw [List.mem_iff_getElem]
      exact ⟨i, by simp; omega, by simp⟩
    exact iha _ m1
  | list _ ih => exact .list ih
  | map _ _ ih1 ih2 => exact .map ih1 ih2
  | union _ _ ih1 ih2 => exact .union ih1 ih2
  | reference _ _ ih => exact ih

/-- A reference-free type expands to itself. -/
theorem expands_self {Γ : Aliases} {t : Ty} (h : NoReference t) : Expands Γ t t := by
  induction h with
  | any => exact .any
  | boolean => exact .boolean
  | error => exact .error
  | none => exact .none
  | number => exact .number
  | string => exact .string
  | record n => exact .record n
  | @function as r _ _ iha ihr =>
    refine .function rfl (fun p hp => ?_) ihr
    have h1 := List.of_mem_zip hp
    have h2 : p.1 = p.2 := by
      obtain ⟨i, hi, rfl⟩ := List.mem_iff_getElem.mp hp
      simp
    rw [← h2]
    exact iha _ h1.1
  | list _ ih => exact .list ih
  | map _ _ ih1 ih2 => exact .map ih1 ih2
  | union _ _ ih1 ih2 => exact .union ih1 ih2

theorem noReference_foldl {as : List Ty} : ∀ {a : Ty}, NoReference a → (∀ x ∈ as, NoReference x) →
    NoReference (as.foldl .union a) := by
  induction as with
  | nil => intro a h _; exact h
  | cons b bs ih =>
    intro a h h'
    exact ih (.union h (h' b (by simp))) (fun x hx => h' x (by simp [hx]))

theorem noReference_joinAll {ts : List Ty} (h : ∀ x ∈ ts, NoReference x) : NoReference (joinAll ts) := by
  by_cases h0 : ts = []
  · subst h0; exact .any
  by_cases h1 : Ty.any ∈ ts
  · rw [joinAll_any h1]; exact .any
  · obtain ⟨a, as, h2, h3, _⟩ := joinAll_eq h0 h1
    have hm : ∀ x, x ∈ a :: as → NoReference x := fun x hx => by
      rw [← h2] at hx; exact h x ((mem_btreeSet ts x).mp hx)
    rw [h3]
    exact noReference_foldl (hm a (by simp)) (fun x hx => hm x (by simp [hx]))

theorem noReference_norm {t : Ty} (h : NoReference t) :
    NoReference (norm t) ∧ ∀ x ∈ atoms t, NoReference x := by
  have leaf : ∀ {t}, NotUnion t → NoReference (norm t) →
      NoReference (norm t) ∧ ∀ x ∈ atoms t, NoReference x := by
    intro t h1 h2
    refine ⟨h2, ?_⟩
    rw [atoms_of_notUnion h1]
    simpa using h2
  induction h with
  | union _ _ ih1 ih2 =>
    rw [norm_union, atoms_union]
    have : ∀ x ∈ atoms _ ++ atoms _, NoReference x := fun x hx => by
      rcases List.mem_append.mp hx with hx | hx
      · exact ih1.2 x hx
      · exact ih2.2 x hx
    exact ⟨noReference_joinAll this, this⟩
  | function _ _ iha ihr =>
    refine leaf (by intro _ _ h; cases h) ?_
    rw [norm_function]
    refine .function (fun a ha => ?_) ihr.1
    obtain ⟨b, hb, rfl⟩ := List.mem_map.mp ha
    exact (iha b hb).1
  | list _ ih => refine leaf (by intro _ _ h; cases h) ?_; rw [norm_list]; exact .list ih.1
  | map _ _ ih1 ih2 =>
    refine leaf (by intro _ _ h; cases h) ?_; rw [norm_map]; exact .map ih1.1 ih2.1
  | any => exact leaf (by intro _ _ h; cases h) .any
  | boolean => exact leaf (by intro _ _ h; cases h) .boolean
  | error => exact leaf (by intro _ _ h; cases h) .error
  | none => exact leaf (by intro _ _ h; cases h) .none
  | number => exact leaf (by intro _ _ h; cases h) .number
  | string => exact leaf (by intro _ _ h; cases h) .string
  | record n => exact leaf (by intro _ _ h; cases h) (.record n)

/-- A canonical form canonicalises to itself. -/
theorem canonicalize_canonical {Γ Γ' : Aliases} {t e : Ty} (h : Expands Γ t e) :
    ∃ N, ∀ n, N ≤ n → canonicalize n Γ' (norm e) = .ok (norm e) := by
  have h1 : Expands Γ' (norm e) (norm e) := expands_self (noReference_norm h.noReference).1
  obtain ⟨N, h2⟩ := canonicalize_complete h1
  exact ⟨N, fun n hn => by rw [h2 n hn, norm_idem]⟩

/-! ## Fuel -/

theorem canonicalize_mono_aux (Γ : Aliases) : ∀ n,
    (∀ t, Res.Le (canonicalize n Γ t) (canonicalize (n + 1) Γ t)) ∧
    (∀ t s, Res.Le (collectTypes n Γ t s) (collectTypes (n + 1) Γ t s)) := by
  intro n
  induction n with
  | zero => exact ⟨fun t => by left; simp [canonicalize], fun t s => by left; simp [collectTypes]⟩
  | succ n ih =>
    constructor
    · intro t
      cases t with
      | function as r =>
        simp only [canonicalize]
        exact Res.Le.bind (Res.Le.mapList as fun a _ => ih.1 a) fun _ =>
          Res.Le.bind (ih.1 r) fun _ => Res.Le.refl _
      | list e => simp only [canonicalize]; exact Res.Le.bind (ih.1 e) fun _ => Res.Le.refl _
      | map k v =>
        simp only [canonicalize]
        exact Res.Le.bind (ih.1 k) fun _ => Res.Le.bind (ih.1 v) fun _ => Res.Le.refl _
      | union l r => simp only [canonicalize]; exact Res.Le.bind (ih.2 _ _) fun _ => Res.Le.refl _
      | reference x => simp only [canonicalize]; exact Res.Le.bind (Res.Le.refl _) fun t => ih.1 t
      | _ => simp only [canonicalize]; exact Res.Le.refl _
    · intro t s
      cases t with
      | union l r => simp only [collectTypes]; exact Res.Le.bind (ih.2 _ _) fun _ => ih.2 _ _
      | reference x => simp only [collectTypes]; exact Res.Le.bind (Res.Le.refl _) fun t => ih.2 _ _
      | _ => simp only [collectTypes]; exact Res.Le.bind (ih.1 _) fun _ => Res.Le.refl _

end Verif.Hir
