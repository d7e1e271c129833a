import Verif.Grammar.Literals

/-! Renderings, lists of elements and types: what is written is read back. -/

namespace Verif.Grammar

/-! ## Renderings -/

theorem fills_nil {s : List Char} : Fills [] s ↔ s = [] := Iff.rfl

theorem fills_cons {p : Piece} {ps : List Piece} {s : List Char} :
    Fills (p :: ps) s ↔ ∃ a b, s = a ++ b ∧ Fill p a ∧ Fills ps b := Iff.rfl

theorem fills_append {ps qs : List Piece} {s : List Char} :
    Fills (ps ++ qs) s ↔ ∃ a b, s = a ++ b ∧ Fills ps a ∧ Fills qs b := by
  induction ps generalizing s with
  | nil =>
    constructor
    · intro h; exact ⟨[], s, rfl, rfl, h⟩
    · rintro ⟨a, b, rfl, rfl, h⟩; exact h
  | cons p ps ih =>
    simp only [List.cons_append, fills_cons, ih]
    constructor
    · rintro ⟨a, b, rfl, h1, c, d, rfl, h2, h3⟩
      exact ⟨a ++ c, d, by simp, ⟨a, c, rfl, h1, h2⟩, h3⟩
    · rintro ⟨a, b, rfl, ⟨c, d, rfl, h1, h2⟩, h3⟩
      exact ⟨c, d ++ b, by simp, h1, d, b, rfl, h2, h3⟩

theorem fills_txt {t : List Char} {ps : List Piece} {s : List Char} :
    Fills (.txt t :: ps) s ↔ ∃ b, s = t ++ b ∧ Fills ps b := by
  simp only [fills_cons, Fill]
  constructor
  · rintro ⟨a, b, rfl, rfl, h⟩; exact ⟨b, rfl, h⟩
  · rintro ⟨b, rfl, h⟩; exact ⟨t, b, rfl, rfl, h⟩

theorem fills_gap {ps : List Piece} {s : List Char} :
    Fills (.gap :: ps) s ↔ ∃ a b, s = a ++ b ∧ (Blank a ∧ a ≠ []) ∧ Fills ps b := Iff.rfl

theorem fills_soft {ps : List Piece} {s : List Char} :
    Fills (.soft :: ps) s ↔ ∃ a b, s = a ++ b ∧ Blank a ∧ Fills ps b := Iff.rfl

/-- A gap is not the start of anything else. -/
theorem gap_start {f : Char → Bool} {a s : List Char} (h : Blank a ∧ a ≠ [])
    (hf : ∀ c, isSpace c = true ∨ c = '#' → f c = false) : startsWith f (a ++ s) = false := by
  obtain ⟨h, hn⟩ := h
  cases a with
  | nil => exact absurd rfl hn
  | cons c a => exact hf c h.head

theorem space_cases {c : Char} (h : isSpace c = true ∨ c = '#') :
    c = ' ' ∨ c = '\t' ∨ c = '\r' ∨ c = '\n' ∨ c = '#' := by
  rcases h with h | h
  · simp [isSpace] at h
    rcases h with ((h | h) | h) | h <;> simp [h]
  · simp [h]

theorem space_word {c : Char} (h : isSpace c = true ∨ c = '#') :
    isWord c = false ∧ (c = '=' : Bool) = false ∧ (c = '\'' : Bool) = false ∧
      (c = '.' : Bool) = false ∧ (c = '(' : Bool) = false := by
  rcases space_cases h with rfl | rfl | rfl | rfl | rfl <;> decide

theorem wordEnd_gap {a s : List Char} (h : Blank a ∧ a ≠ []) : WordEnd (a ++ s) :=
  gap_start h fun _ hc => (space_word hc).1

theorem nameEnd_gap {a s : List Char} (h : Blank a ∧ a ≠ []) : NameEnd (a ++ s) :=
  gap_start h fun _ hc => by simp [(space_word hc).1, space_word hc]

theorem nameEnd_cons {c : Char} {s : List Char} (h : (isWord c || c = '\'') = false) :
    NameEnd (c :: s) := h

/-! ## Lists of elements -/

theorem sign_comma (s : List Char) : sign ",".toList (",".toList ++ s) = .ok () s :=
  sign_ok s rfl (by decide) (by decide)

theorem sign_comma_cons (s : List Char) : sign ",".toList (',' :: s) = .ok () s := sign_comma s

section
variable {α : Type} {el : Parser α} {pr : α → List Piece} {End : α → List Char → Prop} {n : Nat}

theorem moreElements_ok (hskip : Skips el) (xs : List α)
    (hel : ∀ x ∈ xs, ∀ s rest, Fills (pr x) s → End x rest → (s ++ rest).length < n →
      el (s ++ rest) = .ok x rest)
    (hcomma : ∀ x ∈ xs, ∀ r, End x (',' :: r)) (tail : List Char) (htail : ∀ x ∈ xs, End x tail)
    (hstop : next (sign ",".toList) el tail = .error) (s : List Char)
    (hs : Fills (xs.map fun x => comma ++ pr x).flatten s) (hn : (s ++ tail).length ≤ n) :
    Many (next (sign ",".toList) el) (s ++ tail) xs tail := by
  induction xs generalizing s with
  | nil =>
    have : s = [] := hs
    subst this
    exact .nil hstop
  | cons x xs ih =>
    simp only [List.map_cons, List.flatten_cons, comma, List.cons_append, List.nil_append,
      fills_txt, fills_gap, fills_append] at hs
    obtain ⟨_, rfl, b, _, rfl, hb, s1, s2, rfl, h1, h2⟩ := hs
    simp only [List.append_assoc] at hn ⊢
    have hrest : End x (s2 ++ tail) := by
      cases xs with
      | nil =>
        have : s2 = [] := h2
        subst this
        exact htail x (by simp)
      | cons y ys =>
        simp only [List.map_cons, List.flatten_cons, comma, List.cons_append, List.nil_append,
          fills_txt] at h2
        obtain ⟨s3, rfl, _⟩ := h2
        exact hcomma x (by simp) _
    refine .cons (r := s2 ++ tail) (a := x) ?_ ?_ (ih (fun y hy => hel y (by simp [hy]))
      (fun y hy => hcomma y (by simp [hy])) (fun y hy => htail y (by simp [hy])) _ h2 ?_)
    · refine (bind_ok (sign_comma _)).trans ?_
      rw [hskip.append hb.1]
      exact hel x (by simp) _ _ h1 hrest (by simp at hn ⊢; omega)
    · have : 0 < b.length := List.length_pos_iff.2 hb.2
      simp; omega
    · simp at hn ⊢; omega

theorem join_comma (ps : List (List Piece)) (p : List Piece) :
    join comma (p :: ps) = p ++ (ps.map fun q => comma ++ q).flatten := by
  induction ps generalizing p with
  | nil => simp [join]
  | cons q ps ih => rw [join, ih]; simp

theorem separated_ok (hskip : Skips el) (x : α) (xs : List α)
    (hel : ∀ y ∈ x :: xs, ∀ s rest, Fills (pr y) s → End y rest → (s ++ rest).length < n →
      el (s ++ rest) = .ok y rest)
    (hcomma : ∀ y ∈ x :: xs, ∀ r, End y (',' :: r)) (tail : List Char)
    (htail : ∀ y ∈ x :: xs, End y tail)
    (hstop : next (sign ",".toList) el tail = .error) (s : List Char)
    (hs : Fills (join comma ((x :: xs).map pr)) s) (hn : (s ++ tail).length < n) :
    separated1 (sign ",".toList) el (s ++ tail) = .ok (x :: xs) tail := by
  rw [List.map_cons, join_comma, List.map_map, fills_append] at hs
  obtain ⟨s1, s2, rfl, h1, h2⟩ := hs
  have hrest : End x (s2 ++ tail) := by
    cases xs with
    | nil =>
      have : s2 = [] := h2
      subst this
      exact htail x (by simp)
    | cons y ys =>
      simp only [List.map_cons, List.flatten_cons, comma, List.cons_append, List.nil_append,
        fills_txt, Function.comp] at h2
      obtain ⟨s3, rfl, _⟩ := h2
      exact hcomma x (by simp) _
  rw [List.append_assoc] at hn ⊢
  refine (bind_ok (hel x (by simp) _ _ h1 hrest hn)).trans ?_
  refine (bind_ok (moreElements_ok hskip xs (fun y hy => hel y (by simp [hy]))
      (fun y hy => hcomma y (by simp [hy])) tail (fun y hy => htail y (by simp [hy])) hstop _ h2
      ?_).many0).trans rfl
  simp at hn ⊢; omega

/-- Non-empty lists of elements, with or without a comma at the end. -/
theorem list1_ok (hskip : Skips el) (x : α) (xs : List α)
    (hel : ∀ y ∈ x :: xs, ∀ s rest, Fills (pr y) s → End y rest → (s ++ rest).length < n →
      el (s ++ rest) = .ok y rest)
    (hcomma : ∀ y ∈ x :: xs, ∀ r, End y (',' :: r)) (rest : List Char)
    (hrest : ∀ y ∈ x :: xs, End y rest) (hend : sign ",".toList rest = .error)
    (s : List Char)
    (hs : (∃ s1 s2, s = s1 ++ s2 ∧ Fills (join comma ((x :: xs).map pr)) s1 ∧
      (s2 = [] ∨ (el rest = .error ∧ ∃ b, s2 = ',' :: b ∧ Blank b))))
    (hn : (s ++ rest).length < n) :
    ∃ b, Blank b ∧ list1 (sign ",".toList) el (s ++ rest) = .ok (x :: xs) (b ++ rest) := by
  obtain ⟨s1, s2, rfl, h1, rfl | ⟨herr, b, rfl, hb⟩⟩ := hs
  · refine ⟨[], .nil, ?_⟩
    rw [List.append_nil] at hn ⊢
    refine (bind_ok (separated_ok hskip x xs hel hcomma rest hrest (bind_error hend) s1 h1
      hn)).trans ?_
    exact (bind_ok (opt_error hend)).trans rfl
  · refine ⟨b, hb, ?_⟩
    rw [List.append_assoc] at hn ⊢
    refine (bind_ok (separated_ok hskip x xs hel hcomma (',' :: b ++ rest)
      (fun y hy => hcomma y hy _) ?_ s1 h1 hn)).trans ?_
    · refine (bind_ok (sign_comma_cons _)).trans ?_
      show el (b ++ rest) = _
      rw [hskip.append hb, herr]
    · exact (bind_ok (opt_ok (sign_comma_cons _))).trans rfl

theorem list0_of_list1 {s rest : List Char} {x : α} {xs : List α}
    (h : list1 (sign ",".toList) el s = .ok (x :: xs) rest) :
    list0 (sign ",".toList) el s = .ok (x :: xs) rest := by
  unfold list1 at h
  unfold list0
  rw [bind_apply] at h ⊢
  cases hs : separated1 (sign ",".toList) el s with
  | ok as r =>
    rw [hs] at h
    simp only [R.bind] at h
    have : separated0 (sign ",".toList) el s = .ok as r := orElse_ok hs
    rw [this]
    simp only [R.bind]
    have e : as = x :: xs := by
      rw [bind_apply] at h
      cases ho : opt (sign ",".toList) r with
      | ok a r' => rw [ho] at h; simp [R.bind, pure_apply] at h; exact h.1
      | _ => rw [ho] at h; simp [R.bind] at h
    subst e
    simpa using h
  | _ => rw [hs] at h; simp [R.bind] at h

/-- Lists of elements, with any white space in front. -/
theorem elements_ok (hskip : Skips el) (xs : List α)
    (hel : ∀ y ∈ xs, ∀ s rest, Fills (pr y) s → End y rest → (s ++ rest).length < n →
      el (s ++ rest) = .ok y rest)
    (hcomma : ∀ y ∈ xs, ∀ r, End y (',' :: r)) (rest : List Char)
    (hrest : ∀ y ∈ xs, End y rest) (hend : sign ",".toList rest = .error)
    (herr : el rest = .error) (b s : List Char) (hb : Blank b)
    (hs : Fills (elements (xs.map pr)) s) (hn : (s ++ rest).length < n) :
    ∃ b', Blank b' ∧ list0 (sign ",".toList) el (b ++ (s ++ rest)) = .ok xs (b' ++ rest) := by
  cases xs with
  | nil =>
    have : s = [] := hs
    subst this
    refine ⟨b, hb, ?_⟩
    have : el (b ++ ([] ++ rest)) = .error := by rw [hskip.append hb]; exact herr
    exact (bind_ok (a := []) ((orElse_error (bind_error this)).trans rfl)).trans rfl
  | cons x xs =>
    simp only [elements, List.map_cons, List.isEmpty_cons, Bool.false_eq_true, if_false,
      fills_append] at hs
    obtain ⟨s1, s2, rfl, h1, a, c, rfl, h2, rfl⟩ := hs
    rw [List.append_nil] at hn ⊢
    obtain ⟨b', hb', h⟩ := list1_ok hskip x xs hel hcomma rest hrest hend (s1 ++ a)
      ⟨s1, a, rfl, h1, h2.imp id fun h => ⟨herr, h⟩⟩ hn
    refine ⟨b', hb', ?_⟩
    have hsk : Skips (list1 (sign ",".toList) el) := (separated1_skips hskip _).bind _
    exact list0_of_list1 (by rw [hsk.append hb]; exact h)

end

/-! ## What the recursive nonterminals do -/

/-- What can follow a type. -/
def TypeEnd (rest : List Char) : Prop := NameEnd rest ∧ sign "|".toList rest = .error

/-- The input starts with a character that closes something. -/
def Closes (s : List Char) : Prop :=
  ∃ c r, blank s = c :: r ∧ (c = ')' ∨ c = ']' ∨ c = '}')

/-- Types and their errors, for inputs shorter than `n`. -/
structure TypeInv (g : G) (n : Nat) : Prop where
  skips : Skips g.type
  type : ∀ t s rest, t.Plain → Fills (printType t) s → TypeEnd rest → (s ++ rest).length < n →
    g.type (s ++ rest) = .ok t rest
  error : ∀ s, Closes s → s.length < n → g.type s = .error

theorem typeEnd_char {c : Char} {s : List Char} (h1 : (isWord c || c = '\'') = false)
    (h2 : Solid c) (h3 : c ≠ '|') : TypeEnd (c :: s) :=
  ⟨h1, sign_error rfl (blank_solid h2 s) (Ne.symm h3)⟩

theorem typeEnd_gap {a : List Char} {c : Char} {s : List Char} (ha : Blank a ∧ a ≠ [])
    (h2 : Solid c) (h3 : c ≠ '|') : TypeEnd (a ++ c :: s) :=
  ⟨nameEnd_gap ha, sign_error rfl (by rw [blank_append ha.1, blank_solid h2]) (Ne.symm h3)⟩

theorem skips_listType (g : G) : Skips (listType g) := (skips_sign _).bind _
theorem skips_mapType (g : G) : Skips (mapType g) := (skips_sign _).bind _

theorem skips_atomicType (g : G) : Skips (atomicType g) := by
  refine skips_alt fun p hp => ?_
  simp only [List.mem_cons, List.not_mem_nil, or_false] at hp
  rcases hp with rfl | rfl | rfl | rfl
  · exact (skips_token _).bind _
  · exact skips_listType g
  · exact skips_mapType g
  · exact (skips_sign _).bind _

theorem skips_type (g : G) : Skips (type g) := by
  refine skips_alt fun p hp => ?_
  simp only [List.mem_cons, List.not_mem_nil, or_false] at hp
  rcases hp with rfl | rfl
  · exact (skips_sign _).bind _
  · exact (separated1_skips (skips_atomicType g) _).bind _

/-! ## Types -/

/-- The members of a plain union. -/
def atoms : Ty → List Ty
  | .union l r => atoms l ++ [r]
  | t => [t]

theorem atoms_ne (t : Ty) : atoms t ≠ [] := by cases t <;> simp [atoms]

theorem atoms_of {t : Ty} (h : t.isUnion = false) : atoms t = [t] := by
  cases t <;> simp_all [atoms, Ty.isUnion]

theorem members_of {t : Ty} (h : t.isUnion = false) :
    members t = [(t.isFunction, printType t)] := by
  cases t <;> simp_all [members, Ty.isUnion, printType, joinUnion, Ty.isFunction]

theorem members_atoms : ∀ t : Ty, t.Plain →
    members t = (atoms t).map fun a => (a.isFunction, printType a)
  | .function as r, _ => by rw [members_of rfl]; rfl
  | .list t, _ => by rw [members_of rfl]; rfl
  | .map k v, _ => by rw [members_of rfl]; rfl
  | .reference x, _ => by rw [members_of rfl]; rfl
  | .union l r, h => by
    simp only [Ty.Plain] at h
    rw [members, members_atoms l h.1, members_of h.2.2.1]
    simp [atoms]

theorem reduceUnion_append (ts : List Ty) (t : Ty) (h : ts ≠ []) :
    reduceUnion (ts ++ [t]) = .union (reduceUnion ts) t := by
  cases ts with
  | nil => exact absurd rfl h
  | cons a ts => simp [reduceUnion]

theorem reduceUnion_atoms (t : Ty) : reduceUnion (atoms t) = t := by
  induction t using atoms.induct with
  | case1 l r ih => rw [atoms, reduceUnion_append _ _ (atoms_ne l), ih]
  | case2 t h =>
    cases t with
    | union l r => exact absurd rfl (h l r)
    | _ => rfl

theorem atoms_plain (t : Ty) (h : t.Plain) : ∀ a ∈ atoms t, a.Plain ∧ a.isUnion = false := by
  induction t using atoms.induct with
  | case1 l r ih =>
    simp only [Ty.Plain] at h
    intro a ha
    simp [atoms] at ha
    rcases ha with ha | rfl
    · exact ih h.1 a ha
    · exact ⟨h.2.1, h.2.2.1⟩
  | case2 t h' =>
    intro a ha
    cases t with
    | union l r => exact absurd rfl (h' l r)
    | _ => simp [atoms] at ha; subst ha; exact ⟨h, rfl⟩

/-- The last member of a union is not a function type. -/
theorem atoms_last {t : Ty} (h : t.Plain) (hf : t.isFunction = false) :
    ∀ as a, atoms t = as ++ [a] → a.isFunction = false := by
  intro as a e
  cases t with
  | union l r =>
    simp only [Ty.Plain] at h
    simp only [atoms] at e
    have := List.append_inj_right' e rfl
    simp at this
    subst this
    exact h.2.2.2
  | function => simp [Ty.isFunction] at hf
  | _ =>
    simp only [atoms] at e
    have := List.append_inj_right' (s₁ := []) e rfl
    simp at this
    subst this
    rfl

theorem printTypes_map (ts : List Ty) : printTypes ts = ts.map printType := by
  induction ts with
  | nil => rfl
  | cons t ts ih => simp [printTypes, ih, printType]

theorem allPlainTypes_iff (ts : List Ty) : allPlainTypes ts ↔ ∀ t ∈ ts, t.Plain := by
  induction ts with
  | nil => simp [allPlainTypes]
  | cons t ts ih => simp [allPlainTypes, ih]

theorem printType_function (as : List Ty) (r : Ty) : printType (.function as r) =
    text "\\(" :: join comma (as.map printType) ++ [text ")", .gap] ++ printType r := by
  simp [printType, members, joinUnion, printTypes_map]

theorem printType_list (t : Ty) :
    printType (.list t) = text "[" :: printType t ++ [text "]"] := rfl

theorem printType_map (k v : Ty) : printType (.map k v) =
    text "{" :: printType k ++ [text ":", .gap] ++ printType v ++ [text "}"] := rfl

theorem printType_reference (x : Name) : printType (.reference x) = [.txt x] := rfl

theorem sign_open (c : Char) (s : List Char) (h : Solid c) (ho : isOperator c = false) :
    sign [c] ([c] ++ s) = .ok () s := sign_ok s rfl h (by simp [ho])

theorem sign_open' (c : Char) (s : List Char) (h : Solid c) (ho : isOperator c = false) :
    sign [c] (c :: s) = .ok () s := sign_open c s h ho

/-- A sign after any white space. -/
theorem sign_blank {t b s : List Char} {r : List Char} (hb : Blank b) (h : sign t s = .ok () r) :
    sign t (b ++ s) = .ok () r := by rw [(skips_sign t).append hb, h]

theorem functionType_ok {g : G} {n : Nat} (ih : TypeInv g n) {as : List Ty} {r : Ty}
    (h : (Ty.function as r).Plain) {s rest : List Char}
    (hs : Fills (printType (.function as r)) s) (hr : TypeEnd rest)
    (hn : (s ++ rest).length ≤ n) : functionType g (s ++ rest) = .ok (.function as r) rest := by
  simp only [Ty.Plain, allPlainTypes_iff] at h
  rw [printType_function] at hs
  simp only [List.cons_append, fills_txt, fills_append, fills_gap, fills_nil] at hs
  obtain ⟨_, rfl, _, _, rfl, ⟨s1, _, rfl, h1, _, rfl, b, _, rfl, hb, rfl⟩, h2⟩ := hs
  rename_i s2
  simp only [List.append_assoc, List.append_nil] at hn ⊢
  have hn' : (s1 ++ (")".toList ++ (b ++ (s2 ++ rest)))).length < n := by
    simp at hn ⊢; omega
  refine (bind_ok (sign_ok _ rfl (by decide) (by decide))).trans (cut_ok ?_)
  have hcl : Closes (")".toList ++ (b ++ (s2 ++ rest))) :=
    ⟨')', _, blank_solid (by decide) _, .inl rfl⟩
  have key : ∃ b', Blank b' ∧ list0 (sign ",".toList) g.type
      (s1 ++ (")".toList ++ (b ++ (s2 ++ rest)))) =
      .ok as (b' ++ (")".toList ++ (b ++ (s2 ++ rest)))) := by
    have herr := ih.error (")".toList ++ (b ++ (s2 ++ rest))) hcl (by simp at hn' ⊢; omega)
    cases as with
    | nil =>
      have : s1 = [] := h1
      subst this
      exact elements_ok (el := g.type) (pr := printType) (End := fun _ => TypeEnd) ih.skips []
        (by simp) (by simp) _ (by simp) (sign_error rfl (blank_solid (by decide) _) (by decide))
        herr [] [] .nil rfl hn'
    | cons x xs =>
      obtain ⟨b', hb', hl⟩ := list1_ok (el := g.type) (pr := printType)
        (End := fun _ => TypeEnd) ih.skips x xs
        (fun y hy s rest hs he hn => ih.type y s rest (h.1 y hy) hs he hn)
        (fun y hy r => typeEnd_char (by decide) (by decide) (by decide))
        (")".toList ++ (b ++ (s2 ++ rest)))
        (fun y hy => typeEnd_char (by decide) (by decide) (by decide))
        (sign_error rfl (blank_solid (by decide) _) (by decide)) s1
        ⟨s1, [], by simp, h1, .inl rfl⟩ hn'
      exact ⟨b', hb', list0_of_list1 hl⟩
  obtain ⟨b', hb', hl⟩ := key
  refine (bind_ok hl).trans ?_
  refine (bind_ok (sign_blank hb' (sign_ok _ rfl (by decide) (by decide)))).trans ?_
  refine (bind_ok (a := r) (r := rest) ?_).trans rfl
  rw [ih.skips.append hb.1]
  exact ih.type r s2 rest h.2 h2 hr (by simp at hn' ⊢; omega)

theorem referenceType_error {c : Char} {s r : List Char} (hb : blank s = c :: r)
    (hc : c.isAlpha = false) (h : c ≠ '_') : referenceType s = .error := by
  refine bind_error ?_
  unfold token
  rw [hb]
  exact bind_error (rawIdentifier_error hc h)

theorem paren_true (ps : List Piece) : paren true ps = text "(" :: ps ++ [text ")"] := rfl
theorem paren_false (ps : List Piece) : paren false ps = ps := rfl

theorem atomicType_ok {g : G} {n : Nat} (ih : TypeInv g n) {t : Ty} (h : t.Plain)
    (hu : t.isUnion = false) {s rest : List Char}
    (hs : Fills (paren t.isFunction (printType t)) s) (hr : NameEnd rest)
    (hn : (s ++ rest).length ≤ n) : atomicType g (s ++ rest) = .ok t rest := by
  cases t with
  | union => simp [Ty.isUnion] at hu
  | reference x =>
    simp only [Ty.isFunction, paren_false, printType_list, printType_map, printType_reference, fills_txt, fills_nil] at hs
    obtain ⟨_, rfl, rfl⟩ := hs
    simp only [Ty.Plain] at h
    simp only [List.append_nil]
    exact alt_ok ((bind_ok (qualified_ok h hr)).trans rfl)
  | list t =>
    simp only [Ty.isFunction, paren_false, printType_list, printType_map, printType_reference, List.cons_append, fills_txt,
      fills_append, fills_nil] at hs
    obtain ⟨_, rfl, s1, _, rfl, h1, _, rfl, rfl⟩ := hs
    simp only [Ty.Plain] at h
    simp only [List.append_assoc, List.append_nil] at hn ⊢
    refine (alt_error (referenceType_error (blank_solid (by decide) _) (by decide)
      (by decide))).trans (alt_ok ?_)
    refine (bind_ok (sign_ok _ rfl (by decide) (by decide))).trans (cut_ok ?_)
    refine (bind_ok (ih.type t s1 _ h h1 (typeEnd_char (by decide) (by decide) (by decide))
      (by simp at hn ⊢; omega))).trans ?_
    exact (bind_ok (sign_ok _ rfl (by decide) (by decide))).trans rfl
  | map k v =>
    simp only [Ty.isFunction, paren_false, printType_list, printType_map, printType_reference, List.cons_append, fills_txt,
      fills_append, fills_gap, fills_nil] at hs
    obtain ⟨_, rfl, _, _, rfl, ⟨_, s2, rfl, ⟨s1, _, rfl, h1, _, rfl, b, _, rfl, hb, rfl⟩, h2⟩, _,
      rfl, rfl⟩ := hs
    simp only [Ty.Plain] at h
    simp only [List.append_assoc, List.append_nil] at hn ⊢
    refine (alt_error (referenceType_error (blank_solid (by decide) _) (by decide)
      (by decide))).trans ?_
    refine (alt_error (bind_error (sign_error rfl (blank_solid (by decide) _) (by decide)))).trans
      (alt_ok ?_)
    refine (bind_ok (sign_ok _ rfl (by decide) (by decide))).trans (cut_ok ?_)
    refine (bind_ok (ih.type k s1 _ h.1 h1 (typeEnd_char (by decide) (by decide) (by decide))
      (by simp at hn ⊢; omega))).trans ?_
    refine (bind_ok (sign_ok _ rfl (by decide) (by decide))).trans ?_
    refine (bind_ok (a := v) (r := "}".toList ++ rest) ?_).trans ?_
    · rw [ih.skips.append hb.1]
      exact ih.type v s2 _ h.2 h2 (typeEnd_char (by decide) (by decide) (by decide))
        (by simp at hn ⊢; omega)
    · exact (bind_ok (sign_ok _ rfl (by decide) (by decide))).trans rfl
  | function as r =>
    simp only [Ty.isFunction, paren_true, List.cons_append, fills_txt, fills_append, fills_nil] at hs
    obtain ⟨_, rfl, s1, _, rfl, h1, _, rfl, rfl⟩ := hs
    simp only [List.append_assoc, List.append_nil] at hn ⊢
    refine (alt_error (referenceType_error (blank_solid (by decide) _) (by decide)
      (by decide))).trans ?_
    refine (alt_error (bind_error (sign_error rfl (blank_solid (by decide) _) (by decide)))).trans ?_
    refine (alt_error (bind_error (sign_error rfl (blank_solid (by decide) _) (by decide)))).trans
      (alt_ok ?_)
    refine (bind_ok (sign_ok _ rfl (by decide) (by decide))).trans (cut_ok ?_)
    refine (bind_ok (ih.type _ s1 _ h h1 (typeEnd_char (by decide) (by decide) (by decide))
      (by simp at hn ⊢; omega))).trans ?_
    exact (bind_ok (sign_ok _ rfl (by decide) (by decide))).trans rfl

/-- A pipe between two members. -/
def pipe : List Piece := [.gap, text "|", .gap]

theorem joinUnion_eq (a : Ty) (as : List Ty)
    (hl : ∀ bs b, a :: as = bs ++ [b] → b.isFunction = false) :
    joinUnion ((a :: as).map fun a => (a.isFunction, printType a)) =
      paren a.isFunction (printType a) ++
        (as.map fun a => pipe ++ paren a.isFunction (printType a)).flatten := by
  induction as generalizing a with
  | nil => simp [joinUnion, hl [] a rfl, paren_false]
  | cons b as ih =>
    have := ih b (fun bs c e => hl (a :: bs) c (by simp [e]))
    simp only [List.map_cons] at this ⊢
    rw [joinUnion, this]
    simp [pipe]

theorem moreTypes_ok {g : G} {n : Nat} (ih : TypeInv g n) (as : List Ty)
    (h : ∀ a ∈ as, a.Plain ∧ a.isUnion = false) {rest : List Char} (hr : TypeEnd rest)
    (s : List Char)
    (hs : Fills (as.map fun a => pipe ++ paren a.isFunction (printType a)).flatten s)
    (hn : (s ++ rest).length ≤ n) :
    NameEnd (s ++ rest) ∧ Many (next (sign "|".toList) (atomicType g)) (s ++ rest) as rest := by
  induction as generalizing s with
  | nil =>
    have : s = [] := hs
    subst this
    exact ⟨hr.1, .nil (bind_error hr.2)⟩
  | cons a as iha =>
    simp only [List.map_cons, List.flatten_cons, pipe, List.cons_append, List.nil_append,
      fills_txt, fills_gap, fills_append] at hs
    obtain ⟨b1, _, rfl, hb1, _, rfl, b2, _, rfl, hb2, s1, s2, rfl, h1, h2⟩ := hs
    simp only [List.append_assoc] at hn ⊢
    obtain ⟨i1, i2⟩ := iha (fun x hx => h x (by simp [hx])) s2 h2 (by simp at hn ⊢; omega)
    refine ⟨nameEnd_gap hb1, .cons ?_ ?_ i2⟩
    · refine (bind_ok (sign_blank hb1.1 (sign_operator_ok _ rfl (by decide) (by decide)
        (gap_start hb2 fun c hc => (space_word hc).2.1)))).trans ?_
      rw [(skips_atomicType g).append hb2.1]
      exact atomicType_ok ih (h a (by simp)).1 (h a (by simp)).2 h1 i1 (by simp at hn ⊢; omega)
    · simp; omega

theorem atomicType_start {t : Ty} (h : t.Plain) (hu : t.isUnion = false) {s rest : List Char}
    (hs : Fills (paren t.isFunction (printType t)) s) :
    ∃ c r, blank (s ++ rest) = c :: r ∧ c ≠ '\\' := by
  cases t with
  | union => simp [Ty.isUnion] at hu
  | reference x =>
    simp only [Ty.isFunction, paren_false, printType_list, printType_map, printType_reference, fills_txt, fills_nil] at hs
    obtain ⟨_, rfl, rfl⟩ := hs
    simp only [Ty.Plain] at h
    obtain ⟨c, t, rfl, hc⟩ := h.head
    refine ⟨c, _, blank_solid (alpha_solid hc) _, ?_⟩
    rintro rfl
    revert hc
    decide
  | list t =>
    simp only [Ty.isFunction, paren_false, printType_list, printType_map, printType_reference, List.cons_append, fills_txt] at hs
    obtain ⟨_, rfl, _⟩ := hs
    exact ⟨_, _, blank_solid (by decide) _, by decide⟩
  | map k v =>
    simp only [Ty.isFunction, paren_false, printType_list, printType_map, printType_reference, List.cons_append, fills_txt] at hs
    obtain ⟨_, rfl, _⟩ := hs
    exact ⟨_, _, blank_solid (by decide) _, by decide⟩
  | function as r =>
    simp only [Ty.isFunction, paren_true, List.cons_append, fills_txt] at hs
    obtain ⟨_, rfl, _⟩ := hs
    exact ⟨_, _, blank_solid (by decide) _, by decide⟩

theorem type_ok {g : G} {n : Nat} (ih : TypeInv g n) {t : Ty} (h : t.Plain) {s rest : List Char}
    (hs : Fills (printType t) s) (hr : TypeEnd rest) (hn : (s ++ rest).length ≤ n) :
    type g (s ++ rest) = .ok t rest := by
  by_cases hf : t.isFunction = true
  · cases t with
    | function as r => exact alt_ok (functionType_ok ih h hs hr hn)
    | _ => simp [Ty.isFunction] at hf
  · have hf : t.isFunction = false := by simpa using hf
    have hp := atoms_plain t h
    have hl := atoms_last h hf
    rw [printType, members_atoms t h] at hs
    have hre := reduceUnion_atoms t
    cases hat : atoms t with
    | nil => exact absurd hat (atoms_ne t)
    | cons a as =>
      rw [hat] at hp hl hs hre
      rw [joinUnion_eq a as hl, fills_append] at hs
      obtain ⟨s1, s2, rfl, h1, h2⟩ := hs
      rw [List.append_assoc] at hn ⊢
      obtain ⟨c, r, hb, hc⟩ := atomicType_start (rest := s2 ++ rest) (hp a (by simp)).1
        (hp a (by simp)).2 h1
      obtain ⟨i1, i2⟩ := moreTypes_ok ih as (fun x hx => hp x (by simp [hx])) hr s2 h2
        (by simp at hn ⊢; omega)
      refine (alt_error (bind_error (sign_error rfl hb (Ne.symm hc)))).trans (alt_ok ?_)
      have := atomicType_ok ih (hp a (by simp)).1 (hp a (by simp)).2 h1 i1 hn
      refine (bind_ok ((bind_ok this).trans ((bind_ok i2.many0).trans rfl))).trans ?_
      simp [pure_apply, hre]

theorem atomicType_error {g : G} {s : List Char} {c : Char} {r : List Char} (hb : blank s = c :: r)
    (h1 : c.isAlpha = false) (h2 : c ≠ '_') (h3 : c ≠ '[') (h4 : c ≠ '{') (h5 : c ≠ '(') :
    atomicType g s = .error := by
  refine (alt_error (referenceType_error hb h1 h2)).trans ?_
  refine (alt_error (bind_error (sign_error rfl hb (Ne.symm h3)))).trans ?_
  refine (alt_error (bind_error (sign_error rfl hb (Ne.symm h4)))).trans ?_
  exact (alt_error (bind_error (sign_error rfl hb (Ne.symm h5)))).trans alt_nil

theorem type_error {g : G} {s : List Char} (h : Closes s) : type g s = .error := by
  obtain ⟨c, r, hb, hc⟩ := h
  have : atomicType g s = .error := by
    rcases hc with rfl | rfl | rfl <;>
      exact atomicType_error hb (by decide) (by decide) (by decide) (by decide) (by decide)
  refine (alt_error (bind_error (sign_error rfl hb ?_))).trans
    ((alt_error (bind_error (bind_error this))).trans alt_nil)
  rcases hc with rfl | rfl | rfl <;> decide

theorem typeInv : ∀ n, TypeInv (grammar n) n
  | 0 => ⟨fun _ => rfl, fun _ _ _ _ _ _ h => absurd h (by omega), fun _ _ h => absurd h (by omega)⟩
  | n + 1 =>
    ⟨skips_type _, fun _ _ _ h hs hr hn => type_ok (typeInv n) h hs hr (by omega),
      fun _ h _ => type_error h⟩

end Verif.Grammar
