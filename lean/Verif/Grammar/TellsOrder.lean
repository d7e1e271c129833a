import Verif.Grammar.TellsModules

/-! When comments stay in order, and when there are none at ends of lines. -/

namespace Verif.Grammar

/-! ## Function literals of a module -/

mutual

/-- The function literals of an expression: the node and the arguments of each. -/
def lambdasOf (p : Path) : Expr → List (Path × List (Name × Ty))
  | .binary _ a b => lambdasOf (0 :: p) a ++ lambdasOf (1 :: p) b
  | .call f as => lambdasOf (0 :: p) f ++ lambdasOfAll p 1 as
  | .if_ bs e => lambdasOfBranches p 1 bs ++ lambdasOfBlock (0 :: p) e
  | .ifList e _ _ t f => lambdasOf (0 :: p) e ++ (lambdasOfBlock (1 :: p) t ++ lambdasOfBlock (2 :: p) f)
  | .ifMap _ m k t f => lambdasOf (0 :: p) m ++ (lambdasOf (1 :: p) k ++
      (lambdasOfBlock (2 :: p) t ++ lambdasOfBlock (3 :: p) f))
  | .ifType _ e bs f => lambdasOf (0 :: p) e ++ (lambdasOfTypeBranches p 2 bs ++ lambdasOfElse (1 :: p) f)
  | .lambda as _ b => (p, as) :: lambdasOfBlock (1 :: p) b
  | .list _ es => lambdasOfListElements p 1 es
  | .comprehension _ e bs => lambdasOf (1 :: p) e ++ lambdasOfCompBranches p 2 bs
  | .map _ _ es => lambdasOfMapElements p 2 es
  | .number _ => []
  | .record _ r fs => lambdasOfOption (0 :: p) r ++ lambdasOfFields p 1 fs
  | .field r _ => lambdasOf (0 :: p) r
  | .string _ => []
  | .unary _ e => lambdasOf (0 :: p) e
  | .variable _ => []

def lambdasOfAll (p : Path) (i : Nat) : List Expr → List (Path × List (Name × Ty))
  | [] => []
  | e :: es => lambdasOf (i :: p) e ++ lambdasOfAll p (i + 1) es

def lambdasOfBranches (p : Path) (i : Nat) : List Branch → List (Path × List (Name × Ty))
  | [] => []
  | .mk c b :: bs => lambdasOf (0 :: i :: p) c ++
      (lambdasOfBlock (1 :: i :: p) b ++ lambdasOfBranches p (i + 1) bs)

def lambdasOfTypeBranches (p : Path) (i : Nat) : List TypeBranch → List (Path × List (Name × Ty))
  | [] => []
  | .mk _ b :: bs => lambdasOfBlock (1 :: i :: p) b ++ lambdasOfTypeBranches p (i + 1) bs

def lambdasOfElse (p : Path) : Option Block → List (Path × List (Name × Ty))
  | none => []
  | some b => lambdasOfBlock p b

def lambdasOfBlock (p : Path) : Block → List (Path × List (Name × Ty))
  | .mk ss e => lambdasOfStatements p 1 ss ++ lambdasOf (0 :: p) e

def lambdasOfStatements (p : Path) (i : Nat) : List Statement → List (Path × List (Name × Ty))
  | [] => []
  | .mk _ e :: ss => lambdasOf (0 :: i :: p) e ++ lambdasOfStatements p (i + 1) ss

def lambdasOfListElements (p : Path) (i : Nat) : List ListElement → List (Path × List (Name × Ty))
  | [] => []
  | .multiple e :: es => lambdasOf (i :: p) e ++ lambdasOfListElements p (i + 1) es
  | .single e :: es => lambdasOf (i :: p) e ++ lambdasOfListElements p (i + 1) es

def lambdasOfMapElements (p : Path) (i : Nat) : List MapElement → List (Path × List (Name × Ty))
  | [] => []
  | .multiple e :: es => lambdasOf (i :: p) e ++ lambdasOfMapElements p (i + 1) es
  | .entry k v :: es => lambdasOf (0 :: i :: p) k ++
      (lambdasOf (1 :: i :: p) v ++ lambdasOfMapElements p (i + 1) es)

def lambdasOfOption (p : Path) : Option Expr → List (Path × List (Name × Ty))
  | none => []
  | some e => lambdasOf p e

def lambdasOfFields (p : Path) (i : Nat) : List Field → List (Path × List (Name × Ty))
  | [] => []
  | .mk _ e :: fs => lambdasOf (0 :: i :: p) e ++ lambdasOfFields p (i + 1) fs

def lambdasOfCompBranches (p : Path) (i : Nat) : List CompBranch → List (Path × List (Name × Ty))
  | [] => []
  | .mk _ es c :: bs => lambdasOfIteratees (i :: p) 1 es ++
      (lambdasOfOption (0 :: i :: p) c ++ lambdasOfCompBranches p (i + 1) bs)

def lambdasOfIteratees (p : Path) (i : Nat) : List Expr → List (Path × List (Name × Ty))
  | [] => []
  | e :: es => lambdasOf (i :: p) e ++ lambdasOfIteratees p (i + 1) es

end

/-- The function literals of a module. -/
def Module.lambdas (m : Module) : List (Path × List (Name × Ty)) :=
  ((numbered [3] 0 m.functions).map fun d => lambdasOf (0 :: d.2) d.1.lambda.expression).flatten

/-- Every function literal with arguments has the first of them on another line than its `\`. -/
def Spread (l : Layout) (m : Module) : Prop :=
  ∀ x ∈ m.lambdas, x.2 = [] ∨ l.line (2 :: x.1) ≠ l.line x.1

/-! ## Documents of a kind -/

/-- A kind of documents that the formatter makes, for the comments of a kind. -/
structure Rules (l : Layout) (G : List Comment → Prop) (Q : Doc → Prop)
    (S : Path → List (Name × Ty) → Prop) : Prop where
  tail : ∀ {cs ds : List Comment}, G cs → ds <:+ cs → G ds
  empty : Q .empty
  str : ∀ t, Q (.str t)
  line : Q .line
  seq : ∀ {a b}, Q a → Q b → Q (.seq a b)
  indent : ∀ {d}, Q d → Q (.indent d)
  broken : ∀ {d}, Q d → Q (.brk true d)
  flat : ∀ {d : Doc}, Q d → d.isBroken = false → Q (.brk false d)
  suffix : ∀ (p : Path) {cs ds : List Comment}, G cs →
    ds <:+ cs.dropWhile (fun c => c.line < l.line p) → Q ((suffixComment (l.line p)) ds).1
  arguments : ∀ (p : Path) {as : List (Name × Ty)} {ds : List Doc}, S p as → (∀ d ∈ ds, Q d) →
    (as = [] → ds = []) → Q (enclosed (argumentsFlat l p as) (.cat (Doc.intersperse separator ds)))

/-- The formatter takes comments from the front, and what it makes has this property. -/
def Does {α : Type} (G : List Comment → Prop) (f : F α) (P : α → Prop) : Prop :=
  ∀ cs, G cs → (f cs).2 <:+ cs ∧ P (f cs).1

/-- Documents of elements. -/
def Docs {α : Type} (Q : Doc → Prop) (as : List α) (ds : List Doc) : Prop :=
  (∀ d ∈ ds, Q d) ∧ (as = [] → ds = [])

section
variable {l : Layout} {G : List Comment → Prop} {Q : Doc → Prop} {S : Path → List (Name × Ty) → Prop}

theorem Does.pure {α : Type} {a : α} {P : α → Prop} (h : P a) : Does G (Pure.pure a) P :=
  fun _ _ => ⟨List.suffix_refl _, h⟩

theorem Does.bind (R : Rules l G Q S) {α β : Type} {f : F α} {g : α → F β} {P : α → Prop}
    {P' : β → Prop} (hf : Does G f P) (hg : ∀ a, P a → Does G (g a) P') : Does G (f >>= g) P' := by
  intro cs hcs
  obtain ⟨h1, h2⟩ := hf cs hcs
  obtain ⟨h3, h4⟩ := hg _ h2 (f cs).2 (R.tail hcs h1)
  exact ⟨h3.trans h1, h4⟩

theorem Does.mono {α : Type} {f : F α} {P P' : α → Prop} (hf : Does G f P) (h : ∀ a, P a → P' a) :
    Does G f P' := fun cs hcs => ⟨(hf cs hcs).1, h _ (hf cs hcs).2⟩

theorem Rules.cat (R : Rules l G Q S) : ∀ {ds : List Doc}, (∀ d ∈ ds, Q d) → Q (.cat ds)
  | [], _ => R.empty
  | _ :: _, h => R.seq (h _ List.mem_cons_self) (Rules.cat R fun d hd => h d (List.mem_cons_of_mem _ hd))

theorem intersperse_mem {s : Doc} : ∀ {ds : List Doc}, ∀ d ∈ Doc.intersperse s ds, d = s ∨ d ∈ ds
  | [], d, h => by cases h
  | [_], d, h => .inr h
  | a :: b :: ds, d, h => by
    rcases List.mem_cons.mp h with rfl | h
    · simp
    · rcases List.mem_cons.mp h with rfl | h
      · exact .inl rfl
      · rcases intersperse_mem d h with h | h
        · exact .inl h
        · exact .inr (List.mem_cons_of_mem _ h)

theorem Rules.join (R : Rules l G Q S) {s : Doc} {ds : List Doc} (hs : Q s) (h : ∀ d ∈ ds, Q d) :
    Q (.cat (Doc.intersperse s ds)) := R.cat fun d hd => by
  rcases intersperse_mem d hd with rfl | hd
  · exact hs
  · exact h d hd

theorem ite_kind {a b : Doc} {c : Prop} [Decidable c] (ha : Q a) (hb : Q b) :
    Q (if c then a else b) := by
  by_cases h : c <;> simp [h, ha, hb]

theorem Rules.separator (R : Rules l G Q S) : Q separator := R.seq (R.str _) (R.seq R.line R.empty)

theorem Rules.flattenIf (R : Rules l G Q S) {d : Doc} (h : Q d) (o c : Bool) :
    Q (Doc.flattenIf o c d) := by
  unfold Doc.flattenIf
  split
  · rename_i hc
    simp only [Bool.and_eq_true, Bool.not_eq_true'] at hc
    exact R.flat h hc.2
  · split
    · exact R.broken h
    · exact h

theorem Rules.paren (R : Rules l G Q S) {d : Doc} (h : Q d) (b : Bool) : Q (parenDoc b d) := by
  unfold parenDoc
  split
  · exact R.seq (R.str _) (R.seq h (R.seq (R.str _) R.empty))
  · exact h

theorem cat_nil_flat {s : Doc} : (Doc.cat (Doc.intersperse s [])).isBroken = false := rfl

/-- Elements that are flat if there are none, or if nothing is broken. -/
theorem flat_ok {α : Type} {as : List α} {ds : List Doc} {s : Doc} {b : Bool} (h : as = [] → ds = [])
    (hf : (as.isEmpty || (b && !(Doc.cat (Doc.intersperse s ds)).isBroken)) = true) :
    (Doc.cat (Doc.intersperse s ds)).isBroken = false := by
  simp only [Bool.or_eq_true, Bool.and_eq_true, Bool.not_eq_true', List.isEmpty_iff] at hf
  rcases hf with hf | hf
  · rw [h hf]
    rfl
  · exact hf.2

theorem Rules.enclosed (R : Rules l G Q S) {d : Doc} {b : Bool} (h : Q d)
    (hb : b = true → d.isBroken = false) : Q (enclosed b d) := by
  unfold Verif.Grammar.enclosed
  split
  · exact R.flat h (hb ‹_›)
  · exact R.broken (R.seq (R.indent (R.seq R.line (R.seq h R.empty))) (R.seq R.separator R.empty))

theorem Rules.listed (R : Rules l G Q S) {d : Doc} {b : Bool} (h : Q d)
    (hb : b = true → d.isBroken = false) : Q (listed b d) := by
  unfold Verif.Grammar.listed
  split
  · exact R.flat h (hb ‹_›)
  · exact R.broken (R.seq (R.indent h) (R.seq (R.str _) (R.seq R.line R.empty)))

/-! ## Types -/

theorem Rules.unionDocs (R : Rules l G Q S) : ∀ {ms : List (Bool × Nat × Doc)},
    (∀ m ∈ ms, Q m.2.2) → ∀ d ∈ unionDocs ms, Q d
  | [], _, d, hd => by cases hd
  | [(_, _, x)], h, d, hd => by
    rw [List.mem_singleton.mp hd]
    exact h _ (List.mem_singleton.mpr rfl)
  | (f, _, x) :: m :: ms, h, d, hd => by
    rcases List.mem_cons.mp hd with rfl | hd
    · exact R.paren (h _ List.mem_cons_self) f
    · rcases List.mem_cons.mp hd with rfl | hd
      · exact R.seq (R.str _) (R.seq R.line R.empty)
      · exact Rules.unionDocs R (fun m hm => h m (List.mem_cons_of_mem _ hm)) d hd

theorem Rules.unionDoc (R : Rules l G Q S) {ms : List (Bool × Nat × Doc)} (h : ∀ m ∈ ms, Q m.2.2) :
    Q (unionDoc ms) := by
  have hc : Q (Doc.cat (Verif.Grammar.unionDocs ms)) := R.cat (R.unionDocs h)
  unfold Verif.Grammar.unionDoc
  split
  · exact h _ (List.mem_singleton.mpr rfl)
  · simp only
    split
    · rename_i hb
      simp only [Bool.and_eq_true, Bool.not_eq_true'] at hb
      exact R.flat hc hb.2
    · exact R.broken hc

mutual

theorem Rules.memberDocs (R : Rules l G Q S) (l' : Layout) : ∀ (t : Ty) (p : Path),
    ∀ m ∈ memberDocs l' p t, Q m.2.2
  | .function as r, p, m, hm => by
    rw [Verif.Grammar.memberDocs, List.mem_singleton] at hm
    subst hm
    exact R.seq (R.str _) (R.seq (R.join (R.str _) (Rules.typeDocs R l' as p 1)) (R.seq (R.str _)
      (R.seq (R.unionDoc (Rules.memberDocs R l' r (0 :: p))) R.empty)))
  | .list t, p, m, hm => by
    rw [Verif.Grammar.memberDocs, List.mem_singleton] at hm
    subst hm
    exact R.seq (R.str _) (R.seq (R.unionDoc (Rules.memberDocs R l' t (0 :: p)))
      (R.seq (R.str _) R.empty))
  | .map k v, p, m, hm => by
    rw [Verif.Grammar.memberDocs, List.mem_singleton] at hm
    subst hm
    exact R.seq (R.str _) (R.seq (R.unionDoc (Rules.memberDocs R l' k (0 :: p)))
      (R.seq (R.str _) (R.seq (R.unionDoc (Rules.memberDocs R l' v (1 :: p)))
      (R.seq (R.str _) R.empty))))
  | .reference x, p, m, hm => by
    rw [Verif.Grammar.memberDocs, List.mem_singleton] at hm
    subst hm
    exact R.str _
  | .union a b, p, m, hm => by
    rw [Verif.Grammar.memberDocs] at hm
    rcases List.mem_append.mp hm with hm | hm
    · exact Rules.memberDocs R l' a _ m hm
    · exact Rules.memberDocs R l' b _ m hm

theorem Rules.typeDocs (R : Rules l G Q S) (l' : Layout) : ∀ (ts : List Ty) (p : Path) (i : Nat),
    ∀ d ∈ typeDocs l' p i ts, Q d
  | [], _, _, d, hd => by rw [Verif.Grammar.typeDocs] at hd; cases hd
  | t :: ts, p, i, d, hd => by
    rw [Verif.Grammar.typeDocs] at hd
    rcases List.mem_cons.mp hd with rfl | hd
    · exact R.unionDoc (Rules.memberDocs R l' t (i :: p))
    · exact Rules.typeDocs R l' ts p (i + 1) d hd

end

theorem Rules.typeDoc (R : Rules l G Q S) (p : Path) (t : Ty) : Q (typeDoc l p t) :=
  R.unionDoc (R.memberDocs l t p)

/-! ## Comments -/

theorem Rules.allComments (R : Rules l G Q S) : ∀ (cs : List Comment) (n : Nat),
    ∀ d ∈ allComments cs n, Q d
  | [], _, d, hd => by cases hd
  | c :: cs, n, d, hd => by
    unfold Verif.Grammar.allComments at hd
    rcases List.mem_cons.mp hd with rfl | hd
    · refine R.seq (R.str _) (R.seq (R.str _) (R.seq (R.broken R.line) (R.seq ?_ R.empty)))
      split
      · split
        · exact R.line
        · exact R.empty
      · split
        · exact R.line
        · exact R.empty
    · exact Rules.allComments R cs n d hd

theorem Rules.blockComment (R : Rules l G Q S) (n : Nat) : Does G (blockComment n) Q :=
  fun _ _ => ⟨List.dropWhile_suffix _, R.cat (R.allComments _ _)⟩

theorem Rules.remaining (R : Rules l G Q S) : Does G remainingComment Q :=
  fun _ _ => ⟨List.nil_suffix, R.cat (R.allComments _ _)⟩

/-- A document between a block comment and the comments at the end of its line. -/
theorem Rules.around (R : Rules l G Q S) (p : Path) {α : Type} {f : F Doc} {k : Doc → Doc → Doc → F α}
    {P : α → Prop} (hf : Does G f Q) (hk : ∀ b d s, Q b → Q d → Q s → Does G (k b d s) P) :
    Does G (do
      let b ← Verif.Grammar.blockComment (l.line p)
      let d ← f
      let s ← suffixComment (l.line p)
      k b d s) P := by
  intro cs hcs
  have hb := R.blockComment (l.line p) cs hcs
  have g1 := R.tail hcs hb.1
  have hd := hf _ g1
  have g2 := R.tail g1 hd.1
  have hs : (suffixComment (l.line p) (f ((Verif.Grammar.blockComment (l.line p)) cs).2).2).2 <:+
      (f ((Verif.Grammar.blockComment (l.line p)) cs).2).2 := List.dropWhile_suffix _
  have hq : Q (suffixComment (l.line p) (f ((Verif.Grammar.blockComment (l.line p)) cs).2).2).1 :=
    R.suffix p hcs hd.1
  have h := hk _ _ _ hb.2 hd.2 hq _ (R.tail g2 hs)
  exact ⟨h.1.trans (hs.trans (hd.1.trans hb.1)), h.2⟩

theorem Rules.lineComment (R : Rules l G Q S) (p : Path) {f : F Doc} (hf : Does G f Q) :
    Does G (lineComment (l.line p) f) Q :=
  R.around p hf fun _ _ _ hb hd hs => .pure (R.seq hb (R.seq hd (R.seq hs R.empty)))

/-! ## Expressions -/

theorem Rules.argumentDocs (R : Rules l G Q S) (p : Path) : ∀ (as : List (Name × Ty)) (i : Nat),
    Does G (argumentDocs l p i as) (Docs Q as)
  | [], _ => .pure ⟨by simp, fun _ => rfl⟩
  | a :: as, i => by
    rw [Verif.Grammar.argumentDocs]
    refine Does.bind R (R.lineComment (i :: p) (.pure (R.seq (R.str _) (R.seq (R.str _)
      (R.seq (R.typeDoc _ _) R.empty))))) fun d hd =>
      Does.bind R (Rules.argumentDocs R p as (i + 1)) fun ds hds => .pure ⟨?_, by simp⟩
    intro x hx
    rcases List.mem_cons.mp hx with rfl | hx
    · exact hd
    · exact hds.1 x hx

theorem Rules.signature (R : Rules l G Q S) (p : Path) (as : List (Name × Ty)) (t : Ty)
    (h : S p as) : Does G (signature l p as t) Q :=
  Does.bind R (R.argumentDocs p as 2) fun ds hds => .pure
    (R.seq (R.str _) (R.seq (R.arguments p h hds.1 hds.2) (R.seq (R.str _)
      (R.seq (R.typeDoc _ _) R.empty))))

theorem docs_cons {α : Type} {a : α} {as : List α} {d : Doc} {ds : List Doc} (hd : Q d)
    {bs : List α} (hds : Docs Q bs ds) : Docs Q (a :: as) (d :: ds) := by
  refine ⟨fun x hx => ?_, by simp⟩
  rcases List.mem_cons.mp hx with rfl | hx
  · exact hd
  · exact hds.1 x hx

/-- All function literals of a list are fine. -/
def Fine (S : Path → List (Name × Ty) → Prop) (xs : List (Path × List (Name × Ty))) : Prop :=
  ∀ x ∈ xs, S x.1 x.2

theorem fine_append {xs ys : List (Path × List (Name × Ty))} (h : Fine S (xs ++ ys)) :
    Fine S xs ∧ Fine S ys :=
  ⟨fun x hx => h x (List.mem_append_left _ hx), fun x hx => h x (List.mem_append_right _ hx)⟩

mutual

theorem Rules.compile (R : Rules l G Q S) : ∀ (e : Expr) (p : Path), Fine S (lambdasOf p e) →
    Does G (compile l p e) Q
  | .binary o a b, p, h => by
    rw [lambdasOf] at h
    obtain ⟨h1, h2⟩ := fine_append h
    rw [Verif.Grammar.compile]
    exact Does.bind R (Rules.compile R a _ h1) fun x hx => Does.bind R (Rules.compile R b _ h2) fun y hy =>
      .pure (R.flattenIf (R.seq (R.paren hx _) (R.seq (R.indent (R.seq R.line (R.seq (R.str _)
        (R.seq (R.str _) (R.seq (R.paren hy _) R.empty))))) R.empty)) _ _)
  | .call f as, p, h => by
    rw [lambdasOf] at h
    obtain ⟨h1, h2⟩ := fine_append h
    rw [Verif.Grammar.compile]
    exact Does.bind R (Rules.compile R f _ h1) fun x hx =>
      Does.bind R (Rules.compileAll R as p 1 h2) fun ds hds =>
      .pure (R.seq hx (R.seq (R.str _) (R.seq (R.enclosed (R.join R.separator hds.1) (flat_ok hds.2))
        (R.seq (R.str _) R.empty))))
  | .if_ bs e, p, h => by
    rw [lambdasOf] at h
    obtain ⟨h1, h2⟩ := fine_append h
    rw [Verif.Grammar.compile]
    exact Does.bind R (Rules.compileBranches R bs p 1 h1) fun x hx =>
      Does.bind R (Rules.compileBlock R e _ h2) fun y hy =>
      .pure (R.flattenIf (R.seq hx (R.seq hy R.empty)) _ _)
  | .ifList e x y t f, p, h => by
    rw [lambdasOf] at h
    obtain ⟨h1, h⟩ := fine_append h
    obtain ⟨h2, h3⟩ := fine_append h
    rw [Verif.Grammar.compile]
    exact Does.bind R (Rules.compile R e _ h1) fun d hd =>
      Does.bind R (Rules.compileBlock R t _ h2) fun a ha =>
      Does.bind R (Rules.compileBlock R f _ h3) fun b hb =>
      .pure (R.seq (R.str _) (R.seq hd (R.seq (R.str _) (R.seq ha (R.seq (R.str _) (R.seq hb R.empty))))))
  | .ifMap x m k t f, p, h => by
    rw [lambdasOf] at h
    obtain ⟨h1, h⟩ := fine_append h
    obtain ⟨h2, h⟩ := fine_append h
    obtain ⟨h3, h4⟩ := fine_append h
    rw [Verif.Grammar.compile]
    exact Does.bind R (Rules.compile R m _ h1) fun d hd =>
      Does.bind R (Rules.compile R k _ h2) fun e he =>
      Does.bind R (Rules.compileBlock R t _ h3) fun a ha =>
      Does.bind R (Rules.compileBlock R f _ h4) fun b hb =>
      .pure (R.seq (R.str _) (R.seq hd (R.seq (R.str _) (R.seq he (R.seq (R.str _) (R.seq ha
        (R.seq (R.str _) (R.seq hb R.empty))))))))
  | .ifType x e bs f, p, h => by
    rw [lambdasOf] at h
    obtain ⟨h1, h⟩ := fine_append h
    obtain ⟨h2, h3⟩ := fine_append h
    rw [Verif.Grammar.compile]
    exact Does.bind R (Rules.compile R e _ h1) fun d hd =>
      Does.bind R (Rules.compileTypeBranches R bs p 2 h2) fun ds hds =>
      Does.bind R (Rules.compileElse R f _ h3) fun g hg =>
      .pure (R.flattenIf (R.seq (R.str _) (R.seq (R.str _) (R.seq (R.str _) (R.seq hd (R.seq (R.str _)
        (R.seq (R.join (R.str _) hds) (R.seq hg R.empty))))))) _ _)
  | .lambda as t b, p, h => by
    rw [lambdasOf] at h
    rw [Verif.Grammar.compile]
    exact Does.bind R (R.signature p as t (h _ List.mem_cons_self)) fun s hs =>
      Does.bind R (Rules.compileBlock R b _ fun x hx => h x (List.mem_cons_of_mem _ hx)) fun d hd =>
      .pure (R.seq hs (R.seq (R.str _) (R.seq (R.flattenIf hd _ _) R.empty)))
  | .list t es, p, h => by
    rw [lambdasOf] at h
    rw [Verif.Grammar.compile]
    exact Does.bind R (Rules.compileListElements R es p 1 h) fun ds hds =>
      .pure (R.seq (R.str _) (R.seq (R.typeDoc _ _) (R.seq (R.listed (R.join (R.str _) hds.1)
        (flat_ok hds.2)) (R.seq (R.str _) R.empty))))
  | .comprehension t e bs, p, h => by
    rw [lambdasOf] at h
    obtain ⟨h1, h2⟩ := fine_append h
    rw [Verif.Grammar.compile]
    refine Does.bind R (R.lineComment (1 :: p) (Rules.compile R e _ h1)) fun d hd =>
      Does.bind R (Rules.compileCompBranches R bs p 2 h2) fun ds hds =>
      .pure (R.seq (R.str _) (R.seq (R.typeDoc _ _) (R.seq ?_ (R.seq (R.str _) R.empty))))
    have he : Q (Doc.cat [.line, d, .line, .cat (Doc.intersperse .line ds)]) :=
      R.seq R.line (R.seq hd (R.seq R.line (R.seq (R.join R.line hds) R.empty)))
    split
    · rename_i hb
      simp only [Bool.and_eq_true, Bool.not_eq_true'] at hb
      exact R.flat he hb.2
    · exact R.broken (R.seq (R.indent he) (R.seq R.line R.empty))
  | .map k v es, p, h => by
    rw [lambdasOf] at h
    rw [Verif.Grammar.compile]
    exact Does.bind R (Rules.compileMapElements R es p 2 h) fun ds hds =>
      .pure (R.seq (R.str _) (R.seq (R.typeDoc _ _) (R.seq (R.str _) (R.seq (R.typeDoc _ _)
        (R.seq (R.listed (R.join (R.str _) hds.1) (flat_ok hds.2)) (R.seq (R.str _) R.empty))))))
  | .number n, p, _ => by
    rw [Verif.Grammar.compile]
    exact .pure (R.str _)
  | .record x r fs, p, h => by
    rw [lambdasOf] at h
    obtain ⟨h1, h2⟩ := fine_append h
    rw [Verif.Grammar.compile]
    refine Does.bind R (Rules.compileRecord R r _ h1) fun rs hrs =>
      Does.bind R (Rules.compileFields R fs p 1 h2) fun ds hds =>
      .pure (R.seq (R.str _) (R.seq (R.str _) (R.seq (R.enclosed (R.join R.separator ?_) ?_)
        (R.seq (R.str _) R.empty))))
    · intro d hd
      rcases List.mem_append.mp hd with hd | hd
      · exact hrs.1 d hd
      · exact hds.1 d hd
    · intro hb
      simp only [Bool.or_eq_true, Bool.and_eq_true, Bool.not_eq_true', List.isEmpty_iff,
        Option.isNone_iff_eq_none] at hb
      rcases hb with hb | hb
      · rw [hrs.2 hb.1, hds.2 hb.2]
        rfl
      · exact hb.2
  | .field r x, p, h => by
    rw [lambdasOf] at h
    rw [Verif.Grammar.compile]
    exact Does.bind R (Rules.compile R r _ h) fun d hd =>
      .pure (R.seq hd (R.seq (R.str _) (R.seq (R.str _) R.empty)))
  | .string s, p, _ => by
    rw [Verif.Grammar.compile]
    exact .pure (R.str _)
  | .unary .not e, p, h => by
    rw [lambdasOf] at h
    rw [Verif.Grammar.compile]
    exact Does.bind R (Rules.compile R e _ h) fun d hd =>
      .pure (R.seq (R.str _) (R.seq (R.paren hd _) R.empty))
  | .unary .try_ e, p, h => by
    rw [lambdasOf] at h
    rw [Verif.Grammar.compile]
    exact Does.bind R (Rules.compile R e _ h) fun d hd =>
      .pure (R.seq (R.paren hd _) (R.seq (R.str _) R.empty))
  | .variable x, p, _ => by
    rw [Verif.Grammar.compile]
    exact .pure (R.str _)

theorem Rules.compileAll (R : Rules l G Q S) : ∀ (es : List Expr) (p : Path) (i : Nat),
    Fine S (lambdasOfAll p i es) → Does G (compileAll l p i es) (Docs Q es)
  | [], _, _, _ => by
    rw [Verif.Grammar.compileAll]
    exact .pure ⟨by simp, fun _ => rfl⟩
  | e :: es, p, i, h => by
    rw [lambdasOfAll] at h
    obtain ⟨h1, h2⟩ := fine_append h
    rw [Verif.Grammar.compileAll]
    exact Does.bind R (R.lineComment (i :: p) (Rules.compile R e _ h1)) fun d hd =>
      Does.bind R (Rules.compileAll R es p (i + 1) h2) fun ds hds => .pure (docs_cons hd hds)

theorem Rules.compileBranches (R : Rules l G Q S) : ∀ (bs : List Branch) (p : Path) (i : Nat),
    Fine S (lambdasOfBranches p i bs) → Does G (compileBranches l p i bs) Q
  | [], _, _, _ => by
    rw [Verif.Grammar.compileBranches]
    exact .pure R.empty
  | .mk c b :: bs, p, i, h => by
    rw [lambdasOfBranches] at h
    obtain ⟨h1, h⟩ := fine_append h
    obtain ⟨h2, h3⟩ := fine_append h
    rw [Verif.Grammar.compileBranches]
    exact Does.bind R (Rules.compile R c _ h1) fun x hx =>
      Does.bind R (Rules.compileBlock R b _ h2) fun y hy =>
      Does.bind R (Rules.compileBranches R bs p (i + 1) h3) fun z hz =>
      .pure (R.seq (R.seq (R.str _) (R.seq hx (R.seq (R.str _) (R.seq hy (R.seq (R.str _) R.empty)))))
        (R.seq hz R.empty))

theorem Rules.compileTypeBranches (R : Rules l G Q S) : ∀ (bs : List TypeBranch) (p : Path) (i : Nat),
    Fine S (lambdasOfTypeBranches p i bs) →
    Does G (compileTypeBranches l p i bs) fun ds => ∀ d ∈ ds, Q d
  | [], _, _, _ => by
    rw [Verif.Grammar.compileTypeBranches]
    exact .pure (by simp)
  | .mk t b :: bs, p, i, h => by
    rw [lambdasOfTypeBranches] at h
    obtain ⟨h1, h2⟩ := fine_append h
    rw [Verif.Grammar.compileTypeBranches]
    refine Does.bind R (Rules.compileBlock R b _ h1) fun d hd =>
      Does.bind R (Rules.compileTypeBranches R bs p (i + 1) h2) fun ds hds => .pure fun x hx => ?_
    rcases List.mem_cons.mp hx with rfl | hx
    · exact R.seq (R.typeDoc _ _) (R.seq (R.str _) (R.seq hd R.empty))
    · exact hds x hx

theorem Rules.compileElse (R : Rules l G Q S) : ∀ (b : Option Block) (p : Path),
    Fine S (lambdasOfElse p b) → Does G (compileElse l p b) Q
  | none, _, _ => by
    rw [Verif.Grammar.compileElse]
    exact .pure R.empty
  | some b, p, h => by
    rw [lambdasOfElse] at h
    rw [Verif.Grammar.compileElse]
    exact Does.bind R (Rules.compileBlock R b _ h) fun d hd =>
      .pure (R.seq (R.str _) (R.seq hd R.empty))

theorem Rules.compileBlock (R : Rules l G Q S) : ∀ (b : Block) (p : Path),
    Fine S (lambdasOfBlock p b) → Does G (compileBlock l p b) Q
  | .mk ss e, p, h => by
    rw [lambdasOfBlock] at h
    obtain ⟨h1, h2⟩ := fine_append h
    rw [Verif.Grammar.compileBlock]
    exact Does.bind R (Rules.compileStatements R ss p 1 h1) fun x hx =>
      Does.bind R (R.lineComment (0 :: p) (Rules.compile R e _ h2)) fun y hy =>
      .pure (R.seq (R.str _) (R.seq (R.indent (R.seq R.line (R.seq hx (R.seq hy R.empty))))
        (R.seq R.line (R.seq (R.str _) R.empty))))

theorem Rules.compileStatements (R : Rules l G Q S) : ∀ (ss : List Statement) (p : Path) (i : Nat),
    Fine S (lambdasOfStatements p i ss) → Does G (compileStatements l p i ss) Q
  | [], _, _, _ => by
    rw [Verif.Grammar.compileStatements]
    exact .pure R.empty
  | .mk x e :: ss, p, i, h => by
    rw [lambdasOfStatements] at h
    obtain ⟨h1, h2⟩ := fine_append h
    unfold Verif.Grammar.compileStatements
    refine R.around (i :: p) (Rules.compile R e _ h1) fun b d s hb hd hs =>
      Does.bind R (P := fun _ => True) (fun _ _ => ⟨List.suffix_refl _, trivial⟩) fun cs _ =>
      Does.bind R (Rules.compileStatements R ss p (i + 1) h2) fun y hy =>
      .pure (R.seq (R.seq hb (R.seq (R.seq ?_ (R.seq hd (R.seq hs (R.seq (R.broken R.line) R.empty))))
        (R.seq ?_ R.empty))) (R.seq hy R.empty))
    · split
      · exact R.empty
      · exact R.str _
    · exact ite_kind R.empty R.line

theorem Rules.compileListElements (R : Rules l G Q S) : ∀ (es : List ListElement) (p : Path) (i : Nat),
    Fine S (lambdasOfListElements p i es) → Does G (compileListElements l p i es) (Docs Q es)
  | [], _, _, _ => by
    rw [Verif.Grammar.compileListElements]
    exact .pure ⟨by simp, fun _ => rfl⟩
  | .multiple e :: es, p, i, h => by
    rw [lambdasOfListElements] at h
    obtain ⟨h1, h2⟩ := fine_append h
    rw [Verif.Grammar.compileListElements]
    exact Does.bind R (R.lineComment (i :: p) (Does.bind R (Rules.compile R e _ h1) fun d hd =>
        .pure (R.seq (R.str _) (R.seq hd R.empty)))) fun d hd =>
      Does.bind R (Rules.compileListElements R es p (i + 1) h2) fun ds hds =>
      .pure (docs_cons (R.seq R.line (R.seq hd R.empty)) hds)
  | .single e :: es, p, i, h => by
    rw [lambdasOfListElements] at h
    obtain ⟨h1, h2⟩ := fine_append h
    rw [Verif.Grammar.compileListElements]
    exact Does.bind R (R.lineComment (i :: p) (Rules.compile R e _ h1)) fun d hd =>
      Does.bind R (Rules.compileListElements R es p (i + 1) h2) fun ds hds =>
      .pure (docs_cons (R.seq R.line (R.seq hd R.empty)) hds)

theorem Rules.compileMapElements (R : Rules l G Q S) : ∀ (es : List MapElement) (p : Path) (i : Nat),
    Fine S (lambdasOfMapElements p i es) → Does G (compileMapElements l p i es) (Docs Q es)
  | [], _, _, _ => by
    rw [Verif.Grammar.compileMapElements]
    exact .pure ⟨by simp, fun _ => rfl⟩
  | .multiple e :: es, p, i, h => by
    rw [lambdasOfMapElements] at h
    obtain ⟨h1, h2⟩ := fine_append h
    rw [Verif.Grammar.compileMapElements]
    exact Does.bind R (R.lineComment (i :: p) (Does.bind R (Rules.compile R e _ h1) fun d hd =>
        .pure (R.seq (R.str _) (R.seq hd R.empty)))) fun d hd =>
      Does.bind R (Rules.compileMapElements R es p (i + 1) h2) fun ds hds =>
      .pure (docs_cons (R.seq R.line (R.seq hd R.empty)) hds)
  | .entry k v :: es, p, i, h => by
    rw [lambdasOfMapElements] at h
    obtain ⟨h1, h⟩ := fine_append h
    obtain ⟨h2, h3⟩ := fine_append h
    rw [Verif.Grammar.compileMapElements]
    exact Does.bind R (R.lineComment (i :: p) (Does.bind R (Rules.compile R k _ h1) fun x hx =>
        Does.bind R (Rules.compile R v _ h2) fun y hy =>
        .pure (R.seq hx (R.seq (R.str _) (R.seq hy R.empty))))) fun d hd =>
      Does.bind R (Rules.compileMapElements R es p (i + 1) h3) fun ds hds =>
      .pure (docs_cons (R.seq R.line (R.seq hd R.empty)) hds)

theorem Rules.compileRecord (R : Rules l G Q S) : ∀ (r : Option Expr) (p : Path),
    Fine S (lambdasOfOption p r) → Does G (compileRecord l p r) fun ds =>
      (∀ d ∈ ds, Q d) ∧ (r = none → ds = [])
  | none, _, _ => by
    rw [Verif.Grammar.compileRecord]
    exact .pure ⟨by simp, fun _ => rfl⟩
  | some e, p, h => by
    rw [lambdasOfOption] at h
    rw [Verif.Grammar.compileRecord]
    refine Does.bind R (R.lineComment p (Does.bind R (Rules.compile R e _ h) fun d hd =>
        .pure (R.seq (R.str _) (R.seq hd R.empty)))) fun d hd => .pure ⟨fun x hx => ?_, by simp⟩
    rw [List.mem_singleton.mp hx]
    exact hd

theorem Rules.compileFields (R : Rules l G Q S) : ∀ (fs : List Field) (p : Path) (i : Nat),
    Fine S (lambdasOfFields p i fs) → Does G (compileFields l p i fs) (Docs Q fs)
  | [], _, _, _ => by
    rw [Verif.Grammar.compileFields]
    exact .pure ⟨by simp, fun _ => rfl⟩
  | .mk x e :: fs, p, i, h => by
    rw [lambdasOfFields] at h
    obtain ⟨h1, h2⟩ := fine_append h
    rw [Verif.Grammar.compileFields]
    exact Does.bind R (R.lineComment (i :: p) (Does.bind R (Rules.compile R e _ h1) fun d hd =>
        .pure (R.seq (R.str _) (R.seq (R.str _) (R.seq hd R.empty))))) fun d hd =>
      Does.bind R (Rules.compileFields R fs p (i + 1) h2) fun ds hds => .pure (docs_cons hd hds)

theorem Rules.compileCompBranches (R : Rules l G Q S) : ∀ (bs : List CompBranch) (p : Path) (i : Nat),
    Fine S (lambdasOfCompBranches p i bs) →
    Does G (compileCompBranches l p i bs) fun ds => ∀ d ∈ ds, Q d
  | [], _, _, _ => by
    rw [Verif.Grammar.compileCompBranches]
    exact .pure (by simp)
  | .mk xs es c :: bs, p, i, h => by
    rw [lambdasOfCompBranches] at h
    obtain ⟨h1, h⟩ := fine_append h
    obtain ⟨h2, h3⟩ := fine_append h
    rw [Verif.Grammar.compileCompBranches]
    refine Does.bind R (R.lineComment (i :: p) (Does.bind R (Rules.compileIteratees R es _ 1 h1)
        fun ds hds => Does.bind R (Rules.compileCondition R c _ h2) fun d hd =>
        .pure (R.seq (R.str _) (R.seq (R.join (R.str _) ?_) (R.seq (R.str _)
          (R.seq (R.join (R.str _) hds) (R.seq hd R.empty))))))) fun d hd =>
      Does.bind R (Rules.compileCompBranches R bs p (i + 1) h3) fun ds hds => .pure fun x hx => ?_
    · intro x hx
      obtain ⟨y, _, rfl⟩ := List.mem_map.mp hx
      exact R.str _
    · rcases List.mem_cons.mp hx with rfl | hx
      · exact hd
      · exact hds x hx

theorem Rules.compileIteratees (R : Rules l G Q S) : ∀ (es : List Expr) (p : Path) (i : Nat),
    Fine S (lambdasOfIteratees p i es) → Does G (compileIteratees l p i es) fun ds => ∀ d ∈ ds, Q d
  | [], _, _, _ => by
    rw [Verif.Grammar.compileIteratees]
    exact .pure (by simp)
  | e :: es, p, i, h => by
    rw [lambdasOfIteratees] at h
    obtain ⟨h1, h2⟩ := fine_append h
    rw [Verif.Grammar.compileIteratees]
    refine Does.bind R (Rules.compile R e _ h1) fun d hd =>
      Does.bind R (Rules.compileIteratees R es p (i + 1) h2) fun ds hds => .pure fun x hx => ?_
    rcases List.mem_cons.mp hx with rfl | hx
    · exact hd
    · exact hds x hx

theorem Rules.compileCondition (R : Rules l G Q S) : ∀ (e : Option Expr) (p : Path),
    Fine S (lambdasOfOption p e) → Does G (compileCondition l p e) Q
  | none, _, _ => by
    rw [Verif.Grammar.compileCondition]
    exact .pure R.empty
  | some e, p, h => by
    rw [lambdasOfOption] at h
    rw [Verif.Grammar.compileCondition]
    exact Does.bind R (Rules.compile R e _ h) fun d hd =>
      .pure (R.seq (R.str _) (R.seq hd R.empty))

end

/-! ## Modules -/

theorem Rules.mapDocs (R : Rules l G Q S) {α : Type} {f : α → F Doc} : ∀ (as : List α),
    (∀ a ∈ as, Does G (f a) Q) → Does G (mapDocs f as) fun ds => ∀ d ∈ ds, Q d
  | [], _ => .pure (by simp)
  | a :: as, h => by
    simp only [List.mem_cons, forall_eq_or_imp] at h
    refine Does.bind R h.1 fun d hd => Does.bind R (Rules.mapDocs R as h.2) fun ds hds =>
      .pure fun x hx => ?_
    rcases List.mem_cons.mp hx with rfl | hx
    · exact hd
    · exact hds x hx

theorem Rules.strs (R : Rules l G Q S) {s : Doc} (hs : Q s) (xs : List Name) :
    Q (.cat (Doc.intersperse s (xs.map .str))) := R.join hs fun d hd => by
  obtain ⟨y, _, rfl⟩ := List.mem_map.mp hd
  exact R.str _

theorem Rules.importDoc (R : Rules l G Q S) (i : Import × Path) : Does G (importDoc l i) Q := by
  refine Does.bind R (R.blockComment _) fun b hb => .pure (R.seq hb (R.seq (R.str _) (R.seq ?_
    (R.seq ?_ (R.seq ?_ (R.seq R.line R.empty))))))
  · cases i.1.path with
    | external p cs => exact R.seq (R.str _) (R.seq (R.str _) (R.seq (R.strs (R.str _) cs) R.empty))
    | internal cs => exact R.seq (R.str _) (R.seq (R.strs (R.str _) cs) R.empty)
  · split
    · exact R.empty
    · exact R.str _
  · split
    · exact R.empty
    · exact R.seq (R.str _) (R.seq (R.strs (R.str _) _) (R.seq (R.str _) R.empty))

theorem Rules.importsDoc (R : Rules l G Q S) (is : List (Import × Path)) : Does G (importsDoc l is) Q :=
  Does.bind R (R.mapDocs _ fun i _ => R.importDoc i) fun _ hds => .pure (R.cat hds)

theorem Rules.foreignImportDoc (R : Rules l G Q S) (i : ForeignImport × Path) :
    Does G (foreignImportDoc l i) Q := by
  refine Does.bind R (R.blockComment _) fun b hb => .pure (R.seq hb (R.seq (R.str _) (R.seq ?_
    (R.seq (R.str _) (R.seq (R.str _) (R.seq (R.str _) (R.seq (R.typeDoc _ _)
    (R.seq R.line R.empty))))))))
  split
  · exact R.str _
  · exact R.empty

theorem Rules.fieldDocs (R : Rules l G Q S) (p : Path) : ∀ (fs : List (Name × Ty)) (i : Nat),
    Does G (fieldDocs l p i fs) fun ds => ∀ d ∈ ds, Q d
  | [], _ => .pure (by simp)
  | f :: fs, i => by
    rw [Verif.Grammar.fieldDocs]
    refine Does.bind R (R.lineComment (i :: p) (.pure (R.seq (R.str _) (R.seq (R.str _)
      (R.seq (R.typeDoc _ _) R.empty))))) fun d hd =>
      Does.bind R (Rules.fieldDocs R p fs (i + 1)) fun ds hds => .pure fun x hx => ?_
    rcases List.mem_cons.mp hx with rfl | hx
    · exact R.seq R.line (R.seq hd R.empty)
    · exact hds x hx

theorem Rules.typeDefinitionDoc (R : Rules l G Q S) (d : TypeDefinition × Path) :
    Does G (typeDefinitionDoc l d) Q := by
  obtain ⟨d, p⟩ := d
  cases d with
  | record x fs =>
    refine Does.bind R (R.blockComment _) fun b hb => Does.bind R (R.fieldDocs p fs 0) fun ds hds =>
      .pure (R.seq hb (R.seq (R.str _) (R.seq (R.str _) (R.seq (R.str _) (R.seq ?_
      (R.seq (R.str _) (R.seq R.line R.empty)))))))
    split
    · exact R.empty
    · exact R.seq (R.indent (R.cat hds)) (R.seq R.line R.empty)
  | alias_ x t =>
    refine Does.bind R (R.blockComment _) fun b hb => .pure (R.seq hb (R.seq (R.str _)
      (R.seq (R.str _) (R.seq (R.str _) (R.seq ?_ (R.seq R.line R.empty))))))
    split
    · exact R.indent (R.seq R.line (R.seq (R.typeDoc _ _) R.empty))
    · exact R.seq (R.str _) (R.seq (R.typeDoc _ _) R.empty)

theorem Rules.functionDoc (R : Rules l G Q S) (d : FunctionDefinition × Path)
    (h : Fine S (lambdasOf (0 :: d.2) d.1.lambda.expression)) : Does G (functionDoc l d) Q := by
  refine Does.bind R (R.blockComment _) fun b hb => Does.bind R (R.compile _ _ h) fun e he =>
    .pure (R.seq hb (R.seq ?_ (R.seq (R.str _) (R.seq (R.str _) (R.seq he (R.seq R.line R.empty))))))
  split
  · exact R.empty
  · exact R.seq (R.str _) (R.seq (R.str _) R.empty)
  · exact R.seq (R.str _) (R.seq R.empty R.empty)

theorem Rules.addSection (R : Rules l G Q S) {a d : Doc} (ha : Q a) (hd : Q d) :
    Q (addSection a d) := by
  unfold Verif.Grammar.addSection
  split
  · exact ha
  · refine R.seq ?_ (R.seq hd R.empty)
    split
    · exact R.empty
    · exact R.seq ha (R.seq R.line R.empty)

theorem Rules.compileModule (R : Rules l G Q S) {m : Module} (h : Fine S m.lambdas) :
    Does G (compileModule l m) Q := by
  unfold Verif.Grammar.compileModule
  refine Does.bind R (R.importsDoc _) fun a ha => Does.bind R (R.importsDoc _) fun b hb =>
    Does.bind R (R.mapDocs _ fun i _ => R.foreignImportDoc i) fun c hc =>
    Does.bind R (R.mapDocs _ fun i _ => R.typeDefinitionDoc i) fun d hd =>
    Does.bind R (R.mapDocs _ fun i hi => R.functionDoc i ?_) fun e he =>
    Does.bind R R.remaining fun r hr => .pure
      (R.addSection (R.addSection (R.addSection (R.addSection (R.addSection (R.addSection R.empty ha) hb)
        (R.cat hc)) (R.join R.line hd)) (R.join R.line he)) hr)
  intro x hx
  exact h x (List.mem_flatten.mpr ⟨_, List.mem_map.mpr ⟨i, hi, rfl⟩, hx⟩)

end

/-! ## Comments in order -/

theorem tidyRules (l : Layout) : Rules l (fun _ => True) (fun d => d.tidy = true)
    fun p as => as = [] ∨ l.line (2 :: p) ≠ l.line p where
  tail _ _ := trivial
  empty := rfl
  str _ := rfl
  line := rfl
  seq ha hb := by simp [Doc.tidy, ha, hb]
  indent h := h
  broken h := by simpa [Doc.tidy] using h
  flat h hb := by simp [Doc.tidy, h, hb]
  suffix p cs ds _ _ := by
    show (Doc.cat (List.map _ _)).tidy = true
    generalize List.takeWhile _ ds = xs
    induction xs with
    | nil => rfl
    | cons c xs ih => simpa [Doc.tidy, Doc.cat] using ih
  arguments p as ds hs hd he := by
    have hcat : ∀ {ds : List Doc}, (∀ d ∈ ds, d.tidy = true) → (Doc.cat ds).tidy = true := by
      intro ds
      induction ds with
      | nil => intro _; rfl
      | cons d ds ih =>
        intro h
        simp only [List.mem_cons, forall_eq_or_imp] at h
        simp [Doc.tidy, Doc.cat, h.1, ih h.2]
    rcases hs with rfl | hs
    · rw [he rfl]
      rfl
    · cases as with
      | nil =>
        rw [he rfl]
        rfl
      | cons a as =>
        have hf : argumentsFlat l p (a :: as) = false := by
          simp [argumentsFlat, Ne.symm hs]
        have h2 : (Doc.cat (Doc.intersperse separator ds)).tidy = true := hcat fun d hd' => by
          rcases intersperse_mem d hd' with rfl | hd'
          · rfl
          · exact hd d hd'
        rw [hf]
        generalize Doc.cat (Doc.intersperse separator ds) = e at h2 ⊢
        simp [enclosed, Doc.tidy, Doc.cat, h2, separator]

/-- Comments that are sorted by their lines, none of which is on the line of a node. -/
def NotBeside (l : Layout) (cs : List Comment) : Prop :=
  cs.Pairwise (fun c d => c.line ≤ d.line) ∧ ∀ c ∈ cs, ∀ p, l.line p ≠ c.line

theorem apartRules (l : Layout) : Rules l (NotBeside l) (fun d => d.hasSuffix = false)
    fun _ _ => True where
  tail h hs := ⟨h.1.sublist hs.sublist, fun c hc => h.2 c (hs.subset hc)⟩
  empty := rfl
  str _ := rfl
  line := rfl
  seq ha hb := by simp [Doc.hasSuffix, ha, hb]
  indent h := h
  broken h := h
  flat h _ := h
  suffix p cs ds h hs := by
    show (Doc.cat (List.map _ (List.takeWhile _ ds))).hasSuffix = false
    have hge : ∀ c ∈ cs.dropWhile (fun c => c.line < l.line p), l.line p ≤ c.line := by
      have hp := h.1.sublist (List.dropWhile_sublist fun c => c.line < l.line p)
      cases hd : cs.dropWhile (fun c => c.line < l.line p) with
      | nil => simp
      | cons c r =>
        have hc : l.line p ≤ c.line := by
          have : ∀ {cs : List Comment}, cs.dropWhile (fun c => decide (c.line < l.line p)) = c :: r →
              ¬ c.line < l.line p := by
            intro cs
            induction cs with
            | nil => intro h; cases h
            | cons d cs ih =>
              intro h
              by_cases hdc : d.line < l.line p
              · rw [List.dropWhile_cons_of_pos (by simpa using hdc)] at h
                exact ih h
              · rw [List.dropWhile_cons_of_neg (by simpa using hdc)] at h
                cases h
                exact hdc
          have := this hd
          omega
        rw [hd] at hp
        intro x hx
        rcases List.mem_cons.mp hx with rfl | hx
        · exact hc
        · have := List.rel_of_pairwise_cons hp hx
          omega
    cases ds with
    | nil => rfl
    | cons c ds =>
      have hm := hs.subset List.mem_cons_self
      have h1 := hge c hm
      have h2 := h.2 c ((List.dropWhile_sublist _).subset hm) p
      rw [List.takeWhile_cons_of_neg (by simp; omega)]
      rfl
  arguments p as ds _ hd _ := by
    have hcat : ∀ {ds : List Doc}, (∀ d ∈ ds, d.hasSuffix = false) → (Doc.cat ds).hasSuffix = false := by
      intro ds
      induction ds with
      | nil => intro _; rfl
      | cons d ds ih =>
        intro h
        simp only [List.mem_cons, forall_eq_or_imp] at h
        simp [Doc.hasSuffix, Doc.cat, h.1, ih h.2]
    have h2 : (Doc.cat (Doc.intersperse separator ds)).hasSuffix = false := hcat fun d hd' => by
      rcases intersperse_mem d hd' with rfl | hd'
      · rfl
      · exact hd d hd'
    generalize Doc.cat (Doc.intersperse separator ds) = e at h2 ⊢
    unfold enclosed
    split <;> simp [Doc.hasSuffix, Doc.cat, h2, separator]

end Verif.Grammar
