import Verif.Doc.Model

/-
How a type or a signature is written depends on where its parts are only up to a shift of its lines.
-/

namespace Verif.Doc

open Verif.Grammar

/-- Two lines, of which one is moved: down by `b - a` lines. -/
def Moved (a b i j : Nat) : Prop := i + b = j + a

/-- The nodes below two nodes, of which one is moved as a whole. -/
def Near (a b : Nat) (l : Layout) (p : Path) (l' : Layout) (p' : Path) : Prop :=
  ∀ q, Moved a b (l.line (q ++ p)) (l'.line (q ++ p'))

theorem Near.below {a b : Nat} {l l' : Layout} {p p' : Path} (h : Near a b l p l' p') (i : Nat) :
    Near a b l (i :: p) l' (i :: p') := fun q => by simpa using h (q ++ [i])

theorem Near.here {a b : Nat} {l l' : Layout} {p p' : Path} (h : Near a b l p l' p') :
    Moved a b (l.line p) (l'.line p') := h []

theorem Moved.beq {a b i j i' j' : Nat} (h : Moved a b i i') (h' : Moved a b j j') : (i == j) = (i' == j') := by
  unfold Moved at h h'
  rw [Bool.eq_iff_iff, beq_iff_eq, beq_iff_eq]
  omega

/-- Members of unions that are written alike. -/
def SameMember (a b : Nat) (x y : Bool × Nat × Doc) : Prop := x.1 = y.1 ∧ Moved a b x.2.1 y.2.1 ∧ x.2.2 = y.2.2

theorem unionDocs_moved {a b : Nat} : ∀ {xs ys : List (Bool × Nat × Doc)}, List.Forall₂ (SameMember a b) xs ys →
    unionDocs xs = unionDocs ys
  | _, _, .nil => rfl
  | _, _, .cons (a := (f, n, d)) (b := (f', n', d')) h .nil => by
    obtain ⟨_, _, rfl⟩ := h
    rfl
  | _, _, .cons (a := (f, n, d)) (b := (f', n', d')) h (.cons h' hs) => by
    obtain ⟨rfl, _, rfl⟩ := h
    simp only [unionDocs]
    rw [unionDocs_moved (.cons h' hs)]

theorem sameLine_moved {a b : Nat} {xs ys : List (Bool × Nat × Doc)} (h : List.Forall₂ (SameMember a b) xs ys) :
    sameLine xs = sameLine ys := by
  cases h with
  | nil => rfl
  | cons h hs =>
    cases hs with
    | nil => rfl
    | cons h' hs => exact h.2.1.beq h'.2.1

theorem unionDoc_moved {a b : Nat} {xs ys : List (Bool × Nat × Doc)} (h : List.Forall₂ (SameMember a b) xs ys) :
    unionDoc xs = unionDoc ys := by
  have h1 := unionDocs_moved h
  have h2 := sameLine_moved h
  cases h with
  | nil => rfl
  | cons h hs =>
    cases hs with
    | nil => exact h.2.2
    | cons h' hs => simp only [unionDoc, h1, h2]

mutual
theorem memberDocs_moved {a b : Nat} {l l' : Layout} {p p' : Path} (h : Near a b l p l' p') :
    ∀ t, List.Forall₂ (SameMember a b) (memberDocs l p t) (memberDocs l' p' t)
  | .function as r => by
    simp only [memberDocs]
    exact .cons ⟨rfl, h.here, by rw [typeDocs_moved h as 1, unionDoc_moved (memberDocs_moved (h.below 0) r)]⟩ .nil
  | .list t => by
    simp only [memberDocs]
    exact .cons ⟨rfl, h.here, by rw [unionDoc_moved (memberDocs_moved (h.below 0) t)]⟩ .nil
  | .map k v => by
    simp only [memberDocs]
    exact .cons ⟨rfl, h.here, by
      rw [unionDoc_moved (memberDocs_moved (h.below 0) k), unionDoc_moved (memberDocs_moved (h.below 1) v)]⟩ .nil
  | .reference x => by
    simp only [memberDocs]
    exact .cons ⟨rfl, h.here, rfl⟩ .nil
  | .union t u => by
    simp only [memberDocs]
    exact List.rel_append (memberDocs_moved (h.below 0) t) (memberDocs_moved (h.below 1) u)
theorem typeDocs_moved {a b : Nat} {l l' : Layout} {p p' : Path} (h : Near a b l p l' p') :
    ∀ (ts : List Ty) (i : Nat), typeDocs l p i ts = typeDocs l' p' i ts
  | [], _ => by simp only [typeDocs]
  | t :: ts, i => by
    simp only [typeDocs]
    rw [unionDoc_moved (memberDocs_moved (h.below i) t), typeDocs_moved h ts (i + 1)]
end

theorem typeDoc_moved {a b : Nat} {l l' : Layout} {p p' : Path} (h : Near a b l p l' p') (t : Ty) :
    typeDoc l p t = typeDoc l' p' t := unionDoc_moved (memberDocs_moved h t)

/-- Without comments, lines of comments do not matter. -/
theorem lineComment_nil (i : Nat) (d : Doc) :
    (lineComment i (pure d)) [] = ((Doc.cat [.cat [], d, .cat []], []) : Doc × List Comment) := rfl

theorem argumentDocs_nil (l : Layout) (p : Path) : ∀ (as : List (Name × Ty)) (i : Nat),
    ((argumentDocs l p i as) []).2 = []
  | [], _ => rfl
  | a :: as, i => by
    show ((argumentDocs l p (i + 1) as) []).2 = []
    exact argumentDocs_nil l p as (i + 1)

theorem argumentDocs_moved {a b : Nat} {l l' : Layout} {p p' : Path} : ∀ (as : List (Name × Ty)) (i : Nat),
    (∀ j, i ≤ j → Near a b l (j :: p) l' (j :: p')) →
    ((argumentDocs l p i as) []).1 = ((argumentDocs l' p' i as) []).1
  | [], _, _ => rfl
  | x :: as, i, h => by
    have h1 := argumentDocs_moved as (i + 1) fun j hj => h j (by omega)
    have h2 := typeDoc_moved ((h i le_rfl).below 0) x.2
    show (Doc.cat [.cat [], .cat [.str x.1, lit " ", typeDoc l (0 :: i :: p) x.2], .cat []]
        :: ((argumentDocs l p (i + 1) as) []).1) =
      (Doc.cat [.cat [], .cat [.str x.1, lit " ", typeDoc l' (0 :: i :: p') x.2], .cat []]
        :: ((argumentDocs l' p' (i + 1) as) []).1)
    rw [h1, h2]

theorem fieldDocs_moved {a b : Nat} {l l' : Layout} {p p' : Path} : ∀ (fs : List (Name × Ty)) (i : Nat),
    (∀ j, i ≤ j → Near a b l (j :: p) l' (j :: p')) →
    ((fieldDocs l p i fs) []).1 = ((fieldDocs l' p' i fs) []).1
  | [], _, _ => rfl
  | x :: as, i, h => by
    have h1 := fieldDocs_moved as (i + 1) fun j hj => h j (by omega)
    have h2 := typeDoc_moved ((h i le_rfl).below 0) x.2
    show (Doc.cat [.line, .cat [.cat [], .cat [.str x.1, lit " ", typeDoc l (0 :: i :: p) x.2], .cat []]]
        :: ((fieldDocs l p (i + 1) as) []).1) =
      (Doc.cat [.line, .cat [.cat [], .cat [.str x.1, lit " ", typeDoc l' (0 :: i :: p') x.2], .cat []]]
        :: ((fieldDocs l' p' (i + 1) as) []).1)
    rw [h1, h2]

/-- Signatures of functions do not depend on bodies. -/
theorem formatSignature_moved {a b : Nat} {l l' : Layout} {d d' : FunctionDefinition × Path}
    (h1 : d.1.lambda.arguments = d'.1.lambda.arguments) (h2 : d.1.lambda.result = d'.1.lambda.result)
    (h : Moved a b (l.line (0 :: d.2)) (l'.line (0 :: d'.2)))
    (hi : ∀ i, i ≠ 1 → Near a b l (i :: 0 :: d.2) l' (i :: 0 :: d'.2)) :
    formatSignature l d = formatSignature l' d' := by
  have e1 := argumentDocs_moved (p := 0 :: d.2) (p' := 0 :: d'.2) (l := l) (l' := l') d.1.lambda.arguments 2
    fun j hj => hi j (by omega)
  have e2 := typeDoc_moved (hi 0 (by omega)) d.1.lambda.result
  have e3 : argumentsFlat l (0 :: d.2) d.1.lambda.arguments = argumentsFlat l' (0 :: d'.2) d.1.lambda.arguments := by
    unfold argumentsFlat
    rw [h.beq (hi 2 (by omega)).here]
  unfold formatSignature
  rw [← h1, ← h2]
  show (Doc.cat [lit "\\(", enclosed (argumentsFlat l (0 :: d.2) d.1.lambda.arguments)
      (.cat (Doc.intersperse separator ((argumentDocs l (0 :: d.2) 2 d.1.lambda.arguments) []).1)), lit ") ",
      typeDoc l (0 :: 0 :: d.2) d.1.lambda.result]).format = (Doc.cat [lit "\\(",
      enclosed (argumentsFlat l' (0 :: d'.2) d.1.lambda.arguments)
      (.cat (Doc.intersperse separator ((argumentDocs l' (0 :: d'.2) 2 d.1.lambda.arguments) []).1)), lit ") ",
      typeDoc l' (0 :: 0 :: d'.2) d.1.lambda.result]).format
  rw [e1, e2, e3]

theorem formatTypeDefinition_moved {a b : Nat} {l l' : Layout} {d : TypeDefinition} {p p' : Path}
    (h : Near a b l p l' p') : formatTypeDefinition l (d, p) = formatTypeDefinition l' (d, p') := by
  cases d with
  | record x fs =>
    have e := fieldDocs_moved fs 0 fun j _ => h.below j
    show (Doc.cat [.cat [], lit "type ", .str x, lit " {",
      if fs.isEmpty then .empty else .cat [.indent (.cat ((fieldDocs l p 0 fs) []).1), .line], lit "}", .line]).format =
      (Doc.cat [.cat [], lit "type ", .str x, lit " {",
      if fs.isEmpty then .empty else .cat [.indent (.cat ((fieldDocs l' p' 0 fs) []).1), .line], lit "}", .line]).format
    rw [e]
  | alias_ x t =>
    have e := typeDoc_moved (h.below 0) t
    show (Doc.cat [.cat [], lit "type ", .str x, lit " =",
      if (typeDoc l (0 :: p) t).isBroken then .indent (.cat [.line, typeDoc l (0 :: p) t])
      else .cat [lit " ", typeDoc l (0 :: p) t], .line]).format = (Doc.cat [.cat [], lit "type ", .str x, lit " =",
      if (typeDoc l' (0 :: p') t).isBroken then .indent (.cat [.line, typeDoc l' (0 :: p') t])
      else .cat [lit " ", typeDoc l' (0 :: p') t], .line]).format
    rw [e]

end Verif.Doc
