import Verif.Mir.Normalization

/- Normalization in direct style: bindings that come first, and what is left. -/
namespace Verif.Mir

inductive Frame
  | let_ (x : Name) (e : Expr)
  | letRec (f : Name) (env : List Name) (args : List Name) (thunk : Bool) (body : Expr)

def plug : List Frame → Expr → Expr
  | [], t => t
  | .let_ x e :: fs, t => .let_ x e (plug fs t)
  | .letRec f env args th body :: fs, t => .letRec f env args th body (plug fs t)

theorem plug_append (fs gs : List Frame) (t : Expr) : plug (fs ++ gs) t = plug fs (plug gs t) := by
  induction fs with
  | nil => rfl
  | cons f fs ih => cases f <;> simp [plug, ih]

structure Split (α : Type) where
  frames : List Frame
  tail : α
  next : Nat

def Split.plug (s : Split Expr) : Expr := Mir.plug s.frames s.tail

/-- Continues after the bindings. -/
def Split.apply {α : Type} (s : Split α) (k : Continue α) : Expr × Nat :=
  (Mir.plug s.frames (k s.tail s.next).1, (k s.tail s.next).2)

def Split.bound (s : Split Expr) : Split Expr :=
  if isAtom s.tail then s
  else ⟨s.frames ++ [.let_ (anfName s.next) s.tail], .variable (anfName s.next), s.next + 1⟩

def Split.boundIf (b : Bool) (s : Split Expr) : Split Expr := if b then s.bound else s

mutual
def split (post : Expr → Expr) : Expr → Nat → Split Expr
  | .literal l, n => ⟨[], .literal l, n⟩
  | .variable x, n => ⟨[], .variable x, n⟩
  | .op o es, n =>
    let s := splitExprs post (bindsLast o) es n
    ⟨s.frames, .op o (Exprs.ofList s.tail), s.next⟩
  | .case e as, n =>
    let s := split post e n
    let as' := splitAlts post as s.next
    ⟨s.frames, .case s.tail as'.1, as'.2⟩
  | .if_ c t e, n =>
    let s := split post c n
    let t' := split post t s.next
    let e' := split post e t'.next
    ⟨s.frames, .if_ s.tail t'.plug e'.plug, e'.next⟩
  | .let_ x e b, n =>
    let s := split post e n
    let b' := split post b s.next
    ⟨s.frames ++ .let_ x s.tail :: b'.frames, b'.tail, b'.next⟩
  | .letRec f env args th body b, n =>
    let body' := split post body n
    let b' := split post b body'.next
    ⟨.letRec f env args th (post body'.plug) :: b'.frames, b'.tail, b'.next⟩
  | .try_ e x t b, n =>
    let s := split post e n
    let b' := split post b s.next
    ⟨s.frames, .try_ s.tail x t b'.plug, b'.next⟩
  | .clone xs e, n =>
    let s := split post e n
    ⟨s.frames, .clone xs s.tail, s.next⟩
  | .drop xs e, n =>
    let s := split post e n
    ⟨s.frames, .clone xs s.tail, s.next⟩
def splitExprs (post : Expr → Expr) (last : Bool) : Exprs → Nat → Split (List Expr)
  | .nil, n => ⟨[], [], n⟩
  | .cons e es, n =>
    let s := (split post e n).boundIf (last || !es.isNil)
    let ss := splitExprs post last es s.next
    ⟨s.frames ++ ss.frames, s.tail :: ss.tail, ss.next⟩
def splitAlts (post : Expr → Expr) : Alts → Nat → Alts × Nat
  | .nil, n => (.nil, n)
  | .cons ts x e as, n =>
    let e' := split post e n
    let as' := splitAlts post as e'.next
    (.cons ts x e'.plug as'.1, as'.2)
end

theorem bindAtom_eq (s : Split Expr) (k : Continue Expr) : s.apply (bindAtom k) = s.bound.apply k := by
  unfold Split.bound Split.apply bindAtom
  split
  · rfl
  · simp only [plug_append, plug]

theorem boundIf_eq (b : Bool) (s : Split Expr) (k : Continue Expr) :
    s.apply (if b then bindAtom k else k) = (s.boundIf b).apply k := by
  cases b
  · rfl
  · exact bindAtom_eq s k

mutual
theorem anf_eq_split (post : Expr → Expr) : ∀ (e : Expr) (k : Continue Expr) (n : Nat),
    anf post e k n = (split post e n).apply k
  | .literal l, k, n => rfl
  | .variable x, k, n => rfl
  | .op o es, k, n => by
    simp only [anf, split, anfExprs_eq_split post (bindsLast o) es, Split.apply, List.nil_append]
  | .case e as, k, n => by
    simp only [anf, split, anf_eq_split post e, anfAlts_eq_split post as, Split.apply]
  | .if_ c t e, k, n => by
    simp only [anf, split, anf_eq_split post c, anf_eq_split post t, anf_eq_split post e, Split.apply, Split.plug]
  | .let_ x e b, k, n => by
    simp only [anf, split, anf_eq_split post e, anf_eq_split post b, Split.apply, plug_append, plug]
  | .letRec f env args th body b, k, n => by
    simp only [anf, split, anf_eq_split post body, anf_eq_split post b, Split.apply, plug, Split.plug]
  | .try_ e x t b, k, n => by
    simp only [anf, split, anf_eq_split post e, anf_eq_split post b, Split.apply, Split.plug]
  | .clone xs e, k, n => by simp only [anf, split, anf_eq_split post e, Split.apply]
  | .drop xs e, k, n => by simp only [anf, split, anf_eq_split post e, Split.apply]
theorem anfExprs_eq_split (post : Expr → Expr) (last : Bool) : ∀ (es : Exprs) (acc : List Expr)
    (k : Continue (List Expr)) (n : Nat), anfExprs post last es acc k n =
      (splitExprs post last es n).apply fun ts m => k (acc ++ ts) m
  | .nil, acc, k, n => by simp [anfExprs, splitExprs, Split.apply, plug]
  | .cons e es, acc, k, n => by
    simp only [anfExprs, splitExprs, anf_eq_split post e, anfExprs_eq_split post last es, boundIf_eq]
    simp only [Split.apply, plug_append, List.append_assoc, List.singleton_append]
theorem anfAlts_eq_split (post : Expr → Expr) : ∀ (as : Alts) (n : Nat), anfAlts post as n = splitAlts post as n
  | .nil, n => rfl
  | .cons ts x e as, n => by
    simp only [anfAlts, splitAlts, anf_eq_split post e, anfAlts_eq_split post as, Split.apply, Split.plug]
end

theorem anf_body_eq (post : Expr → Expr) (e : Expr) (n : Nat) :
    anf post e Prod.mk n = ((split post e n).plug, (split post e n).next) := by
  rw [anf_eq_split]; rfl

end Verif.Mir
