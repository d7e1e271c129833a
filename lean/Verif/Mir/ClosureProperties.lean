import Verif.Mir.EnvironmentLemmas
import Verif.Mir.PassProperties

/-
Property C25: environments of closures.
-/
namespace Verif.Mir

/-! ### C25: closure environments -/

/-- A program whose closures keep every variable in scope does the same as the inferred program, whose closures keep
only the variables in their environments. -/
theorem c25_environments (p : Program) (w : World) (fuel : Nat) (g : Name) (args : List Obs)
    (hs : p.run w captureAll fuel g args ≠ .stuck) :
    ((inferProgram p).run w captureEnvironment fuel g args).outcome = (p.run w captureAll fuel g args).outcome :=
  run_eq (inferK p) w captureAll captureEnvironment fuel (infer_calls w p fuel) g args hs

/-- Names and bodies of alternatives. -/
def Alts.branches : Alts → List (Name × Expr)
  | .nil => []
  | .cons _ x e as => (x, e) :: as.branches

/-- Every local function in an expression together with the variables in scope where it is defined. -/
inductive Occurs : List Name → Expr → List Name → Def → Prop
  | here (known : List Name) (d : Def) (b : Expr) : Occurs known (.letRec d.f d.env d.args d.thunk d.body b) known d
  | body {known : List Name} {f : Name} {env args : List Name} {th : Bool} {body b : Expr} {k : List Name} {d : Def} :
    Occurs (f :: args ++ known) body k d → Occurs known (.letRec f env args th body b) k d
  | rest {known : List Name} {f : Name} {env args : List Name} {th : Bool} {body b : Expr} {k : List Name} {d : Def} :
    Occurs (f :: known) b k d → Occurs known (.letRec f env args th body b) k d
  | operand {known : List Name} {o : Op} {es : Exprs} {e : Expr} {k : List Name} {d : Def} :
    e ∈ es.toList → Occurs known e k d → Occurs known (.op o es) k d
  | case {known : List Name} {e : Expr} {as : Alts} {k : List Name} {d : Def} :
    Occurs known e k d → Occurs known (.case e as) k d
  | alternative {known : List Name} {e : Expr} {as : Alts} {x : Name} {b : Expr} {k : List Name} {d : Def} :
    (x, b) ∈ as.branches → Occurs (x :: known) b k d → Occurs known (.case e as) k d
  | condition {known : List Name} {c t e : Expr} {k : List Name} {d : Def} :
    Occurs known c k d → Occurs known (.if_ c t e) k d
  | then_ {known : List Name} {c t e : Expr} {k : List Name} {d : Def} :
    Occurs known t k d → Occurs known (.if_ c t e) k d
  | else_ {known : List Name} {c t e : Expr} {k : List Name} {d : Def} :
    Occurs known e k d → Occurs known (.if_ c t e) k d
  | bound {known : List Name} {x : Name} {e b : Expr} {k : List Name} {d : Def} :
    Occurs known e k d → Occurs known (.let_ x e b) k d
  | letBody {known : List Name} {x : Name} {e b : Expr} {k : List Name} {d : Def} :
    Occurs (x :: known) b k d → Occurs known (.let_ x e b) k d
  | tried {known : List Name} {e : Expr} {x : Name} {t : TypeId} {b : Expr} {k : List Name} {d : Def} :
    Occurs known e k d → Occurs known (.try_ e x t b) k d
  | handler {known : List Name} {e : Expr} {x : Name} {t : TypeId} {b : Expr} {k : List Name} {d : Def} :
    Occurs (x :: known) b k d → Occurs known (.try_ e x t b) k d
  | clone {known xs : List Name} {e : Expr} {k : List Name} {d : Def} :
    Occurs known e k d → Occurs known (.clone xs e) k d
  | drop {known xs : List Name} {e : Expr} {k : List Name} {d : Def} :
    Occurs known e k d → Occurs known (.drop xs e) k d

theorem nodup_eraseDups : ∀ (n : Nat) (xs : List Name), xs.length ≤ n → xs.eraseDups.Nodup
  | _, [], _ => by simp [List.eraseDups_nil]
  | n + 1, x :: xs, h => by
    rw [List.eraseDups_cons, List.nodup_cons]
    refine ⟨by simp [List.mem_eraseDups], nodup_eraseDups n _ ?_⟩
    have := List.length_filter_le (fun b => !b == x) xs
    simp only [List.length_cons] at h
    omega

mutual
theorem free_infer : ∀ (e : Expr) (known : List Name), free (infer known e) = free e
  | .literal _, _ => rfl
  | .variable _, _ => rfl
  | .op _ es, known => by simp only [infer, free, free_inferExprs es]
  | .case e as, known => by simp only [infer, free, free_infer e, free_inferAlts as]
  | .if_ c t e, known => by simp only [infer, free, free_infer c, free_infer t, free_infer e]
  | .let_ x e b, known => by simp only [infer, free, free_infer e, free_infer b]
  | .letRec f env args th body b, known => by simp only [infer, free, free_infer body, free_infer b]
  | .try_ e x t b, known => by simp only [infer, free, free_infer e, free_infer b]
  | .clone xs e, known => by simp only [infer, free, free_infer e]
  | .drop xs e, known => by simp only [infer, free, free_infer e]
theorem free_inferExprs : ∀ (es : Exprs) (known : List Name), freeExprs (inferExprs known es) = freeExprs es
  | .nil, _ => rfl
  | .cons e es, known => by simp only [inferExprs, freeExprs, free_infer e, free_inferExprs es]
theorem free_inferAlts : ∀ (as : Alts) (known : List Name), freeAlts (inferAlts known as) = freeAlts as
  | .nil, _ => rfl
  | .cons ts x e as, known => by simp only [inferAlts, freeAlts, free_infer e, free_inferAlts as]
end

theorem mem_inferExprs {known : List Name} {e : Expr} : ∀ {es : Exprs}, e ∈ (inferExprs known es).toList →
    ∃ e' ∈ es.toList, e = infer known e'
  | .nil, h => by simp [inferExprs, Exprs.toList] at h
  | .cons e' es, h => by
    simp only [inferExprs, Exprs.toList, List.mem_cons] at h ⊢
    rcases h with rfl | h
    · exact ⟨e', Or.inl rfl, rfl⟩
    · obtain ⟨e'', h1, h2⟩ := mem_inferExprs h
      exact ⟨e'', Or.inr h1, h2⟩

theorem mem_inferAlts {known : List Name} {x : Name} {e : Expr} : ∀ {as : Alts}, (x, e) ∈ (inferAlts known as).branches →
    ∃ e', (x, e') ∈ as.branches ∧ e = infer (x :: known) e'
  | .nil, h => by simp [inferAlts, Alts.branches] at h
  | .cons ts y e' as, h => by
    simp only [inferAlts, Alts.branches, List.mem_cons, Prod.mk.injEq] at h ⊢
    rcases h with ⟨rfl, rfl⟩ | h
    · exact ⟨e', Or.inl ⟨rfl, rfl⟩, rfl⟩
    · obtain ⟨e'', h1, h2⟩ := mem_inferAlts h
      exact ⟨e'', Or.inr h1, h2⟩

/-- The environment of every local function in the result of the inference consists of exactly the variables in scope
that its body reads and that are neither its arguments nor itself, each of them once. -/
theorem c25_exact (known : List Name) (e : Expr) (scope : List Name) (d : Def)
    (h : Occurs known (infer known e) scope d) :
    (∀ x, x ∈ d.env ↔ x ∈ scope ∧ x ∈ free d.body ∧ x ≠ d.f ∧ x ∉ d.args) ∧ d.env.Nodup := by
  generalize he : infer known e = e' at h
  induction h generalizing e with
  | here known d b =>
    cases e <;> simp only [infer, reduceCtorEq, Expr.letRec.injEq] at he
    obtain ⟨h1, h2, h3, h4, h5, rfl⟩ := he
    rw [← h2, ← h5, ← h3, h1, free_infer]
    refine ⟨fun x => ?_, nodup_eraseDups _ _ (Nat.le_refl _)⟩
    rw [mem_inferredEnvironment]
    grind
  | body _ ih =>
    cases e <;> simp only [infer, reduceCtorEq, Expr.letRec.injEq] at he
    obtain ⟨rfl, _, rfl, _, h, _⟩ := he
    exact ih _ h
  | rest _ ih =>
    cases e <;> simp only [infer, reduceCtorEq, Expr.letRec.injEq] at he
    obtain ⟨rfl, _, rfl, _, _, h⟩ := he
    exact ih _ h
  | operand hm _ ih =>
    cases e <;> simp only [infer, reduceCtorEq, Expr.op.injEq] at he
    obtain ⟨rfl, rfl⟩ := he
    obtain ⟨e', _, rfl⟩ := mem_inferExprs hm
    exact ih _ rfl
  | alternative hm _ ih =>
    cases e <;> simp only [infer, reduceCtorEq, Expr.case.injEq] at he
    obtain ⟨rfl, rfl⟩ := he
    obtain ⟨e', _, rfl⟩ := mem_inferAlts hm
    exact ih _ rfl
  | case _ ih => cases e <;> simp only [infer, reduceCtorEq, Expr.case.injEq] at he; exact ih _ he.1
  | condition _ ih => cases e <;> simp only [infer, reduceCtorEq, Expr.if_.injEq] at he; exact ih _ he.1
  | then_ _ ih => cases e <;> simp only [infer, reduceCtorEq, Expr.if_.injEq] at he; exact ih _ he.2.1
  | else_ _ ih => cases e <;> simp only [infer, reduceCtorEq, Expr.if_.injEq] at he; exact ih _ he.2.2
  | bound _ ih => cases e <;> simp only [infer, reduceCtorEq, Expr.let_.injEq] at he; exact ih _ he.2.1
  | letBody _ ih => cases e <;> simp only [infer, reduceCtorEq, Expr.let_.injEq] at he; exact ih _ (he.1 ▸ he.2.2)
  | tried _ ih => cases e <;> simp only [infer, reduceCtorEq, Expr.try_.injEq] at he; exact ih _ he.1
  | handler _ ih => cases e <;> simp only [infer, reduceCtorEq, Expr.try_.injEq] at he; exact ih _ (he.2.1 ▸ he.2.2.2)
  | clone _ ih => cases e <;> simp only [infer, reduceCtorEq, Expr.clone.injEq] at he; exact ih _ he.2
  | drop _ ih => cases e <;> simp only [infer, reduceCtorEq, Expr.drop.injEq] at he; exact ih _ he.2

/-- `\(x, y) { f = \(z) { h = \() { x + z }; h() }; f(y) }` -/
def sampleClosure : Program where
  foreign := []
  globals := [⟨"g", ["x", "y"], false,
    .letRec "f" [] ["z"] false
      (.letRec "h" [] [] false (.op (.arithmetic .add) (.cons (.variable "x") (.cons (.variable "z") .nil)))
        (.op .call (.cons (.variable "h") .nil)))
      (.op .call (.cons (.variable "f") (.cons (.variable "y") .nil)))⟩]
  typeInformation := id

example : sampleClosure.run sampleWorld captureAll 3 "g" [.number 1, .number 2] = .ok (.number 3) [] ∧
    (inferProgram sampleClosure).globals.map (·.body) = [
      .letRec "f" ["x"] ["z"] false
        (.letRec "h" ["x", "z"] [] false (.op (.arithmetic .add) (.cons (.variable "x") (.cons (.variable "z") .nil)))
          (.op .call (.cons (.variable "h") .nil)))
        (.op .call (.cons (.variable "f") (.cons (.variable "y") .nil)))] := ⟨by rfl, by rfl⟩

example : ∀ g ∈ sampleClosure.globals, ∃ scope d, Occurs ["x", "y"] (infer ["x", "y"] g.body) scope d ∧ d.f = "h" ∧
    scope = ["f", "z", "x", "y"] := by
  intro g hg
  simp only [sampleClosure, List.mem_singleton] at hg
  subst hg
  exact ⟨_, ⟨"h", ["x", "z"], [], false, .op (.arithmetic .add) (.cons (.variable "x") (.cons (.variable "z") .nil))⟩,
    .body (.here ["f", "z", "x", "y"] ⟨"h", ["x", "z"], [], false, _⟩ _), rfl, rfl⟩

end Verif.Mir
