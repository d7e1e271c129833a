import Verif.Lower.Properties
import Verif.Hir.TameCheck

/-!
# Checking the assumptions about modules

A procedure that finds out whether `PlainModule` and `TidyModule` hold. It is not part of the compiler.
-/

namespace Verif.Mir

/-- Names of functions of modules: that of a file, a colon and a name that does not begin with a digit. -/
def moduleName (x : Name) : Bool :=
  (x.toList.filter (· == ':')).length ≤ 1 &&
    match (x.toList.dropWhile (· != ':')).tail with
    | [] => true
    | c :: _ => !c.isDigit

theorem moduleName_plain {x : Name} (h : moduleName x = true) : Plain x := by
  simp only [moduleName, Bool.and_eq_true, decide_eq_true_eq] at h
  constructor
  · rintro y i rfl
    have := h.1
    simp [fvName, String.toList_append, List.filter_append] at this
  · rintro i f rfl
    have := h.1
    simp [liftName, String.toList_append, List.filter_append] at this

theorem dropWhile_colon : ∀ (a b : List Char), ':' ∉ a → (a ++ ':' :: b).dropWhile (· != ':') = ':' :: b
  | [], b, _ => by simp
  | c :: a, b, h => by
    simp only [List.mem_cons, not_or] at h
    rw [List.cons_append, List.dropWhile_cons_of_pos (by simpa using fun e => h.1 e.symm), dropWhile_colon a b h.2]

theorem moduleName_source {x : Name} (h : moduleName x = true) : SourceName x := by
  rintro y k rfl
  simp only [moduleName, Bool.and_eq_true, decide_eq_true_eq] at h
  obtain ⟨h1, h2⟩ := h
  have hd := colon_not_in_digits k
  simp only [String.toList_append, List.filter_append, List.length_append] at h1
  have hy : ':' ∉ y.toList := by
    intro hy
    have : 0 < (y.toList.filter (· == ':')).length := List.length_pos_of_mem (List.mem_filter.mpr ⟨hy, by simp⟩)
    have e : (":".toList.filter (· == ':')).length = 1 := by decide
    omega
  have e : (y ++ ":" ++ toString k).toList = y.toList ++ ':' :: (toString k).toList := by
    simp [String.toList_append]
  rw [e, dropWhile_colon _ _ hy, List.tail_cons] at h2
  have hdig : ∀ c ∈ (toString k).toList, c.isDigit = true := by
    intro c hc
    simp only [Nat.toString_eq_repr, Nat.toList_repr] at hc
    exact Nat.isDigit_of_mem_toDigits (by decide) (by decide) hc
  cases hk : (toString k).toList with
  | nil =>
    simp only [Nat.toString_eq_repr, Nat.toList_repr] at hk
    exact absurd hk (by simp)
  | cons c cs =>
    rw [hk] at h2 hdig
    simp [hdig c (by simp)] at h2

end Verif.Mir

namespace Verif.Lower

open Verif.Hir (Ty Ctx Expr Module Definition RecordField)
open Verif

/-- Whether a type can be a tag. -/
def tag : Ty → Bool
  | .any | .union _ _ | .reference _ => false
  | _ => true

/-- Whether a module can be lowered and go through the middle end. -/
def checkLowerable (K : Config) (a d : Nat) (S : List Ty) (m : Module) : Bool :=
  decide (m.definitions.map (·.name)).Nodup &&
  m.definitions.all (fun f => plainName K f.name && decide (f.params.map (·.1)).Nodup &&
    f.params.all (fun p => plainName K p.1 && !p.1.toList.contains ':' && !internal p.1 &&
      !(globalNames m).contains p.1) &&
    plain K a m.ctx S d f.body && tidy (f.params.map (·.1)) d (f.params.map (·.1) ++ globalNames m) f.body) &&
  (m.declarations.map (·.1)).contains K.stringEqual &&
  !internal K.stringEqual &&
  (m.types.records.all fun r => decide (r.2.map (·.name)).Nodup) &&
  S.all tag &&
  (S.all fun t => S.all fun u => typeId K t != typeId K u || t == u) &&
  (globalNames m).all Mir.moduleName

theorem lastLookup_mem {β : Type} {xs : List (String × β)} {x : String} {b : β} (h : Hir.lastLookup xs x = some b) :
    (x, b) ∈ xs := by
  unfold Hir.lastLookup at h
  simp only [Option.map_eq_some_iff] at h
  obtain ⟨p, h1, rfl⟩ := h
  have h2 := List.find?_some h1
  have h3 := List.mem_of_find?_eq_some h1
  simp only [beq_iff_eq] at h2
  subst h2
  exact List.mem_reverse.mp h3

theorem checkLowerable_sound {K : Config} {a d : Nat} {S : List Ty} {m : Module} (h : checkLowerable K a d S m = true) :
    PlainModule K a d S m ∧ TidyModule K d m := by
  simp only [checkLowerable, Bool.and_eq_true, List.all_eq_true, decide_eq_true_eq, Bool.not_eq_true',
    List.contains_iff_mem, Bool.or_eq_true, bne_iff_ne, beq_iff_eq] at h
  obtain ⟨⟨⟨⟨⟨⟨⟨h1, h2⟩, h3⟩, h4⟩, h5⟩, h6⟩, h7⟩, h8⟩ := h
  refine ⟨⟨h1, fun f hf => (h2 f hf).1.1.1.1, fun f hf p hp => ((h2 f hf).1.1.2 p hp).1.1.1, fun f hf => (h2 f hf).1.2, h3, h4,
    ?_, ?_, ?_⟩, ⟨h3, fun f hf => ⟨(h2 f hf).1.1.1.2, fun p hp => ?_⟩, fun f hf => (h2 f hf).2, fun x hx =>
      ⟨Mir.moduleName_plain (h8 x hx), Mir.moduleName_source (h8 x hx)⟩⟩⟩
  · intro n ts hn
    exact h5 (n, ts) (lastLookup_mem hn)
  · intro t ht
    have := h6 t ht
    cases t <;> simp_all [tag]
  · intro t ht u hu he
    exact (h7 t ht u hu).resolve_left (by simpa using he)
  · have := (h2 f hf).1.1.2 p hp
    refine ⟨?_, this.1.2, ?_⟩
    · intro hc
      rw [List.contains_iff_mem.mpr hc] at this
      simp at this
    · intro hc
      rw [List.contains_iff_mem.mpr hc] at this
      simp at this

end Verif.Lower
