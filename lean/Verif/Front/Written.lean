import Verif.Front.Facts
import Verif.Names.Properties

/-
What the conversion of syntax trees makes is what name resolution expects: all names are names programmers
can write.
-/

namespace Verif.Front

open Verif.Grammar (allMade allMadeBranches allMadeTypeBranches madeElse allMadeStatements
  allMadeListElements allMadeMapElements madeOption allMadeFields allMadeCompBranches IsNumber
  IsIdentifier)
open Verif.Names (Plain parts localsAll branchParts)

/-- Local variables bound in the expression have names without colons. -/
def PlainIn (e : Hir.Expr) : Prop := ∀ d Γ, (∀ x ∈ Γ, Plain x) → localsAll Plain d Γ e

theorem plainIn_of {e : Hir.Expr} (h : ∀ Γ, (∀ x ∈ Γ, Plain x) → ∀ k ts ps, parts Γ e = some (k, ts, ps) →
    ∀ p ∈ ps, (∀ x ∈ p.1, Plain x) ∧ PlainIn p.2) : PlainIn e := by
  intro d Γ hΓ
  cases d with
  | zero => trivial
  | succ d => exact fun k ts ps hp p hm => ⟨(h Γ hΓ k ts ps hp p hm).1, (h Γ hΓ k ts ps hp p hm).2 d _ (h Γ hΓ k ts ps hp p hm).1⟩

/-- Expressions whose parts see no new variables. -/
theorem plainIn_same {e : Hir.Expr} {k ts} {es : List Hir.Expr}
    (h : ∀ Γ, parts Γ e = some (k, ts, es.map (Γ, ·))) (hes : ∀ a ∈ es, PlainIn a) : PlainIn e := by
  refine plainIn_of fun Γ hΓ k' ts' ps hp p hm => ?_
  rw [h] at hp
  simp only [Option.some.injEq, Prod.mk.injEq] at hp
  obtain ⟨_, _, rfl⟩ := hp
  obtain ⟨a, ha, rfl⟩ := List.mem_map.mp hm
  exact ⟨hΓ, hes a ha⟩

theorem plainIn_leaf {e : Hir.Expr} (h : ∀ Γ, parts Γ e = none) : PlainIn e :=
  plainIn_of fun Γ _ k ts ps hp => by rw [h] at hp; cases hp

theorem plain_text {x : Grammar.Name} (h : IsIdentifier x) : Plain (text x) := by
  obtain ⟨c, s, rfl, hc, hs, _⟩ := h
  simp only [Plain, text, String.toList_ofList, List.mem_cons, not_or]
  constructor
  · rintro rfl
    rcases hc with hc | hc
    · revert hc; decide
    · revert hc; decide
  · intro hm
    have := hs _ hm
    revert this; decide

section

variable {R : Rounding}

theorem plainIn_operator {o : Grammar.BinOp} {a b : Hir.Expr} (ha : PlainIn a) (hb : PlainIn b) :
    PlainIn (convertOperator o a b) := by
  cases o <;> exact plainIn_same (es := [a, b]) (fun _ => rfl) (by simp [ha, hb])

theorem plainIn_unary {o : Grammar.UnOp} {a : Hir.Expr} (ha : PlainIn a) : PlainIn (convertUnary o a) := by
  cases o <;> exact plainIn_same (es := [a]) (fun _ => rfl) (by simp [ha])

/-- The parts of a branch. -/
def PlainBranch (b : Hir.Branch Hir.Expr) : Prop :=
  (∀ x ∈ b.names, Plain x) ∧ (∀ i ∈ b.iteratees, PlainIn i.2) ∧ ∀ c ∈ b.condition, PlainIn c

theorem plain_branchParts : ∀ {bs : List (Hir.Branch Hir.Expr)} {Γ}, (∀ x ∈ Γ, Plain x) →
    (∀ b ∈ bs, PlainBranch b) → (∀ p ∈ (branchParts Γ bs).1, (∀ x ∈ p.1, Plain x) ∧ PlainIn p.2) ∧
      ∀ x ∈ (branchParts Γ bs).2, Plain x
  | [], Γ, hΓ, _ => ⟨by simp [branchParts], hΓ⟩
  | b :: bs, Γ, hΓ, h => by
    have hb := h b List.mem_cons_self
    have hΓ' : ∀ x ∈ b.names.reverse ++ Γ, Plain x := by
      intro x hx
      rcases List.mem_append.mp hx with hx | hx
      · exact hb.1 x (List.mem_reverse.mp hx)
      · exact hΓ x hx
    have ih := plain_branchParts hΓ' fun c hc => h c (List.mem_cons_of_mem _ hc)
    refine ⟨fun p hp => ?_, ih.2⟩
    simp only [branchParts, List.append_assoc, List.mem_append, List.mem_map, Option.mem_toList] at hp
    rcases hp with ⟨i, hi, rfl⟩ | ⟨c, hc, rfl⟩ | hp
    · exact ⟨hΓ, hb.2.1 i hi⟩
    · exact ⟨hΓ', hb.2.2 c hc⟩
    · exact ih.1 p hp

mutual

theorem convert_plain : ∀ {e : Grammar.Expr} {h : Hir.Expr}, e.Made → convert R e = some h → PlainIn h
  | .binary o a b, h, m, hc => by
    simp only [convert, Option.bind_eq_bind, Option.bind_eq_some_iff, Option.some.injEq] at hc
    obtain ⟨a', h1, b', h2, rfl⟩ := hc
    exact plainIn_operator (convert_plain m.1 h1) (convert_plain m.2 h2)
  | .call f as, h, m, hc => by
    simp only [convert, Option.bind_eq_bind, Option.bind_eq_some_iff, Option.some.injEq] at hc
    obtain ⟨f', h1, as', h2, rfl⟩ := hc
    refine plainIn_same (es := f' :: as') (fun _ => rfl) ?_
    simpa using ⟨convert_plain m.1 h1, convertAll_plain m.2 h2⟩
  | .if_ bs e, h, m, hc => by
    simp only [convert, Option.bind_eq_bind, Option.bind_eq_some_iff] at hc
    obtain ⟨e', h1, h2⟩ := hc
    exact convertIf_plain (convertBlock_plain m.2.2 h1) m.2.1 h2
  | .ifList l x y t e, h, m, hc => by
    simp only [convert, Option.bind_eq_bind, Option.bind_eq_some_iff, Option.some.injEq] at hc
    obtain ⟨l', h1, t', h2, e', h3, rfl⟩ := hc
    refine plainIn_of fun Γ hΓ k ts ps hp p hm => ?_
    cases hp
    simp only [List.mem_cons, List.not_mem_nil, or_false] at hm
    rcases hm with rfl | rfl | rfl
    · exact ⟨hΓ, convert_plain m.1 h1⟩
    · exact ⟨by simpa using ⟨plain_text m.2.2.1, plain_text m.2.1, hΓ⟩, convertBlock_plain m.2.2.2.1 h2⟩
    · exact ⟨hΓ, convertBlock_plain m.2.2.2.2 h3⟩
  | .ifMap x a b t e, h, m, hc => by
    simp only [convert, Option.bind_eq_bind, Option.bind_eq_some_iff, Option.some.injEq] at hc
    obtain ⟨a', h1, b', h2, t', h3, e', h4, rfl⟩ := hc
    refine plainIn_of fun Γ hΓ k ts ps hp p hm => ?_
    cases hp
    simp only [List.mem_cons, List.not_mem_nil, or_false] at hm
    rcases hm with rfl | rfl | rfl | rfl
    · exact ⟨hΓ, convert_plain m.2.1 h1⟩
    · exact ⟨hΓ, convert_plain m.2.2.1 h2⟩
    · exact ⟨by simpa using ⟨plain_text m.1, hΓ⟩, convertBlock_plain m.2.2.2.1 h3⟩
    · exact ⟨hΓ, convertBlock_plain m.2.2.2.2 h4⟩
  | .ifType x e bs f, h, m, hc => by
    simp only [convert, Option.bind_eq_bind, Option.bind_eq_some_iff, Option.some.injEq] at hc
    obtain ⟨e', h1, bs', h2, f', h3, rfl⟩ := hc
    refine plainIn_of fun Γ hΓ k ts ps hp p hm => ?_
    cases hp
    have hΓ' : ∀ y ∈ text x :: Γ, Plain y := by simpa using ⟨plain_text m.1, hΓ⟩
    simp only [List.cons_append, List.mem_cons, List.mem_append, List.mem_map, Option.mem_toList] at hm
    rcases hm with rfl | ⟨b, hb, rfl⟩ | ⟨b, hb, rfl⟩
    · exact ⟨hΓ, convert_plain m.2.1 h1⟩
    · exact ⟨hΓ', convertTypeBranches_plain m.2.2.2.1 h2 b hb⟩
    · exact ⟨hΓ', convertElse_plain m.2.2.2.2 h3 b hb⟩
  | .lambda as t b, h, m, hc => by
    simp only [convert, Option.bind_eq_bind, Option.bind_eq_some_iff, Option.some.injEq] at hc
    obtain ⟨b', h1, rfl⟩ := hc
    refine plainIn_of fun Γ hΓ k ts ps hp p hm => ?_
    cases hp
    simp only [List.mem_cons, List.not_mem_nil, or_false] at hm
    subst hm
    refine ⟨fun x hx => ?_, convertBlock_plain m.2.2 h1⟩
    simp only [List.mem_append, List.mem_reverse, List.mem_map] at hx
    rcases hx with ⟨_, ⟨a, ha, rfl⟩, rfl⟩ | hx
    · exact plain_text (m.1 a ha).1
    · exact hΓ x hx
  | .list t es, h, m, hc => by
    simp only [convert, Option.bind_eq_bind, Option.bind_eq_some_iff, Option.some.injEq] at hc
    obtain ⟨es', h1, rfl⟩ := hc
    refine plainIn_of fun Γ hΓ k ts ps hp p hm => ?_
    cases hp
    simp only [List.mem_map] at hm
    obtain ⟨e, he, rfl⟩ := hm
    exact ⟨hΓ, convertListElements_plain m.2 h1 e he⟩
  | .comprehension t e bs, h, m, hc => by
    simp only [convert, Option.bind_eq_bind, Option.bind_eq_some_iff] at hc
    obtain ⟨e', h1, bs', h2, h3⟩ := hc
    have hb := convertCompBranches_plain m.2.2.2 h2
    have hb' : ∀ b ∈ bs'.reverse, PlainBranch b := fun b h => hb b (List.mem_reverse.mp h)
    split at h3
    · cases h3
    · rename_i c cs hcs
      cases h3
      rw [hcs] at hb'
      refine plainIn_of fun Γ hΓ k ts ps hp p hm => ?_
      cases hp
      have := plain_branchParts hΓ hb'
      simp only [List.mem_append, List.mem_cons, List.not_mem_nil, or_false] at hm
      rcases hm with hm | rfl
      · exact this.1 p hm
      · exact ⟨this.2, convert_plain m.2.1 h1⟩
  | .map k v es, h, m, hc => by
    simp only [convert, Option.bind_eq_bind, Option.bind_eq_some_iff, Option.some.injEq] at hc
    obtain ⟨es', h1, rfl⟩ := hc
    refine plainIn_same (es := es'.flatMap Names.mapParts) (fun _ => rfl) fun a ha => ?_
    obtain ⟨e, he, ha⟩ := List.mem_flatMap.mp ha
    exact convertMapElements_plain m.2.2 h1 e he a ha
  | .number n, h, m, hc => by
    simp only [convert, Option.bind_eq_bind, Option.bind_eq_some_iff, Option.some.injEq] at hc
    obtain ⟨n', h1, rfl⟩ := hc
    exact plainIn_leaf fun _ => rfl
  | .record x r fs, h, m, hc => by
    simp only [convert, Option.bind_eq_bind, Option.bind_eq_some_iff] at hc
    obtain ⟨fs', h1, h2⟩ := hc
    exact convertRecord_plain (convertFields_plain m.2.2.2.1 h1) m.2.1 h2
  | .field r x, h, m, hc => by
    simp only [convert, Option.bind_eq_bind, Option.bind_eq_some_iff, Option.some.injEq] at hc
    obtain ⟨r', h1, rfl⟩ := hc
    exact plainIn_same (es := [r']) (fun _ => rfl) (by simpa using convert_plain m.1 h1)
  | .string s, h, m, hc => by cases hc; exact plainIn_leaf fun _ => rfl
  | .unary o e, h, m, hc => by
    simp only [convert, Option.bind_eq_bind, Option.bind_eq_some_iff, Option.some.injEq] at hc
    obtain ⟨e', h1, rfl⟩ := hc
    exact plainIn_unary (convert_plain (e := e) m h1)
  | .variable x, h, m, hc => by cases hc; exact plainIn_leaf fun _ => rfl

theorem convertAll_plain : ∀ {es : List Grammar.Expr} {hs}, allMade es → convertAll R es = some hs →
    ∀ h ∈ hs, PlainIn h
  | [], _, _, h => by cases h; simp
  | e :: es, _, m, h => by
    simp only [convertAll, Option.bind_eq_bind, Option.bind_eq_some_iff, Option.some.injEq] at h
    obtain ⟨e', h1, es', h2, rfl⟩ := h
    simpa using ⟨convert_plain m.1 h1, convertAll_plain m.2 h2⟩

theorem convertIf_plain {f : Hir.Expr} (hf : PlainIn f) : ∀ {bs : List Grammar.Branch} {h},
    allMadeBranches bs → convertIf R f bs = some h → PlainIn h
  | [], _, _, h => by simp [convertIf] at h
  | .mk c b :: bs, h', m, h => by
    simp only [convertIf, Option.bind_eq_bind, Option.bind_eq_some_iff] at h
    obtain ⟨c', h1, b', h2, h3⟩ := h
    have : ∃ e', PlainIn e' ∧ some (.if_ c' b' e') = some h' := by
      split at h3
      · exact ⟨f, hf, h3⟩
      · obtain ⟨e', h4, h5⟩ := Option.bind_eq_some_iff.mp h3
        exact ⟨e', convertIf_plain hf m.2.2 h4, h5⟩
    obtain ⟨e', he, h4⟩ := this
    cases h4
    exact plainIn_same (es := [c', b', e']) (fun _ => rfl)
      (by simpa using ⟨convert_plain m.1 h1, convertBlock_plain m.2.1 h2, he⟩)

theorem convertTypeBranches_plain : ∀ {bs : List Grammar.TypeBranch} {hs}, allMadeTypeBranches bs →
    convertTypeBranches R bs = some hs → ∀ h ∈ hs, PlainIn h.2
  | [], _, _, h => by cases h; simp
  | .mk t b :: bs, _, m, h => by
    simp only [convertTypeBranches, Option.bind_eq_bind, Option.bind_eq_some_iff, Option.some.injEq] at h
    obtain ⟨e', h1, es', h2, rfl⟩ := h
    rw [List.forall_mem_cons]
    exact ⟨convertBlock_plain m.2.1 h1, convertTypeBranches_plain m.2.2 h2⟩

theorem convertElse_plain : ∀ {b : Option Grammar.Block} {h}, madeElse b → convertElse R b = some h →
    ∀ c ∈ h, PlainIn c.2
  | none, _, _, h => by cases h; simp
  | some b, _, m, h => by
    simp only [convertElse, Option.bind_eq_bind, Option.bind_eq_some_iff, Option.some.injEq] at h
    obtain ⟨b', h1, rfl⟩ := h
    rintro _ ⟨⟩
    exact convertBlock_plain m h1

theorem convertBlock_plain : ∀ {b : Grammar.Block} {h}, b.Made → convertBlock R b = some h → PlainIn h
  | .mk ss e, _, m, h => by
    simp only [convertBlock, Option.bind_eq_bind, Option.bind_eq_some_iff] at h
    obtain ⟨e', h1, h2⟩ := h
    exact convertStatements_plain (convert_plain m.2 h1) m.1 h2

theorem convertStatements_plain {f : Hir.Expr} (hf : PlainIn f) : ∀ {ss : List Grammar.Statement} {h},
    allMadeStatements ss → convertStatements R f ss = some h → PlainIn h
  | [], _, _, h => by cases h; exact hf
  | .mk x e :: ss, _, m, h => by
    simp only [convertStatements, Option.bind_eq_bind, Option.bind_eq_some_iff, Option.some.injEq] at h
    obtain ⟨e', h1, s', h2, rfl⟩ := h
    refine plainIn_of fun Γ hΓ k ts ps hp p hm => ?_
    cases hp
    simp only [List.mem_cons, List.not_mem_nil, or_false] at hm
    rcases hm with rfl | rfl
    · exact ⟨hΓ, convert_plain m.2.1 h2⟩
    · refine ⟨fun y hy => ?_, convertStatements_plain hf m.2.2 h1⟩
      rcases List.mem_append.mp hy with hy | hy
      · cases x with
        | none => cases hy
        | some z =>
          simp only [Option.map_some, Option.toList_some, List.mem_singleton] at hy
          subst hy
          exact plain_text (m.1 z rfl)
      · exact hΓ y hy

theorem convertListElements_plain : ∀ {es : List Grammar.ListElement} {hs}, allMadeListElements es →
    convertListElements R es = some hs → ∀ h ∈ hs, PlainIn (Names.listPart h)
  | [], _, _, h => by cases h; simp
  | .multiple e :: es, _, m, h => by
    simp only [convertListElements, Option.bind_eq_bind, Option.bind_eq_some_iff, Option.some.injEq] at h
    obtain ⟨e', h1, es', h2, rfl⟩ := h
    rw [List.forall_mem_cons]
    exact ⟨convert_plain m.1 h1, convertListElements_plain m.2 h2⟩
  | .single e :: es, _, m, h => by
    simp only [convertListElements, Option.bind_eq_bind, Option.bind_eq_some_iff, Option.some.injEq] at h
    obtain ⟨e', h1, es', h2, rfl⟩ := h
    rw [List.forall_mem_cons]
    exact ⟨convert_plain m.1 h1, convertListElements_plain m.2 h2⟩

theorem convertMapElements_plain : ∀ {es : List Grammar.MapElement} {hs}, allMadeMapElements es →
    convertMapElements R es = some hs → ∀ h ∈ hs, ∀ a ∈ Names.mapParts h, PlainIn a
  | [], _, _, h => by cases h; simp
  | .multiple e :: es, _, m, h => by
    simp only [convertMapElements, Option.bind_eq_bind, Option.bind_eq_some_iff, Option.some.injEq] at h
    obtain ⟨e', h1, es', h2, rfl⟩ := h
    rw [List.forall_mem_cons]
    exact ⟨by simpa [Names.mapParts] using convert_plain m.1 h1, convertMapElements_plain m.2 h2⟩
  | .entry k v :: es, _, m, h => by
    simp only [convertMapElements, Option.bind_eq_bind, Option.bind_eq_some_iff, Option.some.injEq] at h
    obtain ⟨k', h1, v', h2, es', h3, rfl⟩ := h
    rw [List.forall_mem_cons]
    exact ⟨by simpa [Names.mapParts] using ⟨convert_plain m.1 h1, convert_plain m.2.1 h2⟩,
      convertMapElements_plain m.2.2 h3⟩

theorem convertRecord_plain {t : Hir.Ty} {fs : List (String × Hir.Expr)} (hf : ∀ f ∈ fs, PlainIn f.2) :
    ∀ {r : Option Grammar.Expr} {h}, madeOption r → convertRecord R t fs r = some h → PlainIn h
  | none, _, _, h => by
    cases h
    refine plainIn_of fun Γ hΓ k ts ps hp p hm => ?_
    cases hp
    simp only [List.mem_map] at hm
    obtain ⟨f, h1, rfl⟩ := hm
    exact ⟨hΓ, hf f h1⟩
  | some e, _, m, h => by
    simp only [convertRecord, Option.bind_eq_bind, Option.bind_eq_some_iff, Option.some.injEq] at h
    obtain ⟨e', h1, rfl⟩ := h
    refine plainIn_of fun Γ hΓ k ts ps hp p hm => ?_
    cases hp
    simp only [List.mem_cons, List.mem_map] at hm
    rcases hm with rfl | ⟨f, h1, rfl⟩
    · exact ⟨hΓ, convert_plain (e := e) m h1⟩
    · exact ⟨hΓ, hf f h1⟩

theorem convertFields_plain : ∀ {fs : List Grammar.Field} {hs}, allMadeFields fs →
    convertFields R fs = some hs → ∀ h ∈ hs, PlainIn h.2
  | [], _, _, h => by cases h; simp
  | .mk x e :: fs, _, m, h => by
    simp only [convertFields, Option.bind_eq_bind, Option.bind_eq_some_iff, Option.some.injEq] at h
    obtain ⟨e', h1, fs', h2, rfl⟩ := h
    rw [List.forall_mem_cons]
    exact ⟨convert_plain m.2.1 h1, convertFields_plain m.2.2 h2⟩

theorem convertCompBranches_plain : ∀ {bs : List Grammar.CompBranch} {hs}, allMadeCompBranches bs →
    convertCompBranches R bs = some hs → ∀ b ∈ hs, PlainBranch b
  | [], _, _, h => by cases h; simp
  | .mk xs es c :: bs, _, m, h => by
    simp only [convertCompBranches, Option.bind_eq_bind, Option.bind_eq_some_iff, Option.some.injEq] at h
    obtain ⟨es', h1, c', h2, bs', h3, rfl⟩ := h
    rw [List.forall_mem_cons]
    refine ⟨⟨?_, ?_, convertCondition_plain m.2.2.2.2.1 h2⟩, convertCompBranches_plain m.2.2.2.2.2 h3⟩
    · intro x hx
      obtain ⟨y, hy, rfl⟩ := List.mem_map.mp hx
      exact plain_text (m.2.1 y hy)
    · intro i hi
      obtain ⟨e, he, rfl⟩ := List.mem_map.mp hi
      exact convertAll_plain m.2.2.2.1 h1 e he

theorem convertCondition_plain : ∀ {c : Option Grammar.Expr} {h}, madeOption c →
    convertCondition R c = some h → ∀ e ∈ h, PlainIn e
  | none, _, _, h => by cases h; simp
  | some e, _, m, h => by
    simp only [convertCondition, Option.bind_eq_bind, Option.bind_eq_some_iff, Option.some.injEq] at h
    obtain ⟨e', h1, rfl⟩ := h
    rintro _ ⟨⟩
    exact convert_plain (e := e) m h1

end

theorem convertFunctions_mem : ∀ {fs : List Grammar.FunctionDefinition} {hs},
    convertFunctions R fs = some hs → ∀ h ∈ hs, ∃ f ∈ fs, convertFunction R f = some h
  | [], _, h => by cases h; simp
  | f :: fs, _, h => by
    simp only [convertFunctions, Option.bind_eq_bind, Option.bind_eq_some_iff, Option.some.injEq] at h
    obtain ⟨f', h1, fs', h2, rfl⟩ := h
    rw [List.forall_mem_cons]
    exact ⟨⟨f, List.mem_cons_self, h1⟩, fun g hg =>
      let ⟨f, hf, h⟩ := convertFunctions_mem h2 g hg; ⟨f, List.mem_cons_of_mem _ hf, h⟩⟩

/-- A converted module is as name resolution expects it. -/
theorem convertModule_written {m : Grammar.Module} (hm : m.Made) {h : Names.Module}
    (hc : convertModule R m = some h) : Names.Written h := by
  simp only [convertModule, Option.bind_eq_bind, Option.bind_eq_some_iff, Option.some.injEq] at hc
  obtain ⟨fs, hf, rfl⟩ := hc
  refine ⟨fun g hg => ?_, fun g hg => ?_, fun t ht => ?_, fun t ht => ?_, rfl⟩
  · obtain ⟨f, hf', hg'⟩ := convertFunctions_mem hf g hg
    simp only [convertFunction, Option.bind_eq_bind, Option.bind_eq_some_iff, Option.some.injEq] at hg'
    obtain ⟨b, hb, rfl⟩ := hg'
    obtain ⟨h1, h2, h3, h4⟩ := hm.2.2.2 f hf'
    have hp : ∀ p ∈ f.lambda.arguments.map fun a => (text a.1, convertType a.2), Plain p.1 := by
      intro p hp
      obtain ⟨a, ha, rfl⟩ := List.mem_map.mp hp
      exact plain_text (h2 a ha).1
    refine ⟨rfl, plain_text h1, hp, fun d => convertBlock_plain h4 hb d _ fun x hx => ?_⟩
    obtain ⟨p, hp', rfl⟩ := List.mem_map.mp (List.mem_reverse.mp hx)
    exact hp p hp'
  · obtain ⟨f, hf, rfl⟩ := List.mem_map.mp hg
    exact plain_text (hm.2.1 f hf).1
  · obtain ⟨d, hd, ht⟩ := List.mem_filterMap.mp ht
    cases d with
    | record x fs => cases ht; exact ⟨rfl, plain_text (hm.2.2.1 _ hd).1, rfl⟩
    | alias_ => cases ht
  · obtain ⟨d, hd, ht⟩ := List.mem_filterMap.mp ht
    cases d with
    | record => cases ht
    | alias_ x t => cases ht; exact ⟨rfl, plain_text (hm.2.2.1 _ hd).1, rfl⟩

theorem isNamePublic_iff {x : Grammar.Name} : isNamePublic x = true ↔ Names.PublicName (text x) := by
  cases x <;> simp [isNamePublic, Names.PublicName]

/-- Records are open if and only if all their fields have public names. -/
theorem convertModule_open {m : Grammar.Module} {h : Names.Module} (hc : convertModule R m = some h) :
    Names.OpenByFields h := by
  simp only [convertModule, Option.bind_eq_bind, Option.bind_eq_some_iff, Option.some.injEq] at hc
  obtain ⟨fs, hf, rfl⟩ := hc
  intro t ht
  obtain ⟨d, hd, ht⟩ := List.mem_filterMap.mp ht
  cases d with
  | record x fs =>
    cases ht
    simp only [List.all_eq_true, isNamePublic_iff, List.mem_map, forall_exists_index, and_imp, Prod.forall]
    exact ⟨fun h f a b hm e => e ▸ h a b hm, fun h a b hm => h _ a b hm rfl⟩
  | alias_ => cases ht

end

end Verif.Front
