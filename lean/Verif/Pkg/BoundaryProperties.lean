import Verif.Pkg.Boundary
/-
C76: lists and headers that cross the boundary to native code.
-/
namespace Verif.Pkg.Boundary

open Verif.Prelude Verif.Prelude.Lists Verif.Core.Lists

/-! ### Lists -/

section
variable {ε α : Type}

theorem fromIterator_cons (x : α) (xs : List α) :
    (fromIterator (x :: xs) : PenList ε α) = prependToList ⟨[], x⟩ (fromIterator xs) := by
  simp [fromIterator, List.foldl_append]

/-- Lists that native code makes have the elements of the native sequence in order, evaluated already. -/
theorem c76_native_lists (xs : List α) : Seq (fromIterator xs : PenList ε α) (xs.map fun x => ⟨[], x⟩) := by
  induction xs with
  | nil => exact seq_nil_iff.mpr rfl
  | cons x xs ih => rw [fromIterator_cons]; exact seq_cons_iff.mpr ⟨_, rfl, ih⟩

/-- Native code that takes some elements of a list gets the first ones, in order; only they are evaluated, each right
after its node is looked at. -/
theorem c76_streams_of_lists (cs : List (List ε × Thunk ε α)) (rest : Nodes ε α) :
    pull cs.length (cells cs rest) = (allEvents cs, values cs) := by
  induction cs with
  | nil => rfl
  | cons c cs ih =>
    obtain ⟨log, x⟩ := c
    simp [pull, cells, next, ih, allEvents, values]

/-- Native code that takes more elements than there are gets all of them, and sees the end. -/
theorem c76_streams_end (cs : List (List ε × Thunk ε α)) (log : List ε) (n : Nat) :
    pull (cs.length + n + 1) (cells cs (.nil log)) = (allEvents cs ++ log, values cs) := by
  induction cs with
  | nil => simp [pull, cells, next, allEvents, values]
  | cons c cs ih =>
    obtain ⟨l, x⟩ := c
    rw [show ((l, x) :: cs).length + n + 1 = (cs.length + n + 1) + 1 by simp; omega]
    generalize cs.length + n + 1 = k at ih
    simp [pull, cells, next, ih, allEvents, values]

/-- A native sequence made into a list and taken from it is the same sequence. -/
theorem c76_lists_there_and_back (xs : List α) (n : Nat) :
    pull (xs.length + n + 1) (fromIterator xs : PenList ε α).node = ([], xs) := by
  have h : (fromIterator xs : PenList ε α).node = cells (xs.map fun x => ([], ⟨[], x⟩)) (.nil []) := by
    induction xs with
    | nil => rfl
    | cons x xs ih => rw [fromIterator_cons]; simp [prependToList, cells, ih]
  rw [h]
  have := c76_streams_end (xs.map fun x => (([] : List ε), (⟨[], x⟩ : Thunk ε α))) [] n
  rw [List.length_map] at this
  rw [this]
  have h1 : allEvents (xs.map fun x => (([] : List ε), (⟨[], x⟩ : Thunk ε α))) = [] := by
    clear h this
    induction xs with
    | nil => rfl
    | cons x xs ih => simp [allEvents, ih]
  have h2 : values (xs.map fun x => (([] : List ε), (⟨[], x⟩ : Thunk ε α))) = xs := by
    simp [values, Function.comp_def]
  rw [h1, h2]; rfl
end

/-! ### Headers -/

/-- The value on the last line with a name. -/
def lastValue (name : Bytes) : List (Bytes × Bytes) → Option Bytes
  | [] => none
  | (k, v) :: lines =>
    match lastValue name lines with
    | some w => some w
    | none => if k = name then some v else none

section
variable (hash : Bytes → BitVec 64) (salt : Nat → BitVec 64)

theorem stringContext_lawful : (stringContext hash salt).Lawful where
  symm := by simp only [stringContext, beq_iff_eq]; exact fun _ _ h => h.symm
  trans := by simp only [stringContext, beq_iff_eq]; exact fun _ _ _ h1 h2 => h1.trans h2
  hash := by simp only [stringContext, beq_iff_eq]; exact fun _ _ h => by rw [h]

variable {hash salt}

theorem headerSet_eq {fuel : Nat} {m : Map Bytes Bytes} {name value : Bytes} :
    headerSet (stringContext hash salt) fuel m name value = setMap (stringContext hash salt) fuel m name value := rfl

theorem receive_get {fuel : Nat} (lines : List (Bytes × Bytes)) {m m' : Map Bytes Bytes}
    (hb : Built (stringContext hash salt) m) (h : receive (stringContext hash salt) fuel lines m = some m') :
    Built (stringContext hash salt) m' ∧ ∀ k, getMap (stringContext hash salt) m' k =
      match lastValue k lines with
      | some v => some v
      | none => getMap (stringContext hash salt) m k := by
  induction lines generalizing m with
  | nil => simp only [receive, Option.some.injEq] at h; subst h; exact ⟨hb, fun k => rfl⟩
  | cons p lines ih =>
    obtain ⟨name, value⟩ := p
    simp only [receive, headerSet_eq, Option.bind_eq_some_iff] at h
    obtain ⟨m1, h1, h2⟩ := h
    obtain ⟨hb', hg⟩ := ih (.set hb h1) h2
    refine ⟨hb', fun k => ?_⟩
    rw [hg k, lastValue]
    have := set_get (stringContext_lawful hash salt) (hb.inv (stringContext_lawful hash salt)) h1 k
    cases lastValue k lines with
    | some w => rfl
    | none =>
      rw [this]
      simp only [stringContext, beq_iff_eq]
      by_cases hk : name = k <;> simp [hk]

/-- The headers that a program gets have, for every name, the value of the last line with the name. -/
theorem c76_received_headers {fuel : Nat} {lines : List (Bytes × Bytes)} {m : Map Bytes Bytes}
    (h : receive (stringContext hash salt) fuel lines newMap = some m) (k : Bytes) :
    getMap (stringContext hash salt) m k = lastValue k lines := by
  rw [(receive_get lines .new h).2 k]
  cases lastValue k lines with
  | some v => rfl
  | none =>
    exact Option.eq_none_iff_forall_ne_some.mpr fun v hv => by
      have := (c14_iterate_partial (stringContext_lawful hash salt) (.new (ctx := stringContext hash salt))).2.2.1 k v hv
      obtain ⟨k', h1, _⟩ := this
      have hsize := (c14_iterate_partial (stringContext_lawful hash salt) (.new (ctx := stringContext hash salt))).2.2.2
      have : (iterateMap (newMap : Map Bytes Bytes)).length = 0 := by
        simpa [mapSize, newMap] using hsize
      rw [List.length_eq_zero_iff.mp this] at h1
      simp at h1

theorem mapM_forall₂ {α β : Type} {f : α → Option β} : ∀ {l : List α} {r : List β}, l.mapM f = some r →
    List.Forall₂ (fun a b => f a = some b) l r
  | [], r, h => by
    simp only [List.mapM_nil, Option.pure_def, Option.some.injEq] at h
    subst h; exact .nil
  | a :: l, r, h => by
    simp only [List.mapM_cons, Option.bind_eq_bind, Option.pure_def, Option.bind_eq_some_iff, Option.some.injEq] at h
    obtain ⟨b, hb, bs, hbs, rfl⟩ := h
    exact .cons hb (mapM_forall₂ hbs)

/-- Every header of a map is sent as one line, with its name and value as the HTTP library writes them, and nothing
else is. -/
theorem c76_sent_headers {headerName headerValue : Bytes → Option Bytes} {m : Map Bytes Bytes}
    (hb : Built (stringContext hash salt) m) {lines : List (Bytes × Bytes)}
    (h : send (stringContext hash salt) headerName headerValue m = some lines) :
    (lines.length : Int) = mapSize m ∧
    (∀ name value, (name, value) ∈ lines ↔ ∃ k v, getMap (stringContext hash salt) m k = some v ∧
      headerName k = some name ∧ headerValue v = some value) := by
  obtain ⟨_, h2, h3, h4⟩ := c14_iterate_partial (stringContext_lawful hash salt) hb
  unfold send at h
  replace h := mapM_forall₂ h
  have hlen : lines.length = (iterateMap m).length := by
    rw [← h.length_eq]; simp [headerKeys]
  refine ⟨by rw [hlen]; exact h4, fun name value => ?_⟩
  constructor
  · intro hm
    obtain ⟨i, hi, he⟩ := List.getElem_of_mem hm
    have hi' : i < (headerKeys m).length := by rw [h.length_eq]; exact hi
    have := (List.forall₂_iff_get.mp h).2 i hi' hi
    simp only [List.get_eq_getElem, he] at this
    have hk : (headerKeys m)[i] ∈ headerKeys m := List.getElem_mem _
    obtain ⟨p, hp, hpk⟩ := List.mem_map.mp hk
    have hg := h2 p.1 p.2 hp (by simp [stringContext])
    rw [← hpk] at this
    simp only [headerGet, hg, Option.getD_some, Option.bind_eq_some_iff, Option.map_eq_some_iff, Prod.mk.injEq] at this
    obtain ⟨a, h5, b, h6, rfl, rfl⟩ := this
    exact ⟨_, _, hg, h5, h6⟩
  · rintro ⟨k, v, hg, hn, hv⟩
    obtain ⟨k', hp, hk⟩ := h3 k v hg
    simp only [stringContext, beq_iff_eq] at hk
    subst hk
    have hk : k' ∈ headerKeys m := List.mem_map.mpr ⟨_, hp, rfl⟩
    obtain ⟨i, hi, he⟩ := List.getElem_of_mem hk
    have hi' : i < lines.length := by rw [← h.length_eq]; exact hi
    have := (List.forall₂_iff_get.mp h).2 i hi hi'
    simp only [List.get_eq_getElem, he, headerGet, hg, Option.getD_some, hn, hv, Option.bind_some, Option.map_some,
      Option.some.injEq] at this
    rw [this]
    exact List.getElem_mem _

theorem lastValue_some {name v : Bytes} {lines : List (Bytes × Bytes)} (h : lastValue name lines = some v) :
    (name, v) ∈ lines := by
  induction lines with
  | nil => simp [lastValue] at h
  | cons p lines ih =>
    obtain ⟨k, w⟩ := p
    unfold lastValue at h
    split at h
    · rename_i u hu
      simp only [Option.some.injEq] at h
      subst h
      exact List.mem_cons_of_mem _ (ih hu)
    · split at h
      · rename_i hk; simp only [Option.some.injEq] at h; subst h; subst hk; exact List.mem_cons_self ..
      · simp at h

theorem lastValue_none {name : Bytes} {lines : List (Bytes × Bytes)} (h : lastValue name lines = none) (v : Bytes) :
    (name, v) ∉ lines := by
  induction lines with
  | nil => simp
  | cons p lines ih =>
    obtain ⟨k, w⟩ := p
    unfold lastValue at h
    split at h
    · simp at h
    · rename_i hu
      split at h
      · simp at h
      · rename_i hk
        intro hm
        rcases List.mem_cons.mp hm with hm | hm
        · simp only [Prod.mk.injEq] at hm; exact hk hm.1.symm
        · exact ih hu hm

/-- Headers whose names are in lower case, or in general written as they are, arrive as they are sent, in whichever
order their lines arrive. -/
theorem c76_headers_there_and_back {headerName headerValue : Bytes → Option Bytes} {fuel : Nat} {m m' : Map Bytes Bytes}
    (hb : Built (stringContext hash salt) m)
    (hn : ∀ k v, getMap (stringContext hash salt) m k = some v → headerName k = some k ∧ headerValue v = some v)
    {lines arrived : List (Bytes × Bytes)}
    (hs : send (stringContext hash salt) headerName headerValue m = some lines)
    (hp : arrived.Perm lines) (hr : receive (stringContext hash salt) fuel arrived newMap = some m') (k : Bytes) :
    getMap (stringContext hash salt) m' k = getMap (stringContext hash salt) m k := by
  obtain ⟨_, hl⟩ := c76_sent_headers hb hs
  rw [c76_received_headers hr k]
  cases h : lastValue k arrived with
  | some v =>
    obtain ⟨k', v', h1, h2, h3⟩ := (hl k v).mp (hp.mem_iff.mp (lastValue_some h))
    have := hn k' v' h1
    rw [h2, h3, Option.some.injEq, Option.some.injEq] at this
    rw [this.1, this.2, h1]
  | none =>
    cases hg : getMap (stringContext hash salt) m k with
    | none => rfl
    | some v =>
      have := hn k v hg
      exact absurd (hp.mem_iff.mpr ((hl k v).mpr ⟨k, v, hg, this.1, this.2⟩)) (lastValue_none h v)

/-- Such headers can be sent. -/
theorem c76_headers_are_sent {headerName headerValue : Bytes → Option Bytes} {m : Map Bytes Bytes}
    (hb : Built (stringContext hash salt) m)
    (hn : ∀ k v, getMap (stringContext hash salt) m k = some v → headerName k = some k ∧ headerValue v = some v) :
    (send (stringContext hash salt) headerName headerValue m).isSome = true := by
  obtain ⟨_, h2, _, _⟩ := c14_iterate_partial (stringContext_lawful hash salt) hb
  unfold send
  have key : ∀ l : List (Bytes × Bytes), (∀ p ∈ l, p ∈ iterateMap m) →
      ((l.map (·.1)).mapM fun key => (headerName key).bind fun name =>
        (headerValue (headerGet (stringContext hash salt) m key)).map fun value => (name, value)).isSome = true := by
    intro l hl
    induction l with
    | nil => rfl
    | cons p l ih =>
      have hg := h2 p.1 p.2 (hl p (List.mem_cons_self ..)) (by simp [stringContext])
      have h3 := hn _ _ hg
      have h4 := ih fun q hq => hl q (List.mem_cons_of_mem _ hq)
      obtain ⟨r, hr⟩ := Option.isSome_iff_exists.mp h4
      simp only [List.map_cons, List.mapM_cons, headerGet, hg, Option.getD_some, h3.1, h3.2, Option.bind_some,
        Option.map_some, Option.bind_eq_bind]
      simp only [headerGet] at hr
      rw [hr]; rfl
  exact key _ fun _ h => h

end

/-! ### Counterexamples and examples -/

/-- A hash function of strings. -/
def sampleHash (s : Bytes) : BitVec 64 := s.foldl (fun h b => (h * 31#64 + b.toBitVec.setWidth 64) * 0xEF7BDEF7BDEF7BDF#64) 7#64

/-- The sample context. -/
def sampleContext : Ctx Bytes Bytes := stringContext sampleHash fun _ => 0#64

/-- Of headers with one name, such as those that set several cookies, all but the last are lost. -/
theorem c76_repeated_headers_are_lost : ((receive sampleContext 13 [([1], [10]), ([1], [20])] newMap).map iterateMap) =
    some [([1], [20])] := by decide +kernel

/-- The library's normalization of names: letters in lower case. -/
def lowerCase (s : Bytes) : Option Bytes := some (s.map fun b => if 65 ≤ b ∧ b ≤ 90 then b + 32 else b)

/-- A header that is sent with capital letters in its name is not found by that name. -/
theorem c76_capital_letters_are_lost :
    (((receive sampleContext 13 [([65], [10])] newMap).bind fun m =>
      send sampleContext lowerCase some m).bind fun lines =>
        (receive sampleContext 13 lines newMap).map fun m => (headerGet sampleContext m [65], headerGet sampleContext m [97]))
      = some ([], [10]) := by decide +kernel

example : pull 2 (cells [(["1"], ⟨["one"], 1⟩), (["2"], ⟨["two"], 2⟩)] (.cons ["3"] ⟨["three"], 3⟩ (.nil []))) =
    (["1", "one", "2", "two"], [1, 2]) :=
  c76_streams_of_lists [(["1"], ⟨["one"], 1⟩), (["2"], ⟨["two"], 2⟩)] _

/-- Two headers that arrive as they are sent. -/
example : (((receive sampleContext 13 [([97], [10]), ([98], [20])] newMap).bind fun m =>
      send sampleContext lowerCase some m).bind fun lines =>
        (receive sampleContext 13 lines newMap).map fun m => (headerGet sampleContext m [97], headerGet sampleContext m [98]))
      = some ([10], [20]) := by decide +kernel

end Verif.Pkg.Boundary
