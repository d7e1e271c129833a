/-
Model of the prelude's hash map (`/repo/packages/prelude/Map.pen`) and of the native hash helpers
(`/repo/packages/prelude/ffi/src/lib.rs`).

Simplifications, once and for all:
* `any` values are abstracted to a key type `K` and a value type `V`.
* `number`s used for layers, levels and indices are natural numbers (they are tiny integers, exact in
  binary64); hashes are the 64-bit patterns of the `number`s that carry them (`f64::{from,to}_bits`).
* Entry indices are `0..31` (`Fin 32`) instead of `1..32`.
* The 32 record fields `entry1..entry32` are a function `Fin 32 → Entry`.
* `setKeyValue` is not structurally recursive, hence it takes fuel; `none` means "not returned yet".
-/
namespace Verif.Prelude

/-- `_pen_prelude_combine_hashes`: ffi/src/lib.rs:21-30 (`HASH_MULTIPLIER` line 9). -/
def combineHashes (one other : BitVec 64) : BitVec 64 := one * 31#64 + other

/-- `_pen_prelude_hash_to_index`: ffi/src/lib.rs:55-70. `salt layer` stands for
`_pen_prelude_hash_number(layer)` (SipHash, abstract). A shift by 64 or more (level > 13) is a panic in a
debug build and is masked to 6 bits in a release build; the model is the release build. -/
def hashToIndex (salt : Nat → BitVec 64) (hash : BitVec 64) (layer level : Nat) : Fin 32 :=
  ⟨((combineHashes hash (salt layer) >>> ((5 * (level - 1)) % 64)) &&& 31#64).toNat, by
    rw [BitVec.toNat_and]
    exact Nat.lt_of_le_of_lt Nat.and_le_right (by decide)⟩

/-- `MapContext`: Map.pen:17-22 built by `NewMapContext` (74-86). `salt` is the native hash of layer
numbers. -/
structure Ctx (K V : Type) where
  equalKeys : K → K → Bool
  equalValues : V → V → Bool
  hashKey : K → BitVec 64
  hashValue : V → BitVec 64
  salt : Nat → BitVec 64

/-- `entry = keyValue | hamt | none`: Map.pen:12-15, 36-70. -/
inductive Entry (K V : Type) where
  | none
  | kv (key : K) (value : V)
  | hamt (entries : Fin 32 → Entry K V)

/-- `type hamt`: Map.pen:38-70. -/
abbrev Hamt (K V : Type) := Fin 32 → Entry K V

/-- `type Map`: Map.pen:5-8. -/
structure Map (K V : Type) where
  hamt : Hamt K V
  size : Int

/-- `maxLevel`: Map.pen:72. -/
def maxLevel : Nat := 60 / 5

variable {K V : Type}

/-- `newHamt`: Map.pen:92-127. -/
def newHamt : Hamt K V := fun _ => .none

/-- `NewMap`: Map.pen:88-90. -/
def newMap : Map K V := ⟨newHamt, 0⟩

/-- `setEntry`: Map.pen:542-610 (`getEntry`, 472-540, is function application). -/
def setEntry (h : Hamt K V) (i : Fin 32) (e : Entry K V) : Hamt K V :=
  fun j => if j = i then e else h j

/-- `hamtIndex`: Map.pen:444-446. -/
def hamtIndex (ctx : Ctx K V) (key : K) (layer level : Nat) : Fin 32 :=
  hashToIndex ctx.salt (ctx.hashKey key) layer level

/-- The layer and level at which a nested node is entered: the `if level > maxLevel()` conditionals of
`getValue` (142-146), `setKeyValue` (198-202) and `deleteKey` (234-238). -/
def nextLevel (layer level : Nat) : Nat × Nat :=
  if level > maxLevel then (layer + 1, 1) else (layer, level + 1)

/-- The body of `getValue` after the entry is selected: Map.pen:136-150. -/
def getFromEntry (ctx : Ctx K V) (key : K) : Entry K V → Nat → Nat → Option V
  | .none, _, _ => Option.none
  | .kv k v, _, _ => if ctx.equalKeys k key then some v else Option.none
  | .hamt h, layer, level =>
    let n := nextLevel layer level
    getFromEntry ctx key (h (hamtIndex ctx key n.1 n.2)) n.1 n.2

/-- `getValue`: Map.pen:135-151. `Empty{}` is `none`. -/
def getValue (ctx : Ctx K V) (h : Hamt K V) (key : K) (layer level : Nat) : Option V :=
  getFromEntry ctx key (h (hamtIndex ctx key layer level)) layer level

/-- `GetMap`: Map.pen:129-131. -/
def getMap (ctx : Ctx K V) (m : Map K V) (key : K) : Option V := getValue ctx m.hamt key 1 1

/-- `setKeyValue`: Map.pen:169-208. The result is the `hamtUpdate` record. -/
def setKeyValue (ctx : Ctx K V) : Nat → Hamt K V → K → V → Nat → Nat → Option (Hamt K V × Bool)
  | 0, _, _, _, _, _ => Option.none
  | n + 1, h, key, value, layer, level =>
    let i := hamtIndex ctx key layer level
    match h i with
    | .kv k v =>
      if ctx.equalKeys k key then some (setEntry h i (.kv key value), false)
      else
        let l := level + 1
        match setKeyValue ctx n newHamt k v layer l with
        | Option.none => Option.none
        | some u =>
          match setKeyValue ctx n u.1 key value layer l with
          | Option.none => Option.none
          | some u => some (setEntry h i (.hamt u.1), true)
    | .hamt e =>
      let nl := nextLevel layer level
      match setKeyValue ctx n e key value nl.1 nl.2 with
      | Option.none => Option.none
      | some u => some (setEntry h i (.hamt u.1), u.2)
    | .none => some (setEntry h i (.kv key value), true)

/-- `SetMap`: Map.pen:153-167. -/
def setMap (ctx : Ctx K V) (fuel : Nat) (m : Map K V) (key : K) (value : V) : Option (Map K V) :=
  match setKeyValue ctx fuel m.hamt key value 1 1 with
  | Option.none => Option.none
  | some u => some ⟨u.1, m.size + if u.2 then 1 else 0⟩

/-- The loop of `getSingleEntry`: Map.pen:256-270, over the remaining indices. -/
def getSingleEntry (h : Hamt K V) : List (Fin 32) → Entry K V → Entry K V
  | [], e => e
  | i :: is, e =>
    match h i with
    | .none => getSingleEntry h is e
    | ee =>
      match e with
      | .none => getSingleEntry h is ee
      | _ => .none

/-- `normalizeHamt`: Map.pen:248-254. -/
def normalizeHamt (h : Hamt K V) : Entry K V :=
  match getSingleEntry h (List.finRange 32) .none with
  | .none => .hamt h
  | e => e

/-- Put an entry back into a node (`update`, Map.pen:225-227), or return the node as it is (235, 244). -/
def putBack (h : Hamt K V) (i : Fin 32) : Option (Entry K V) → Hamt K V
  | some e => setEntry h i e
  | Option.none => h

/-- The body of `deleteKey` after the entry is selected: the entry to put back, or `none` if the node is
returned as it is, and the `resized` flag. Map.pen:229-245. -/
def deleteFromEntry (ctx : Ctx K V) (key : K) : Entry K V → Nat → Nat → Option (Entry K V) × Bool
  | .kv k _, _, _ => if ctx.equalKeys k key then (some .none, true) else (Option.none, false)
  | .hamt h, layer, level =>
    let n := nextLevel layer level
    let i := hamtIndex ctx key n.1 n.2
    let u := deleteFromEntry ctx key (h i) n.1 n.2
    (some (normalizeHamt (putBack h i u.1)), u.2)
  | .none, _, _ => (Option.none, false)

/-- `deleteKey`: Map.pen:223-246. -/
def deleteKey (ctx : Ctx K V) (h : Hamt K V) (key : K) (layer level : Nat) : Hamt K V × Bool :=
  let i := hamtIndex ctx key layer level
  let u := deleteFromEntry ctx key (h i) layer level
  (putBack h i u.1, u.2)

/-- `DeleteMap`: Map.pen:210-221. -/
def deleteMap (ctx : Ctx K V) (m : Map K V) (key : K) : Map K V :=
  let u := deleteKey ctx m.hamt key 1 1
  ⟨u.1, m.size - if u.2 then 1 else 0⟩

/-- `iterateHamt`: Map.pen:416-434, for one entry with the rest of the iteration. A `MapIterator | none`
is the list of what `MapIteratorKey`/`Value`/`Rest` (436-440) produce; laziness is not modelled. -/
def iterateEntry : Entry K V → List (K × V) → List (K × V)
  | .none, rest => rest
  | .kv k v, rest => (k, v) :: rest
  | .hamt h, rest => (List.finRange 32).foldr (fun i r => iterateEntry (h i) r) rest

/-- `IterateMap`: Map.pen:412-414. -/
def iterateMap (m : Map K V) : List (K × V) :=
  (List.finRange 32).foldr (fun i r => iterateEntry (m.hamt i) r) []

/-- `MapSize`: Map.pen:442. -/
def mapSize (m : Map K V) : Int := m.size

/-- One entry of `mergeHamt`: Map.pen:276-293. -/
def mergeEntry (ctx : Ctx K V) (fuel : Nat) : Entry K V → Map K V → Option (Map K V)
  | .none, m => some m
  | .kv k v, m => setMap ctx fuel m k v
  | .hamt h, m =>
    (List.finRange 32).foldl (fun m? i => m?.bind (fun m => mergeEntry ctx fuel (h i) m)) (some m)

/-- `MergeMaps`: Map.pen:272-274. -/
def mergeMaps (ctx : Ctx K V) (fuel : Nat) (x y : Map K V) : Option (Map K V) :=
  (List.finRange 32).foldl (fun m? i => m?.bind (fun m => mergeEntry ctx fuel (y.hamt i) m)) (some x)

/-- A chain of three-valued tests: `rest()` is only run after `true`. Map.pen:325-382. -/
def andThen (b : Option Bool) (rest : Unit → Option Bool) : Option Bool :=
  match b with
  | some true => rest ()
  | some false => some false
  | Option.none => Option.none

/-- One step of `equalHamts` (Map.pen:332-381): the comparison of two entries. `none` is the Pen
value `none`. -/
def equalEntries (fk : K → K → Option Bool) (fv : V → V → Option Bool) :
    Entry K V → Entry K V → Option Bool
  | .kv k1 v1, .kv k2 v2 => andThen (fk k1 k2) fun _ => fv v1 v2
  | .kv _ _, _ => some false
  | .hamt h1, .hamt h2 =>
    (List.finRange 32).foldr (fun i r => andThen (equalEntries fk fv (h1 i) (h2 i)) fun _ => r) (some true)
  | .hamt _, _ => some false
  | .none, .none => some true
  | .none, _ => some false

/-- `equalHamts` from index 1: Map.pen:325-382. -/
def equalHamts (fk : K → K → Option Bool) (fv : V → V → Option Bool) (h1 h2 : Hamt K V) : Option Bool :=
  (List.finRange 32).foldr (fun i r => andThen (equalEntries fk fv (h1 i) (h2 i)) fun _ => r) (some true)

/-- `EqualMaps`: Map.pen:295-311. -/
def equalMaps (ctx : Ctx K V) (x y : Map K V) : Bool :=
  if x.size = y.size then
    match equalHamts (fun a b => some (ctx.equalKeys a b)) (fun a b => some (ctx.equalValues a b))
        x.hamt y.hamt with
    | some b => b
    | Option.none => false
  else false

/-- `MaybeEqualMaps`: Map.pen:313-323. -/
def maybeEqualMaps (f : K → K → Option Bool) (g : V → V → Option Bool) (x y : Map K V) : Option Bool :=
  if x.size = y.size then equalHamts f g x.hamt y.hamt else some false

/-- One entry of `hashHamt`: Map.pen:390-410. -/
def hashEntry (ctx : Ctx K V) : Entry K V → BitVec 64 → BitVec 64
  | .none, hash => hash
  | .kv k v, hash => combineHashes (combineHashes hash (ctx.hashKey k)) (ctx.hashValue v)
  | .hamt h, hash =>
    combineHashes hash ((List.finRange 32).foldl (fun r i => hashEntry ctx (h i) r) hash)

/-- `HashMap`: Map.pen:384-388; `header` is the bit pattern of the number 5. -/
def hashMap (ctx : Ctx K V) (header : BitVec 64) (m : Map K V) : BitVec 64 :=
  (List.finRange 32).foldl (fun r i => hashEntry ctx (m.hamt i) r) header

end Verif.Prelude
