import Verif.Mir.Semantics

/-
What compiled programs do with the heap: an evaluator for programs after reference counting, which follows the code
generator `/repo/lib/mir-fmm/src/{expression,entry_function,record,box_,variant}.rs` and `reference_count/*.rs`.

* A heap is a list of cells; the address of a cell is its place. Addresses are not reused, so that every use of a freed
  block is a `fault`. Allocation does not fail.
* A count is the number of references (the code stores one less, and other numbers in synchronized blocks; see
  `Verif.Runtime.Arc`). Synchronization does nothing here.
* String literals, global functions and records without fields are not allocated.
* Thunks are evaluated every time they are called, as in `Verif.Mir.Semantics`.
* Native functions read their arguments, drop them and return newly allocated values.
* The first operand of arithmetic and comparison is required to be a number before the second is evaluated: programs are
  typed. (`stuck` otherwise.)
-/
namespace Verif.Mir

/-- Addresses. -/
notation "Addr" => Nat

/-- Values in registers, variables and fields. -/
inductive HVal
  | none
  | boolean (b : Bool)
  | number (n : UInt64)
  | static (s : List UInt8)
  | empty (type : TypeId)
  | pointer (a : Addr)
  | variant (type : TypeId) (v : HVal)
  | global (g : Name)

/-- What blocks contain. A closure has the values of its environment. -/
inductive Block
  | string (s : List UInt8)
  | record (type : TypeId) (vs : List HVal)
  | closure (f : Name) (env args : List Name) (thunk : Bool) (body : Expr) (vs : List HVal)

structure Cell where
  count : Nat
  block : Block

abbrev Heap := List (Option Cell)

/-- The reference a value has: variants have that of their payload. -/
def HVal.addrs : HVal → List Addr
  | .pointer a => [a]
  | .variant _ v => v.addrs
  | _ => []

def Block.fields : Block → List HVal
  | .string _ => []
  | .record _ vs => vs
  | .closure _ _ _ _ _ vs => vs

def addrsOf (vs : List HVal) : List Addr := vs.flatMap HVal.addrs

/-- Replaces a cell. -/
def Heap.put (h : Heap) (a : Addr) (c : Option Cell) : Heap := List.set h a c

def Heap.cell (h : Heap) (a : Addr) : Option Cell := (h[a]?).join

/-- `pointer::clone`: reference_count/pointer.rs:24-118. `none`: the block is not there. -/
def Heap.retain (h : Heap) (a : Addr) : Option Heap :=
  match h.cell a with
  | some c => some (h.put a (some { c with count := c.count + 1 }))
  | none => none

def Heap.retainAll (h : Heap) : List Addr → Option Heap
  | [] => some h
  | a :: as => (h.retain a).bind fun h => h.retainAll as

/-- How many blocks there are. -/
def Heap.live (h : Heap) : Nat := h.countP Option.isSome

theorem Heap.live_put_none {h : Heap} {a : Addr} {c : Cell} (hc : h.cell a = some c) : (h.put a none).live < h.live := by
  unfold Heap.cell at hc
  unfold Heap.put
  induction h generalizing a with
  | nil => simp at hc
  | cons o h ih =>
    cases a with
    | zero =>
      simp at hc
      subst hc
      simp [Heap.live, List.countP_cons]
    | succ a =>
      simp at hc
      have := @ih a hc
      simp only [Heap.live, List.set_cons_succ, List.countP_cons] at this ⊢
      omega

theorem Heap.live_put_some {h : Heap} {a : Addr} {c c' : Cell} (hc : h.cell a = some c) :
    (h.put a (some c')).live = h.live := by
  unfold Heap.cell at hc
  unfold Heap.put
  induction h generalizing a with
  | nil => simp at hc
  | cons o h ih =>
    cases a with
    | zero =>
      simp at hc
      subst hc
      simp [Heap.live, List.countP_cons]
    | succ a =>
      simp at hc
      have := @ih a hc
      simp only [Heap.live, List.set_cons_succ, List.countP_cons] at this ⊢
      omega

/-- `pointer::drop`: reference_count/pointer.rs:133-196: with the last reference the fields are dropped and the block is
freed. The list is what is still to be dropped. -/
def Heap.release (h : Heap) : List Addr → Option Heap
  | [] => some h
  | a :: as =>
    match hc : h.cell a with
    | some c =>
      if c.count = 1 then Heap.release (h.put a none) (addrsOf c.block.fields ++ as)
      else Heap.release (h.put a (some { c with count := c.count - 1 })) as
    | none => none
termination_by as => (h.live, as.length)
decreasing_by
  · exact Prod.Lex.left _ _ (Heap.live_put_none hc)
  · rw [Heap.live_put_some hc]
    exact Prod.Lex.right _ (by simp)

/-- `heap::allocate`: reference_count/heap.rs:3-25. -/
def Heap.alloc (h : Heap) (b : Block) : HVal × Heap := (.pointer h.length, h ++ [some ⟨1, b⟩])

abbrev HEnv := Name → Option HVal

def HEnv.set (ρ : HEnv) (x : Name) (v : HVal) : HEnv := fun y => if y = x then some v else ρ y

def HEnv.setMany (ρ : HEnv) : List Name → List HVal → Option HEnv
  | [], [] => some ρ
  | x :: xs, v :: vs => (ρ.set x v).setMany xs vs
  | _, _ => none

/-- Results. -/
inductive HR (α : Type)
  | ok (a : α) (h : Heap) (log : Log)
  | ret (v : HVal) (h : Heap) (log : Log)
  | timeout
  | stuck
  /-- a block is used that is freed -/
  | fault

def HR.bind {α β : Type} (r : HR α) (f : α → Heap → Log → HR β) : HR β :=
  match r with
  | .ok a h l => f a h l
  | .ret v h l => .ret v h l
  | .timeout => .timeout
  | .stuck => .stuck
  | .fault => .fault

def HR.catch : HR HVal → HR HVal
  | .ret v h l => .ok v h l
  | r => r

/-- The result of a heap operation. -/
def HR.heap (o : Option Heap) (f : Heap → HR HVal) : HR HVal :=
  match o with
  | some h => f h
  | none => .fault

def Literal.hvalue : Literal → HVal
  | .none => .none
  | .boolean b => .boolean b
  | .number n => .number n
  | .string s => .static s

/-- The bytes of a string. -/
def Heap.stringOf (h : Heap) : HVal → HR (List UInt8)
  | .static s => .ok s h []
  | .pointer a =>
    match h.cell a with
    | some ⟨_, .string s⟩ => .ok s h []
    | some _ => .stuck
    | none => .fault
  | _ => .stuck

def Heap.strings (h : Heap) : List HVal → HR (List UInt8)
  | [] => .ok [] h []
  | v :: vs => (h.stringOf v).bind fun s _ _ => (h.strings vs).bind fun t _ _ => .ok (s ++ t) h []

/-- New fields. -/
def updateHVals (vs : List HVal) : List Nat → List HVal → Option (List HVal)
  | [], [] => some vs
  | i :: is, w :: ws => if i < vs.length then updateHVals (vs.set i w) is ws else none
  | _, _ => none

/-- The fields with these indices. -/
def fieldsAt (vs : List HVal) (is : List Nat) : List HVal := is.filterMap (vs[·]?)

/-- The fields with other indices than these. -/
def fieldsNotAt (vs : List HVal) (is : List Nat) : List HVal :=
  (List.range vs.length).filterMap fun i => if i ∈ is then none else vs[i]?

/-- `RecordUpdate` of a record with fields: expression.rs:82-187: in place if there are no other references. -/
def updateRecord (h : Heap) (a : Addr) (is : List Nat) (ws : List HVal) (log : Log) : HR HVal :=
  match h.cell a with
  | some ⟨n, .record t vs⟩ =>
    match updateHVals vs is ws with
    | some vs' =>
      if n = 1 then
        HR.heap (Heap.release (h.put a (some ⟨1, .record t vs'⟩)) (addrsOf (fieldsAt vs is))) fun h => .ok (.pointer a) h log
      else
        HR.heap (h.retainAll (addrsOf (fieldsNotAt vs is))) fun h =>
          let r := h.alloc (.record t vs')
          HR.heap (r.2.release [a]) fun h => .ok r.1 h log
    | none => .stuck
  | some _ => .stuck
  | none => .fault

/-- `RecordField` of a record with fields: expression.rs:65-81. -/
def loadField (h : Heap) (a : Addr) (i : Nat) (log : Log) : HR HVal :=
  match h.cell a with
  | some ⟨_, .record _ vs⟩ =>
    match vs[i]? with
    | some v => HR.heap (h.retainAll v.addrs) fun h => HR.heap (h.release [a]) fun h => .ok v h log
    | none => .stuck
  | some _ => .stuck
  | none => .fault

/-- Strict operations other than calls: expression.rs:17-293. -/
def applyHeap (w : World) (p : Program) (h : Heap) (log : Log) : Op → List HVal → HR HVal
  | .arithmetic o, [.number a, .number b] => .ok (.number (w.arithmetic o a b)) h log
  | .comparison o, [.number a, .number b] => .ok (.boolean (w.comparison o a b)) h log
  | .record t, [] => .ok (.empty t) h log
  | .record t, v :: vs =>
    let r := h.alloc (.record t (v :: vs))
    .ok r.1 r.2 log
  | .field i, [.pointer a] => loadField h a i log
  | .update [], [.empty t] => .ok (.empty t) h log
  | .update is, .pointer a :: ws => updateRecord h a is ws log
  | .concatenation, vs => (h.strings vs).bind fun s _ _ =>
      let r := h.alloc (.string s)
      HR.heap (r.2.release (addrsOf vs)) fun h => .ok r.1 h log
  | .synchronize, [v] => .ok v h log
  | .typeInformation, [.variant t v] => HR.heap (h.release v.addrs) fun h => .ok (.global (p.typeInformation t)) h log
  | .variant t, [v] => .ok (.variant t v) h log
  | _, _ => .stuck

def HVal.isNumber : HVal → Bool
  | .number _ => true
  | _ => false

abbrev HCaller := HVal → List HVal → Heap → Log → HR HVal

def hlookup (p : Program) (ρ : HEnv) (x : Name) : Option HVal :=
  match ρ x with
  | some v => some v
  | none => if p.isGlobal x then some (.global x) else none

def HR.ofOption {α : Type} (o : Option α) (h : Heap) (l : Log) : HR α :=
  match o with
  | some a => .ok a h l
  | none => .stuck

/-- The values of variables. -/
def HEnv.values (ρ : HEnv) (xs : List Name) : Option (List HVal) := xs.mapM ρ

/-- See `matchAlternative`. -/
def hmatch (types : Option (List TypeId)) (t : TypeId) (v : HVal) : Option HVal :=
  match types with
  | none => some (.variant t v)
  | some [t'] => if t' = t then some v else none
  | some ts => if t ∈ ts then some (.variant t v) else none

mutual
/-- Evaluation: expression.rs:11-661. -/
def heval (w : World) (p : Program) (call : HCaller) : HEnv → Expr → Heap → Log → HR HVal
  | _, .literal l, h, log => .ok l.hvalue h log
  | ρ, .variable x, h, log => HR.ofOption (hlookup p ρ x) h log
  | ρ, .op o es, h, log => (hevals w p call o.scalar ρ es h log).bind fun vs h log =>
      match o, vs with
      | .call, f :: args => call f args h log
      | o, vs => applyHeap w p h log o vs
  | ρ, .case e as, h, log => (heval w p call ρ e h log).bind fun v h log =>
      match v with
      | .variant t v => hevalAlts w p call ρ t v as h log
      | _ => .stuck
  | ρ, .if_ c t e, h, log => (heval w p call ρ c h log).bind fun v h log =>
      match v with
      | .boolean true => heval w p call ρ t h log
      | .boolean false => heval w p call ρ e h log
      | _ => .stuck
  | ρ, .let_ x e b, h, log => (heval w p call ρ e h log).bind fun v h log => heval w p call (ρ.set x v) b h log
  | ρ, .letRec f env args th body b, h, log =>
    match ρ.values env with
    | some vs =>
      let r := h.alloc (.closure f env args th body vs)
      heval w p call (ρ.set f r.1) b r.2 log
    | none => .stuck
  | ρ, .try_ e x t then_, h, log => (heval w p call ρ e h log).bind fun v h log =>
      match v with
      | .variant t' u =>
        if t' = t then (heval w p call (ρ.set x u) then_ h log).bind fun r h log => .ret r h log
        else .ok v h log
      | _ => .stuck
  | ρ, .clone xs e, h, log =>
    match ρ.values xs with
    | some vs => HR.heap (h.retainAll (addrsOf vs)) fun h => heval w p call ρ e h log
    | none => .stuck
  | ρ, .drop xs e, h, log =>
    match ρ.values xs with
    | some vs => HR.heap (h.release (addrsOf vs)) fun h => heval w p call ρ e h log
    | none => .stuck
def hevals (w : World) (p : Program) (call : HCaller) (scalar : Bool) : HEnv → Exprs → Heap → Log → HR (List HVal)
  | _, .nil, h, log => .ok [] h log
  | ρ, .cons e es, h, log => (heval w p call ρ e h log).bind fun v h log =>
      if scalar && !v.isNumber then .stuck
      else (hevals w p call scalar ρ es h log).bind fun vs h log => .ok (v :: vs) h log
def hevalAlts (w : World) (p : Program) (call : HCaller) : HEnv → TypeId → HVal → Alts → Heap → Log → HR HVal
  | _, _, _, .nil, _, _ => .stuck
  | ρ, t, v, .cons ts x e as, h, log => match hmatch ts t v with
    | some u => heval w p call (ρ.set x u) e h log
    | none => hevalAlts w p call ρ t v as h log
end

/-! ### Native code -/

mutual
/-- What native code sees of a value, given what it sees of blocks. -/
def HVal.view (view : Addr → Option Obs) : HVal → Option Obs
  | .none => some .none
  | .boolean b => some (.boolean b)
  | .number n => some (.number n)
  | .static s => some (.string s)
  | .empty t => some (.record t [])
  | .pointer a => view a
  | .variant t v => (v.view view).map (.variant t)
  | .global _ => some .function
end

/-- What native code sees of a block. The bound is the number of blocks that have not been visited on the way there. -/
def Heap.view : Nat → Heap → Addr → Option Obs
  | 0, _, _ => none
  | n + 1, h, a =>
    match h.cell a with
    | some ⟨_, .string s⟩ => some (.string s)
    | some ⟨_, .record t vs⟩ => (vs.mapM (HVal.view (Heap.view n (h.put a none)))).map (.record t)
    | some ⟨_, .closure ..⟩ => some .function
    | none => none

def Heap.viewAll (h : Heap) (vs : List HVal) : Option (List Obs) := vs.mapM (HVal.view (Heap.view h.live h))

mutual
/-- Allocates a value that native code returns; it returns no functions. -/
def Heap.allocObs (h : Heap) : Obs → Option (HVal × Heap)
  | .none => some (.none, h)
  | .boolean b => some (.boolean b, h)
  | .number n => some (.number n, h)
  | .string s => some (h.alloc (.string s))
  | .record t [] => some (.empty t, h)
  | .record t (v :: vs) => (h.allocObsList (v :: vs)).map fun r => r.2.alloc (.record t r.1)
  | .variant t v => (h.allocObs v).map fun r => (.variant t r.1, r.2)
  | .function => none
def Heap.allocObsList (h : Heap) : List Obs → Option (List HVal × Heap)
  | [] => some ([], h)
  | v :: vs => (h.allocObs v).bind fun r => (r.2.allocObsList vs).map fun q => (r.1 :: q.1, q.2)
end

/-- A native function: it reads its arguments, drops them and returns a value. `fault` if it sees a freed block. -/
def hcallForeign (w : World) (g : Name) (vs : List HVal) (h : Heap) (log : Log) : HR HVal :=
  match h.viewAll vs with
  | some args =>
    let result := w.foreign log g args
    HR.heap (h.release (addrsOf vs)) fun h =>
      match h.allocObs result with
      | some r => .ok r.1 r.2 (⟨g, args, result⟩ :: log)
      | none => .stuck
  | none => .fault

/-- Calls: a closure is owned by the function called, which clones its environment: entry_function.rs:69-119. -/
def happly (w : World) (p : Program) : Nat → HCaller
  | 0, _, _, _, _ => .timeout
  | n + 1, .pointer a, vs, h, log =>
    match h.cell a with
    | some ⟨_, .closure f env args _ body us⟩ =>
      HR.heap (h.retainAll (addrsOf us)) fun h =>
        match HEnv.setMany (fun _ => none) env us with
        | some ρ =>
          match (ρ.set f (.pointer a)).setMany args vs with
          | some ρ => (heval w p (happly w p n) ρ body h log).catch
          | none => .stuck
        | none => .stuck
    | some _ => .stuck
    | none => .fault
  | n + 1, .global g, vs, h, log =>
    match p.find g with
    | some d =>
      match HEnv.setMany (fun _ => none) d.args vs with
      | some ρ => (heval w p (happly w p n) ρ d.body h log).catch
      | none => .stuck
    | none => if p.foreign.contains g then hcallForeign w g vs h log else .stuck
  | _ + 1, _, _, _, _ => .stuck

/-- Running a global function with arguments from native code, from an empty heap. -/
def Program.hrun (w : World) (p : Program) (fuel : Nat) (g : Name) (args : List Obs) : HR HVal :=
  match Heap.allocObsList [] args with
  | some (vs, h) => happly w p fuel (.global g) vs h []
  | none => .stuck

end Verif.Mir
