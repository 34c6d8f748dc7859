import Verif.Common.Mem
/-!
# Model of element accessors (internal/container) and handles with offsets

Fixed buffer vectors and strings do not hand out references to their elements but accessors: `v[i]`, `front()`, `back()`
(and `at(i)`, except for layer1 vectors).

Not modelled: constness (accessors of a `const` vector can be written through), accessors of AVR program memory, and
iterators (their `operator*` is a plain reference; C10).
-/
namespace Verif.Accessor
open Verif

/-! ## Accessors of pinned memory: traditional_accessor -/

/-- a vector over a fixed buffer (`mem`, of which the first `n` elements are in use) and the accessor variables of the
program: each is a pointer into the buffer, traditional_accessor.h:21 -/
structure St (α : Type u) where
  mem : List α
  n : Nat
  accs : List Nat
  deriving DecidableEq, Repr

/-- an expression of accessor type: `v[i]` (runtime_array.h:333-337), `v.front()` (339-342), `v.back()` (344-347), or an
accessor variable -/
inductive Src where
  | elem (i : Nat)
  | front
  | back
  | var (k : Nat)
  deriving DecidableEq, Repr

/-- what stands on the left of an assignment: an expression of accessor type, or `v.at(i)` of a layer1 vector, which is
a reference (vector.h:42-45) -/
inductive Dst where
  | src (s : Src)
  | at_ (i : Nat)
  deriving DecidableEq, Repr

/-- statements -/
inductive Op (α : Type u) where
  /-- `auto a = s;` -/
  | bind (s : Src)
  /-- `d = x;` for a value `x` -/
  | store (d : Dst) (x : α)
  /-- `d = s;` -/
  | assign (d : Dst) (s : Src)
  /-- read `s` as a value -/
  | load (s : Src)
  /-- `s == x` -/
  | eq (s : Src) (x : α)
  /-- `s != x` -/
  | ne (s : Src) (x : α)
  /-- `v.push_back(x)` within the capacity -/
  | push (x : α)
  /-- `v.pop_back()` -/
  | pop
  deriving DecidableEq, Repr

/-- what a statement yields -/
inductive Out (α : Type u) where
  | none
  | val (x : α)
  | bool (b : Bool)
  deriving DecidableEq, Repr

variable {α : Type u}

/-- the constructor `traditional_accessor(a, h)`, traditional_accessor.h:29-34: the address of element `o` of the buffer;
forming an address outside it is undefined -/
def addr (s : St α) (o : Nat) : Option Nat := if o ≤ s.mem.length then some o else none

/-- the pointer an expression yields.  `back()` of an empty vector asks for element `size() - 1`. -/
def Src.ptr (s : St α) : Src → Option Nat
  | .elem i => addr s i
  | .front => addr s 0
  | .back => if s.n = 0 then none else addr s (s.n - 1)
  | .var k => s.accs[k]?

/-- `lock()`, traditional_accessor.h:42-43 and locking_accessor.h:39-40 (unlocking does nothing, 44): the element read -/
def Src.read (s : St α) (e : Src) : Option α :=
  match e.ptr s with
  | none => none
  | some p => rd s.mem p

/-- the object an assignment of a value writes: locking_accessor.h:53-58 (`lock() = copy_from`) and
traditional_accessor.h:65-69, or the reference of `at` -/
def Dst.ptr (s : St α) : Dst → Option Nat
  | .src e => e.ptr s
  | .at_ i => addr s i

/-- `d = x` -/
def storeAt (s : St α) (d : Dst) (x : α) : Option (St α) :=
  match d.ptr s with
  | none => none
  | some p => (wr s.mem p x).map fun m => { s with mem := m }

/-- `d = e` with an accessor on the right.  Left of it a reference: the accessor converts to the element (locking_accessor.h:50).
Left of it an accessor: the implicitly declared copy assignment of traditional_accessor (traditional_accessor.h:50-70 declares
none) copies the pointer; for anything but a variable that pointer is a temporary's. -/
def assignFrom (s : St α) (d : Dst) (e : Src) : Option (St α) :=
  match d with
  | .at_ i =>
    match e.read s with
    | none => none
    | some x => storeAt s (.at_ i) x
  | .src (.var k) =>
    match e.ptr s, s.accs[k]? with
    | some p, some _ => some { s with accs := s.accs.set k p }
    | _, _ => none
  | .src t =>
    match t.ptr s, e.ptr s with
    | some _, some _ => some s
    | _, _ => none

/-- one statement; `none` is undefined behaviour -/
def Op.step [DecidableEq α] (s : St α) : Op α → Option (St α × Out α)
  | .bind e =>
    match e.ptr s with
    | none => none
    | some p => some ({ s with accs := s.accs ++ [p] }, .none)
  | .store d x => (storeAt s d x).map (·, .none)
  | .assign d e => (assignFrom s d e).map (·, .none)
  | .load e => (e.read s).map fun x => (s, .val x)
  | .eq e x => (e.read s).map fun y => (s, .bool (decide (y = x)))
  | .ne e x => (e.read s).map fun y => (s, .bool (decide (y ≠ x)))
  | .push x => (wr s.mem s.n x).map fun m => ({ s with mem := m, n := s.n + 1 }, .none)
  | .pop => if s.n = 0 then none else some ({ s with n := s.n - 1 }, .none)

/-- a program -/
def run [DecidableEq α] : List (Op α) → St α → Option (St α × List (Out α))
  | [], s => some (s, [])
  | o :: ops, s =>
    match o.step s with
    | none => none
    | some (s', r) => (run ops s').map fun q => (q.1, r :: q.2)

/-! ## Accessors of memory that moves while unlocked: accessor_shared -/

/-- a block of memory behind a handle: `epoch` counts how often it moved -/
structure Block (α : Type u) where
  cells : List α
  locks : Nat
  epoch : Nat
  deriving DecidableEq, Repr

/-- the memory of an allocator with handles; a handle is an index -/
abbrev Heap (α : Type u) := List (Block α)

/-- a C++ reference into a block: it is good for as long as the block stays where it is -/
structure Ref where
  handle : Nat
  offset : Nat
  epoch : Nat
  deriving DecidableEq, Repr

/-- `handle_with_offset`, handle_with_offset.h:131-152: an accessor is one (accessor.h:40) with its allocator -/
structure HO where
  handle : Nat
  offset : Nat
  deriving DecidableEq, Repr

/-- `allocator_traits::lock(a, h)` -/
def Heap.lock (m : Heap α) (a : HO) : Option (Heap α × Ref) :=
  match m[a.handle]? with
  | none => none
  | some b => some (m.set a.handle { b with locks := b.locks + 1 }, ⟨a.handle, a.offset, b.epoch⟩)

/-- `allocator_traits::unlock(a, h)`; of a block that is not locked it is taken to be undefined -/
def Heap.unlock (m : Heap α) (h : Nat) : Option (Heap α) :=
  match m[h]? with
  | none => none
  | some b => if b.locks = 0 then none else some (m.set h { b with locks := b.locks - 1 })

/-- reading a reference -/
def Heap.deref (m : Heap α) (r : Ref) : Option α :=
  match m[r.handle]? with
  | none => none
  | some b => if b.epoch = r.epoch then rd b.cells r.offset else none

/-- writing a reference -/
def Heap.write (m : Heap α) (r : Ref) (x : α) : Option (Heap α) :=
  match m[r.handle]? with
  | none => none
  | some b => if b.epoch = r.epoch then (wr b.cells r.offset x).map fun c => m.set r.handle { b with cells := c } else none

/-- the allocator compacts: every block that is not locked moves -/
def Heap.compact (m : Heap α) : Heap α := m.map fun b => if b.locks = 0 then { b with epoch := b.epoch + 1 } else b

/-- `assign(value)`, accessor.h:42-52: `operator=(const value_type&)` of both kinds (199-203, 232-235) -/
def hStore (m : Heap α) (a : HO) (x : α) : Option (Heap α) :=
  match m.lock a with
  | none => none
  | some (m1, r) =>
    match m1.write r x with
    | none => none
    | some m2 => m2.unlock a.handle

/-- the conversions and `operator->` of memory that is not pinned, accessor.h:96-115 and 120-140: `lock`, copy, `unlock` -/
def hRead (m : Heap α) (a : HO) : Option (Heap α × α) :=
  match m.lock a with
  | none => none
  | some (m1, r) =>
    match m1.deref r with
    | none => none
    | some x => (m1.unlock a.handle).map (·, x)

/-- the comparisons, accessor.h:143-175, with `p` the comparison of the element with the value given -/
def hTest (m : Heap α) (a : HO) (p : α → Bool) : Option (Heap α × Bool) :=
  match m.lock a with
  | none => none
  | some (m1, r) =>
    match m1.deref r with
    | none => none
    | some x => (m1.unlock a.handle).map (·, p x)

/-- the conversions when the memory is declared pinned: the reference itself is returned after the unlock, accessor.h:96-104 -/
def hPinned (m : Heap α) (a : HO) : Option (Heap α × Ref) :=
  match m.lock a with
  | none => none
  | some (m1, r) => (m1.unlock a.handle).map (·, r)

/-- `swap(lhs, rhs)` of two accessors, runtime_array.h:538-551, the swap of the elements taken as reading both and
writing both (C69) -/
def hSwap (m : Heap α) (a b : HO) : Option (Heap α) :=
  match m.lock a with
  | none => none
  | some (m1, l) =>
    match m1.lock b with
    | none => none
    | some (m2, r) =>
      match m2.deref l, m2.deref r with
      | some x, some y =>
        match m2.write l y with
        | none => none
        | some m3 =>
          match m3.write r x with
          | none => none
          | some m4 =>
            match m4.unlock a.handle with
            | none => none
            | some m5 => m5.unlock b.handle
      | _, _ => none

/-- statements over accessor variables of such memory -/
inductive HOp (α : Type u) where
  /-- `a_k = x` -/
  | store (k : Nat) (x : α)
  /-- read `a_k` -/
  | load (k : Nat)
  /-- compare `a_k` with a value -/
  | test (k : Nat) (p : α → Bool)
  /-- `swap(a_k, a_j)` -/
  | swap (k j : Nat)
  /-- a copy of `a_k`, accessor.h:55-58 -/
  | copy (k : Nat)
  /-- `a_k.h_exp() += d`, handle_with_offset.h:25-29, here without wrapping -/
  | move (k d : Nat)
  /-- the allocator moves what it can -/
  | compact

/-- one such statement; `vars` are the accessor variables -/
def HOp.step (m : Heap α) (vars : List HO) : HOp α → Option ((Heap α × List HO) × Out α)
  | .store k x =>
    match vars[k]? with
    | none => none
    | some a => (hStore m a x).map fun m' => ((m', vars), .none)
  | .load k =>
    match vars[k]? with
    | none => none
    | some a => (hRead m a).map fun r => ((r.1, vars), .val r.2)
  | .test k p =>
    match vars[k]? with
    | none => none
    | some a => (hTest m a p).map fun r => ((r.1, vars), .bool r.2)
  | .swap k j =>
    match vars[k]?, vars[j]? with
    | some a, some b => (hSwap m a b).map fun m' => ((m', vars), .none)
    | _, _ => none
  | .copy k =>
    match vars[k]? with
    | none => none
    | some a => some ((m, vars ++ [a]), .none)
  | .move k d =>
    match vars[k]? with
    | none => none
    | some a => some ((m, vars.set k ⟨a.handle, a.offset + d⟩), .none)
  | .compact => some ((m.compact, vars), .none)

/-- a program of such statements -/
def hRun : List (HOp α) → Heap α → List HO → Option ((Heap α × List HO) × List (Out α))
  | [], m, vars => some ((m, vars), [])
  | o :: ops, m, vars =>
    match o.step m vars with
    | none => none
    | some ((m', vars'), r) => (hRun ops m' vars').map fun q => (q.1, r :: q.2)

/-! ## stateful_locking_accessor -/

/-- what can be done with a `stateful_locking_accessor`, accessor.h:332-347 -/
inductive LOp where
  /-- conversion to a reference, 332-335: `lock()` and no `unlock()` -/
  | ref
  /-- conversion to a value, 342-347 -/
  | val
  deriving DecidableEq, Repr

/-- the life of one accessor: construction (317-322, no lock), uses, destruction (324-330, which does nothing: no lock
counter is compiled in) -/
def lockingLife (a : HO) : List LOp → Heap α → Option (Heap α)
  | [], m => some m
  | .ref :: ops, m =>
    match m.lock a with
    | none => none
    | some (m', _) => lockingLife a ops m'
  | .val :: ops, m =>
    match hRead m a with
    | none => none
    | some (m', _) => lockingLife a ops m'

/-! ## Offset arithmetic -/

/-- `h += n`, handle_with_offset.h:25-29, for a `w` bit `size_type` -/
def offAdd {w : Nat} (o : BitVec w) (n : BitVec w) : BitVec w := o + n

/-- `h -= n`, handle_with_offset.h:31-35 -/
def offSub {w : Nat} (o : BitVec w) (n : BitVec w) : BitVec w := o - n

/-- `a - b` as a 64 bit `ptrdiff_t`, handle_with_offset.h:37-40: types narrower than `int` are subtracted as `int`s -/
def offDiff {w : Nat} (a b : BitVec w) : BitVec 64 :=
  if w < 32 then (a.setWidth 32 - b.setWidth 32).signExtend 64 else (a - b).setWidth 64

/-- the comparisons, handle_with_offset.h:48-66 -/
def offGt {w : Nat} (a b : BitVec w) : Bool := decide (a > b)
def offLt {w : Nat} (a b : BitVec w) : Bool := decide (a < b)
def offGe {w : Nat} (a b : BitVec w) : Bool := decide (a ≥ b)
def offEq {w : Nat} (a b : BitVec w) : Bool := a == b

/-- `operator==` of `handle_with_offset`, handle_with_offset.h:148-151 -/
def hoEq (a b : HO) : Bool := a.handle == b.handle && a.offset == b.offset

/-- `operator>=` of `handle_with_offset`: inherited, so the handle is not looked at, handle_with_offset.h:58-61 -/
def hoGe (a b : HO) : Bool := decide (a.offset ≥ b.offset)

end Verif.Accessor
