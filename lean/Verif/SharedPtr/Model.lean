import Verif.Common.Mem

/-!
# Model of `shared_ptr`

Modelled from `src/estd/memory.h`: the control block (58-88), `shared_ptr2_base` (193-334) and the three layers:
layer1 and layer2 *masters*, which contain the control block, and layer3 *handles*, which point to one.

A state has a list of control blocks (one per master ever created) and a list of handles; a destroyed handle is
`none`, a live handle is `some p` with `p` the control block it points to, or `none` when it is null.  The managed
object and the deleter are represented by the number of times an object was put under management and the number of
times `Deleter()` was called.
-/
namespace Verif.SharedPtr

/-- `shared_ptr_control_block` with `TCount = uint16_t`, memory.h:58-88, plus two observation counters. -/
structure Block where
  /-- `shared_count` -/
  count : Nat
  /-- `is_active`: for a master, whether the master itself still owns the object -/
  active : Bool
  /-- the memory of the block exists (its master has not been destroyed) -/
  alive : Bool
  /-- times an object was placed under management (observation) -/
  constructs : Nat
  /-- calls of `Deleter()` (observation) -/
  deletes : Nat
  deriving DecidableEq, Repr

structure State where
  blocks : List Block
  handles : List (Option (Option Nat))
  deriving DecidableEq, Repr

def State.init : State := ⟨[], []⟩

/-- reading the control block behind a pointer; undefined when its master is gone -/
def deref (bs : List Block) (b : Nat) : Option Block :=
  match rd bs b with
  | some blk => if blk.alive then some blk else none
  | none => none

/-- `if(--c.shared_count == 0) c.Deleter();`, memory.h:236-239 -/
def decRef (bs : List Block) (b : Nat) : Option (List Block) :=
  match deref bs b with
  | some blk =>
    let n := (blk.count + 65535) % 65536
    wr bs b { blk with count := n, deletes := if n = 0 then blk.deletes + 1 else blk.deletes }
  | none => none

/-- `shared_ptr2_base(control_block* master)`, memory.h:309-314: the count is increased only if the *master* is
active. -/
def incRef (bs : List Block) (p : Option Nat) : Option (List Block) :=
  match p with
  | none => some bs
  | some b =>
    match deref bs b with
    | some blk => if blk.active then wr bs b { blk with count := (blk.count + 1) % 65536 } else some bs
    | none => none

/-- `handle.reset()` on the pointer value only, memory.h:259-262 with layer3 `is_active`/`deactivate` 516-517 -/
def dropHandle (bs : List Block) (p : Option Nat) : Option (List Block) :=
  match p with
  | none => some bs
  | some b => decRef bs b

/-- a live handle's pointer -/
def State.ptr (s : State) (h : Nat) : Option (Option Nat) :=
  match rd s.handles h with
  | some (some p) => some p
  | _ => none

/-- the pointer taken when copying from a master: `is_active ? &value() : NULLPTR`, memory.h:548-559 -/
def masterPtr (bs : List Block) (b : Nat) : Option (Option Nat) :=
  match deref bs b with
  | some blk => some (if blk.active then some b else none)
  | none => none

inductive Op where
  /-- construct a `layer1::shared_ptr` (no object yet), 366-368, 397-401 -/
  | newLayer1
  /-- construct a `layer2::shared_ptr(managed)`, 79-87, 458-459, 483-485 -/
  | newLayer2
  /-- `layer1::shared_ptr::construct(args…)`, 426-432 -/
  | construct (b : Nat)
  /-- layer3 handle copied from a master, 548-559 -/
  | fromMaster (b : Nat)
  /-- layer3 copy constructor, 571 -/
  | copy (h : Nat)
  /-- layer3 move constructor, 574-577 -/
  | move (h : Nat)
  /-- `handle.reset()`, 259-262 -/
  | reset (h : Nat)
  /-- `master.reset()`, 259-262 -/
  | resetMaster (b : Nat)
  /-- handle destructor, 324-329 -/
  | destroy (h : Nat)
  /-- master destructor, 324-329; the block's memory goes with it -/
  | destroyMaster (b : Nat)
  /-- `h = h'`, 582-589: `reset()` then copy-construct in place -/
  | assign (h h' : Nat)
  /-- `h = master`, 582-589 -/
  | assignMaster (h b : Nat)
  /-- `h.swap(h')`, 601-610 -/
  | swap (h h' : Nat)
  deriving DecidableEq, Repr

/-- One operation; `none` is undefined behaviour (use of a destroyed handle, or of a control block whose master is
gone). -/
def step (s : State) : Op → Option State
  | .newLayer1 => some { s with blocks := s.blocks ++ [⟨0, false, true, 0, 0⟩] }
  | .newLayer2 => some { s with blocks := s.blocks ++ [⟨1, true, true, 1, 0⟩] }
  | .construct b =>
    match deref s.blocks b with
    | some blk =>
      (wr s.blocks b { blk with active := true, count := (blk.count + 1) % 65536,
                                constructs := blk.constructs + 1 }).map fun bs => { s with blocks := bs }
    | none => none
  | .fromMaster b =>
    match masterPtr s.blocks b with
    | some p => (incRef s.blocks p).map fun bs => ⟨bs, s.handles ++ [some p]⟩
    | none => none
  | .copy h =>
    match s.ptr h with
    | some p => (incRef s.blocks p).map fun bs => ⟨bs, s.handles ++ [some p]⟩
    | none => none
  | .move h =>
    match s.ptr h with
    | some p => some { s with handles := s.handles.set h (some none) ++ [some p] }
    | none => none
  | .reset h =>
    match s.ptr h with
    | some p => (dropHandle s.blocks p).map fun bs => ⟨bs, s.handles.set h (some none)⟩
    | none => none
  | .resetMaster b =>
    match deref s.blocks b with
    | some blk =>
      if blk.active then
        (decRef (s.blocks.set b { blk with active := false }) b).map fun bs => { s with blocks := bs }
      else some s
    | none => none
  | .destroy h =>
    match s.ptr h with
    | some p => (dropHandle s.blocks p).map fun bs => ⟨bs, s.handles.set h none⟩
    | none => none
  | .destroyMaster b =>
    match deref s.blocks b with
    | some blk =>
      match (if blk.active then decRef s.blocks b else some s.blocks) with
      | some bs =>
        match rd bs b with
        | some blk' => some { s with blocks := bs.set b { blk' with active := false, alive := false } }
        | none => none
      | none => none
    | none => none
  | .assign h h' =>
    match s.ptr h with
    | some p =>
      match dropHandle s.blocks p with
      | some bs =>
        let s1 : State := ⟨bs, s.handles.set h (some none)⟩
        match s1.ptr h' with
        | some p' => (incRef s1.blocks p').map fun bs => ⟨bs, s1.handles.set h (some p')⟩
        | none => none
      | none => none
    | none => none
  | .assignMaster h b =>
    match s.ptr h with
    | some p =>
      match dropHandle s.blocks p with
      | some bs =>
        match masterPtr bs b with
        | some p' => (incRef bs p').map fun bs' => ⟨bs', s.handles.set h (some p')⟩
        | none => none
      | none => none
    | none => none
  | .swap h h' =>
    match s.ptr h, s.ptr h' with
    | some p, some p' => some { s with handles := (s.handles.set h (some p')).set h' (some p) }
    | _, _ => none

def run (s : State) : List Op → Option State
  | [] => some s
  | op :: ops =>
    match step s op with
    | some s' => run s' ops
    | none => none

/-- `handle.use_count()`, memory.h:249-252 -/
def State.useCount (s : State) (h : Nat) : Option Nat :=
  match s.ptr h with
  | some none => some 0
  | some (some b) => (deref s.blocks b).map (·.count)
  | none => none

/-- `master.use_count()`, memory.h:249-252 -/
def State.useCountMaster (s : State) (b : Nat) : Option Nat :=
  (deref s.blocks b).map fun blk => if blk.active then blk.count else 0

end Verif.SharedPtr
