import Verif.Common.Mem
/-!
# C98: objects that own other objects through shared pointers

The managed object of a shared pointer may itself have `layer3::shared_ptr` members.  When its last owner goes, its
destructor destroys those members, which may delete further objects.  The masters (`layer2::shared_ptr`), which
contain the control blocks, outlive everything that points to them, as C29 requires.
-/
namespace Verif.Owned

/-- a control block (memory.h:58-88) with the object it manages: `shared_count` is 16 bits wide; `fields` are the
object's `layer3::shared_ptr` members, each null or a pointer to a control block (memory.h:508-532), none when the
object is gone; `deletes` counts the calls of `Deleter()` (memory.h:154-157) -/
structure Blk where
  count : Nat
  active : Bool
  fields : List (Option Nat)
  deletes : Nat
deriving Repr, DecidableEq

/-- the masters and the handles outside of objects (memory.h:538-612); a destroyed handle is `none` -/
structure State where
  blks : List Blk
  ext : List (Option (Option Nat))
deriving Repr, DecidableEq

/-- nothing exists yet (memory.h:193-334) -/
def State.init : State := ⟨[], []⟩

/-- a handle: one outside of objects or member `i` of object `b` (memory.h:538-612) -/
inductive Place where
  | ext (h : Nat)
  | field (b i : Nat)
deriving Repr, DecidableEq

/-- the number of members that exist, which bounds the cascade of `Deleter()` calls (memory.h:223-240) -/
def members (bs : List Blk) : Nat := (bs.map fun k => k.fields.length).sum

theorem members_set (bs : List Blk) (b : Nat) (k k' : Blk) (h : bs[b]? = some k) :
    members (bs.set b k') + k.fields.length = members bs + k'.fields.length := by
  induction bs generalizing b with
  | nil => simp at h
  | cons a bs ih =>
    cases b with
    | zero => simp only [List.getElem?_cons_zero, Option.some.injEq] at h; subst h; simp [members]; omega
    | succ b =>
      simp only [List.getElem?_cons_succ] at h
      have := ih b h
      simp only [members, List.set_cons_succ, List.map_cons, List.sum_cons] at this ⊢
      omega

/-- `eval_delete` for each of the handles that go (memory.h:223-240, 324-329): `if(--c.shared_count == 0)
c.Deleter()`, where `Deleter()` is `shared->~T()` (memory.h:154-157), which destroys the members, last one first,
before the next handle's turn.  The depth of the recursion is not modelled. -/
def drops (bs : List Blk) (w : List (Option Nat)) : Option (List Blk) :=
  match w with
  | [] => some bs
  | none :: w => drops bs w
  | some b :: w =>
    match h : bs[b]? with
    | none => none
    | some k =>
      if (k.count + 65535) % 65536 = 0 then
        drops (bs.set b { k with count := 0, deletes := k.deletes + 1, fields := [] }) (k.fields.reverse ++ w)
      else drops (bs.set b { k with count := (k.count + 65535) % 65536 }) w
termination_by w.length + members bs
decreasing_by
  · simp
  · have := members_set bs b k { k with count := 0, deletes := k.deletes + 1, fields := [] } h
    simp only [List.length_nil, List.length_append, List.length_cons, List.length_unattach, List.length_reverse, List.length_attach] at this ⊢; omega
  · have := members_set bs b k { k with count := (k.count + 65535) % 65536 } h
    simp only [List.length_cons] at this ⊢; omega

/-- the pointer in a handle (memory.h:516-517); undefined for a handle that was destroyed, alone or with its object -/
def State.read (s : State) : Place → Option (Option Nat)
  | .ext h => match s.ext[h]? with
    | some (some p) => some p
    | _ => none
  | .field b i => match s.blks[b]? with
    | some k => k.fields[i]?
    | none => none

/-- storing a pointer in a handle that exists (memory.h:508-532) -/
def State.write (s : State) (l : Place) (p : Option Nat) : State :=
  match l with
  | .ext h => { s with ext := s.ext.set h (some p) }
  | .field b i => match s.blks[b]? with
    | some k => { s with blks := s.blks.set b { k with fields := k.fields.set i p } }
    | none => s

/-- `shared_ptr2_base(control_block* master)`, memory.h:309-314: counted only if the *master* is active -/
def incRef (bs : List Blk) : Option Nat → Option (List Blk)
  | none => some bs
  | some b => match bs[b]? with
    | some k => some (if k.active then bs.set b { k with count := (k.count + 1) % 65536 } else bs)
    | none => none

/-- what a handle copied from a master points to, memory.h:548-559 -/
def masterPtr (bs : List Blk) (b : Nat) : Option (Option Nat) :=
  (bs[b]?).map fun k => if k.active then some b else none

/-- `handle.reset()`, memory.h:259-262: the handle is made null before the count is decreased (memory.h:231-239) -/
def State.reset (s : State) (l : Place) : Option State :=
  match s.read l with
  | none => none
  | some p =>
    let s1 := s.write l none
    match drops s1.blks [p] with
    | none => none
    | some bs => some { s1 with blks := bs }

/-- `new (this) shared_ptr(copy_from)` with the pointer `p` taken from the source (memory.h:571, 587) -/
def State.place (s : State) (l : Place) (p : Option Nat) : Option State :=
  match s.read l with
  | none => none
  | some _ =>
    match incRef s.blks p with
    | none => none
    | some bs => some (State.write { s with blks := bs } l p)

/-- what a program does with handles (memory.h:193-612) -/
inductive Op where
  /-- a new object with `n` null members and its master, 458-459, 483-485 -/
  | make (n : Nat)
  /-- a new handle copied from a master, 548-559 -/
  | fromMaster (b : Nat)
  /-- a new handle copied from a handle, 571 -/
  | copy (l : Place)
  /-- a new handle moved from a handle, 574-577 -/
  | move (l : Place)
  /-- `l.reset()`, 259-262 -/
  | reset (l : Place)
  /-- the end of a handle outside of objects, 324-329 -/
  | destroy (h : Nat)
  /-- `master.reset()`, 259-262 -/
  | resetMaster (b : Nat)
  /-- `l = l'`, 582-589 -/
  | assign (l l' : Place)
  /-- `l = master`, 582-589 -/
  | assignMaster (l : Place) (b : Nat)
  /-- `l.swap(l')`, 601-610 -/
  | swap (l l' : Place)
deriving Repr, DecidableEq

/-- one operation (memory.h:193-612); `none` is undefined behaviour: the use of a handle that was destroyed -/
def step (s : State) : Op → Option State
  | .make n => some { s with blks := s.blks ++ [⟨1, true, List.replicate n none, 0⟩] }
  | .fromMaster b =>
    match masterPtr s.blks b with
    | none => none
    | some p => (incRef s.blks p).map fun bs => ⟨bs, s.ext ++ [some p]⟩
  | .copy l =>
    match s.read l with
    | none => none
    | some p => (incRef s.blks p).map fun bs => ⟨bs, s.ext ++ [some p]⟩
  | .move l =>
    match s.read l with
    | none => none
    | some p =>
      let s1 := s.write l none
      some { s1 with ext := s1.ext ++ [some p] }
  | .reset l => s.reset l
  | .destroy h =>
    match s.read (.ext h) with
    | none => none
    | some p => (drops s.blks [p]).map fun bs => ⟨bs, s.ext.set h none⟩
  | .resetMaster b =>
    match s.blks[b]? with
    | none => none
    | some k =>
      if k.active then (drops (s.blks.set b { k with active := false }) [some b]).map fun bs => { s with blks := bs }
      else some s
  | .assign l l' =>
    match s.reset l with
    | none => none
    | some s1 =>
      match s1.read l' with
      | none => none
      | some p => s1.place l p
  | .assignMaster l b =>
    match s.reset l with
    | none => none
    | some s1 =>
      match masterPtr s1.blks b with
      | none => none
      | some p => s1.place l p
  | .swap l l' =>
    match s.read l with
    | none => none
    | some p =>
      match s.read l' with
      | none => none
      | some p' => some ((s.write l p').write l' p)

/-- a sequence of operations (memory.h:193-612) -/
def run (s : State) : List Op → Option State
  | [] => some s
  | op :: ops =>
    match step s op with
    | none => none
    | some s' => run s' ops

/-- `use_count()` of a handle that points to control block `b` (memory.h:249-252) -/
def State.useCount (s : State) (b : Nat) : Option Nat := (s.blks[b]?).map (·.count)

/-! ## Specification: a heap that never deletes -/

/-- An object: whether its master still owns it, and what its members point to. -/
structure Spec.Obj where
  mastered : Bool
  fields : List (Option Nat)
deriving Repr, DecidableEq

/-- Objects are never deleted here and nothing is counted. -/
structure Spec.Heap where
  objs : List Spec.Obj
  ext : List (Option (Option Nat))
deriving Repr, DecidableEq

namespace Spec

def Heap.init : Heap := ⟨[], []⟩

def Heap.read (a : Heap) : Place → Option (Option Nat)
  | .ext h => match a.ext[h]? with
    | some (some p) => some p
    | _ => none
  | .field b i => match a.objs[b]? with
    | some k => k.fields[i]?
    | none => none

def Heap.write (a : Heap) (l : Place) (p : Option Nat) : Heap :=
  match l with
  | .ext h => { a with ext := a.ext.set h (some p) }
  | .field b i => match a.objs[b]? with
    | some k => { a with objs := a.objs.set b { k with fields := k.fields.set i p } }
    | none => a

def Heap.mastered (a : Heap) (b : Nat) : Prop := ∃ k, a.objs[b]? = some k ∧ k.mastered = true

instance Heap.decMastered (a : Heap) (b : Nat) : Decidable (a.mastered b) :=
  match h : a.objs[b]? with
  | none => isFalse fun ⟨k, hk, _⟩ => by rw [h] at hk; simp at hk
  | some k => if hm : k.mastered = true then isTrue ⟨k, h, hm⟩
      else isFalse fun ⟨k', hk, hm'⟩ => hm (by rw [h] at hk; simp only [Option.some.injEq] at hk; rw [hk]; exact hm')

/-- what each operation is for: handles are variables that hold a pointer or null -/
def Heap.step (a : Heap) : Op → Heap
  | .make n => { a with objs := a.objs ++ [⟨true, List.replicate n none⟩] }
  | .fromMaster b => { a with ext := a.ext ++ [some (if a.mastered b then some b else none)] }
  | .copy l => { a with ext := a.ext ++ [some ((a.read l).getD none)] }
  | .move l => let p := (a.read l).getD none
    let a1 := a.write l none
    { a1 with ext := a1.ext ++ [some p] }
  | .reset l => a.write l none
  | .destroy h => { a with ext := a.ext.set h none }
  | .resetMaster b => match a.objs[b]? with
    | some k => { a with objs := a.objs.set b { k with mastered := false } }
    | none => a
  | .assign l l' => a.write l ((a.read l').getD none)
  | .assignMaster l b => a.write l (if a.mastered b then some b else none)
  | .swap l l' => (a.write l ((a.read l').getD none)).write l' ((a.read l).getD none)

def Heap.run (a : Heap) : List Op → Heap
  | [] => a
  | op :: ops => (a.step op).run ops

/-- `b` has an owner outside of objects -/
def Root (a : Heap) (b : Nat) : Prop := a.mastered b ∨ ∃ h, a.read (.ext h) = some (some b)

/-- a member of object `b` points to object `c` -/
def Link (a : Heap) (b c : Nat) : Prop := ∃ i, a.read (.field b i) = some (some c)

/-- the program can get at `b` -/
inductive Reach (a : Heap) : Nat → Prop
  | root {b} : Root a b → Reach a b
  | link {b c} : Reach a b → Link a b c → Reach a c

/-- objects own each other in no circle -/
def Acyclic (a : Heap) : Prop := ∃ rank : Nat → Nat, ∀ b c, Link a b c → rank b < rank c

/-- the handle exists and the program can get at it -/
def Usable (a : Heap) : Place → Prop
  | .ext h => ∃ p, a.read (.ext h) = some p
  | .field b i => Reach a b ∧ ∃ p, a.read (.field b i) = some p

/-- Nothing owns `b` any more: it has no owner outside of objects, and all objects with a member pointing to it are
gone themselves. -/
inductive Gone (a : Heap) : Nat → Prop
  | intro {b} : ¬ Root a b → (∀ c, Link a c b → Gone a c) → Gone a b

open Classical in
/-- the members of object `c`; none when it is gone -/
noncomputable def left (a : Heap) (c : Nat) : List (Option Nat) :=
  if Gone a c then [] else (a.objs[c]?.map (·.fields)).getD []

/-- how many masters, handles and members of objects that are not gone point to `b` -/
noncomputable def owners (a : Heap) (b : Nat) : Nat :=
  (if a.mastered b then 1 else 0) + a.ext.count (some (some b)) +
    ((List.range a.objs.length).flatMap (left a)).count (some b)

/-- a pointer that may be copied: null, or to an object that still has its master (C29: other copies are not
counted) and fewer than 65535 owners -/
def Copyable (a : Heap) (p : Option Nat) : Prop := ∀ b, p = some b → a.mastered b ∧ owners a b < 65535

/-- What a correct program does: it uses handles it can get at, and copies what may be copied.  In `l = l'` it can
still get at both handles when `l` no longer points to anything. -/
def Ok (a : Heap) : Op → Prop
  | .make _ => True
  | .fromMaster b => b < a.objs.length ∧ owners a b < 65535
  | .copy l => Usable a l ∧ ∀ p, a.read l = some p → Copyable a p
  | .move l => Usable a l
  | .reset l => Usable a l
  | .destroy h => Usable a (.ext h)
  | .resetMaster b => b < a.objs.length
  | .assign l l' => l ≠ l' ∧ Usable a l ∧ Usable (a.write l none) l ∧ Usable (a.write l none) l' ∧
      ∀ p, a.read l' = some p → Copyable a p
  | .assignMaster l b => Usable a l ∧ Usable (a.write l none) l ∧ b < a.objs.length ∧ owners a b < 65535
  | .swap l l' => Usable a l ∧ Usable a l'

/-- all operations of a sequence are what a correct program does -/
def Legal (a : Heap) : List Op → Prop
  | [] => True
  | op :: ops => Ok a op ∧ Legal (a.step op) ops

end Spec
end Verif.Owned
