import Verif.Common.Chain
/-!
# Models of the linked lists

Nodes are addresses into the memories of `next` (and `prev`) fields.  The lists are intrusive: the caller
supplies the node, `allocate(value)` is its address, nothing is freed.  `none` as a pointer is the
end-of-list handle.
-/
namespace Verif.Lists
open Verif

/-- A singly linked list: `next` fields and `m_front` (internal/list_node.h:210; `head_` in
internal/list/base.h). -/
structure FList where
  nx : List (Option Nat)
  front : Option Nat
deriving DecidableEq, Repr

/-- `next(node)`, internal/list_node.h:162-171: dereferences the handle. -/
def nextOf (nx : List (Option Nat)) (p : Option Nat) : Option (Option Nat) :=
  match p with
  | none => none
  | some a => rd nx a

/-- `set_next(node, next)`, internal/list_node.h:186-193. -/
def setNext (nx : List (Option Nat)) (p : Option Nat) (v : Option Nat) : Option (List (Option Nat)) :=
  match p with
  | none => none
  | some a => wr nx a v

/-- `push_front` → `set_front`, forward_list.h:129-132 with internal/list_node.h:284-289, and
internal/list/intrusive_forward.h:76-80; `emplace_front` (forward_list.h:179-192) is the same with an
emplaced node. -/
def pushFront (s : FList) (n : Nat) : Option FList :=
  match setNext s.nx (some n) s.front with
  | none => none
  | some m => some ⟨m, some n⟩

/-- `pop_front`, forward_list.h:117-127 and internal/list/intrusive_forward.h:82-85. -/
def popFront (s : FList) : Option FList :=
  match nextOf s.nx s.front with
  | none => none
  | some n => some { s with front := n }

/-- `insert_after`, forward_list.h:144-154 and internal/list/intrusive_forward.h:41-53. -/
def insertAfter (s : FList) (pos n : Nat) : Option FList :=
  match nextOf s.nx (some pos) with
  | none => none
  | some old =>
    match setNext s.nx (some pos) (some n) with
    | none => none
    | some m =>
      match setNext m (some n) old with
      | none => none
      | some m' => some { s with nx := m' }

/-- `erase_after`, forward_list.h:156-165 and internal/list/intrusive_forward.h:56-65: dereferences the node
after `pos`, so erasing after the last node is undefined. -/
def eraseAfter (s : FList) (pos : Nat) : Option FList :=
  match nextOf s.nx (some pos) with
  | none => none
  | some victim =>
    match nextOf s.nx victim with
    | none => none
    | some following =>
      match setNext s.nx (some pos) following with
      | none => none
      | some m => some { s with nx := m }

/-- `replace_after`, internal/list/intrusive_forward.h:68-74. -/
def replaceAfter (s : FList) (pos n : Nat) : Option FList :=
  match eraseAfter s pos with
  | none => none
  | some s' => insertAfter s' pos n

/-- `clear`, internal/list/intrusive_forward.h:36-39. -/
def clear (s : FList) : FList := { s with front := none }

/-- Loop of `remove_if`, forward_list.h:206-229.  `p` is the predicate on the node at an address.  A run
longer than the memory can only be a cycle; it is reported as `none`. -/
def removeLoop (p : Nat → Bool) (firstOnly : Bool) : Nat → FList → Option Nat → Option Nat → Option FList
  | _, s, none, _ => some s
  | 0, _, some _, _ => none
  | fuel + 1, s, some cur, prev =>
    match nextOf s.nx (some cur) with
    | none => none
    | some nxt =>
      if p cur then
        match (match prev with
               | none => some { s with front := nxt }
               | some q => (setNext s.nx (some q) nxt).map fun m => { s with nx := m }) with
        | none => none
        | some s' => if firstOnly then some s' else removeLoop p firstOnly fuel s' nxt (some cur)
      else removeLoop p firstOnly fuel s nxt (some cur)

/-- `remove_if(p, first_only)`, forward_list.h:200-230; `remove(value, first_only)`, forward_list.h:238-273,
is `remove_if` with equality to `value`. -/
def removeIf (p : Nat → Bool) (firstOnly : Bool) (s : FList) : Option FList :=
  removeLoop p firstOnly (s.nx.length + 1) s s.front none

/-- `circular_intrusive_forward::before_begin`, internal/list/intrusive_forward.h:106-114, on a circular
list with head `h`. -/
def beforeBegin (nx : List (Option Nat)) (h : Nat) : Nat → Nat → Option Nat
  | 0, _ => none
  | fuel + 1, cur =>
    match nextOf nx (some cur) with
    | none => none
    | some n =>
      if n = some h then some cur
      else
        match n with
        | none => none
        | some c => beforeBegin nx h fuel c

/-- `forward_list_with_back`: a singly linked list that also tracks `m_back`
(internal/list_node.h:319, 336-418). -/
structure BList where
  nx : List (Option Nat)
  front : Option Nat
  back : Option Nat
deriving DecidableEq, Repr

/-- `push_back` → `set_back`, internal/list_node.h:366-383, 407-411. -/
def bPushBack (s : BList) (n : Nat) : Option BList :=
  match s.back with
  | some b =>
    match setNext s.nx (some b) (some n) with
    | none => none
    | some m => some ⟨m, s.front, some n⟩
  | none => some ⟨s.nx, some n, some n⟩

/-- `push_front` → `set_front`, internal/list_node.h:386-399, 413-416. -/
def bPushFront (s : BList) (n : Nat) : Option BList :=
  match setNext s.nx (some n) s.front with
  | none => none
  | some m => some ⟨m, some n, if s.back = none then some n else s.back⟩

/-- `pop_front`, inherited unchanged from `forward_list` (forward_list.h:117-127): `m_back` is not updated. -/
def bPopFront (s : BList) : Option BList :=
  match nextOf s.nx s.front with
  | none => none
  | some n => some { s with front := n }

/-- `list`: doubly linked (list.h:17, internal/reverse_list.h:10). -/
structure DList where
  nx : List (Option Nat)
  pv : List (Option Nat)
  front : Option Nat
  back : Option Nat
deriving DecidableEq, Repr

/-- `push_back(node_handle)`, list.h:42-56 with `set_back`, internal/reverse_list.h:26-31. -/
def dPushBack (s : DList) (n : Nat) : Option DList :=
  match (match s.back with
         | none => some s.nx
         | some b => setNext s.nx (some b) (some n)) with
  | none => none
  | some nx' =>
    let front' := if s.front = none then some n else s.front
    match setNext s.pv (some n) s.back with
    | none => none
    | some pv' => some ⟨nx', pv', front', some n⟩

/-- `push_front(node_handle)`, list.h:58-73 with `set_front`, internal/list_node.h:284-289. -/
def dPushFront (s : DList) (n : Nat) : Option DList :=
  match (match s.front with
         | none => some s.pv
         | some f => setNext s.pv (some f) (some n)) with
  | none => none
  | some pv' =>
    let back' := if s.back = none then some n else s.back
    match setNext s.nx (some n) s.front with
    | none => none
    | some nx' => some ⟨nx', pv', some n, back'⟩

/-- `insert(pos, value)`, list.h:115-140; `pos` may be `end()` (`none`). -/
def dInsert (s : DList) (pos : Option Nat) (n : Nat) : Option DList :=
  if pos = s.front then dPushFront s n
  else
    match nextOf s.pv pos with
    | none => none
    | some after =>
      match setNext s.nx (some n) pos with
      | none => none
      | some nx1 =>
        match setNext nx1 after (some n) with
        | none => none
        | some nx2 =>
          match setNext s.pv (some n) after with
          | none => none
          | some pv1 =>
            match setNext pv1 pos (some n) with
            | none => none
            | some pv2 => some { s with nx := nx2, pv := pv2 }

end Verif.Lists
