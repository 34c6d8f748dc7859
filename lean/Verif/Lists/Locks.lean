import Verif.Lists.Props
/-!
# Walking a doubly linked list whose nodes live in lockable memory

`internal::list_base` takes its nodes from an allocator by handle.  For handle-based allocators (C28, C82) a
node has an address only while its handle is locked; the allocator may move or swap out what nobody holds
locked.  Every access of the list and of its iterators therefore brackets itself by `lock` and `unlock`, and
this file keeps the account of these calls.

A state is the list (`DList`, C26), the iterators the caller holds (numbered, each a handle or the end
handle `none`) and the locks held on each handle: every `lock` adds one, every `unlock` takes one away, so a
negative number is an unlock of what nobody had locked.  Locking the invalid handle is undefined (`none` as
outcome).  Unlocking it is counted (`stray`).
-/
namespace Verif.Lists.Locks
open Verif.Lists

/-- The list with the allocator's account: `held h` is the number of `lock`s minus the number of `unlock`s of
handle `h` (traits/list_node.h:163-171 `lock_node`, `unlock_node`), `stray` the number of `unlock`s of the
invalid handle, and the caller's iterators `InputIterator::current` (iterators/list.h:50).  The flag
`before_beginning` (iterators/list.h:162) is left out: a list iterator is always built without it
(iterators/list.h:384-385). -/
structure St where
  list : DList
  held : Nat → Int
  stray : Nat
  its : Nat → Option Nat

/-- `lock(handle)`, traits/list_node.h:163-166 through internal/list_node.h:151-154: there must be a node. -/
def lock (s : St) (h : Option Nat) : Option St :=
  match h with
  | none => none
  | some a => some { s with held := fun b => if b = a then s.held b + 1 else s.held b }

/-- `unlock(handle)`, traits/list_node.h:168-171 through internal/list_node.h:156-159. -/
def unlock (s : St) (h : Option Nat) : St :=
  match h with
  | none => { s with stray := s.stray + 1 }
  | some a => { s with held := fun b => if b = a then s.held b - 1 else s.held b }

/-- `prev(handle)`, internal/list_node.h:173-182: lock, read, unlock the same handle. -/
def prev (s : St) (h : Option Nat) : Option (Option Nat × St) :=
  match lock s h with
  | none => none
  | some s1 =>
    match nextOf s1.list.pv h with
    | none => none
    | some n => some (n, unlock s1 h)

/-- `set_next(node, next)`, internal/list_node.h:186-193. -/
def setNextL (s : St) (h v : Option Nat) : Option St :=
  match lock s h with
  | none => none
  | some s1 =>
    match setNext s1.list.nx h v with
    | none => none
    | some nx => some (unlock { s1 with list := { s1.list with nx := nx } } h)

/-- `set_prev(node, prev)`, internal/reverse_list.h:33-40. -/
def setPrevL (s : St) (h v : Option Nat) : Option St :=
  match lock s h with
  | none => none
  | some s1 =>
    match setNext s1.list.pv h v with
    | none => none
    | some pv => some (unlock { s1 with list := { s1.list with pv := pv } } h)

/-- `traits.allocate(value)`, traits/list_node.h:254-265 (`alloc_move` 290-303 and `alloc_emplace` 274-286 are
the same): the allocator's handle `n` is locked, the node constructed, the handle unlocked.  Simplified: the
node's links are the null links it is constructed with (internal/list_node.h:19-42), as those of unused nodes
are in `DList`. -/
def allocate (s : St) (n : Nat) : Option St :=
  match lock s (some n) with
  | none => none
  | some s1 => some (unlock s1 (some n))

/-- `push_back(const T&)`, list.h:84-87 → 42-56, `set_back` internal/reverse_list.h:26-31. -/
def pushBack (s : St) (n : Nat) : Option St :=
  match allocate s n with
  | none => none
  | some s1 =>
    match (match s1.list.back with
           | none => some s1
           | some b => setNextL s1 (some b) (some n)) with
    | none => none
    | some s2 =>
      let s3 := { s2 with list := { s2.list with
        front := if s2.list.front = none then some n else s2.list.front } }
      match setPrevL s3 (some n) s3.list.back with
      | none => none
      | some s4 => some { s4 with list := { s4.list with back := some n } }

/-- `push_front(node_handle)`, list.h:58-73, `set_front` internal/list_node.h:284-289. -/
def linkFront (s1 : St) (n : Nat) : Option St :=
  match (match s1.list.front with
         | none => some s1
         | some f => setPrevL s1 (some f) (some n)) with
  | none => none
  | some s2 =>
    let s3 := { s2 with list := { s2.list with
      back := if s2.list.back = none then some n else s2.list.back } }
    match setNextL s3 (some n) s3.list.front with
    | none => none
    | some s4 => some { s4 with list := { s4.list with front := some n } }

/-- `push_front(const T&)`, list.h:78-81. -/
def pushFront (s : St) (n : Nat) : Option St :=
  match allocate s n with
  | none => none
  | some s1 => linkFront s1 n

/-- `it = insert(pos, value)`, list.h:115-140, with both iterators the caller's number `r`: the new node is
linked before the node at the iterator, which then stands at the new node. -/
def insert (s : St) (r n : Nat) : Option St :=
  let pos := s.its r
  let at' (s : St) : St := { s with its := fun q => if q = r then some n else s.its q }
  if pos = s.list.front then (pushFront s n).map at'
  else
    match allocate s n with
    | none => none
    | some s1 =>
      match prev s1 pos with
      | none => none
      | some (after, s2) =>
        match setNextL s2 (some n) pos with
        | none => none
        | some s3 =>
          match setNextL s3 after (some n) with
          | none => none
          | some s4 =>
            match setPrevL s4 (some n) after with
            | none => none
            | some s5 => (setPrevL s5 pos (some n)).map at'

/-- `front()`, internal/list_node.h:222-234 (`back()`, internal/reverse_list.h:48-56, is the same at `m_back`):
lock, take the address, unlock, return the address.  Yields the node whose address is returned. -/
def peek (s : St) (h : Option Nat) : Option (Nat × St) :=
  match h with
  | none => none
  | some a =>
    match lock s h with
    | none => none
    | some s1 => some (a, unlock s1 h)

/-- `operator*`, iterators/list.h:123-132 with `lock()` 105-112 (the lock counter is switched off,
internal/opts.h:12): locks the node and returns the address. -/
def deref (s : St) (r : Nat) : Option (Nat × St) :=
  match s.its r with
  | none => none
  | some a => (lock s (some a)).map fun s1 => (a, s1)

/-- `operator++`, iterators/list.h:215-245; the postfix form 248-253 moves the same way. -/
def inc (s : St) (r : Nat) : Option St :=
  match lock s (s.its r) with
  | none => none
  | some s1 =>
    match nextOf s1.list.nx (s1.its r) with
    | none => none
    | some n =>
      let s2 := unlock s1 (s1.its r)
      some { s2 with its := fun q => if q = r then n else s2.its q }

/-- `operator--`, iterators/list.h:320-329 (postfix 331-336): lock at `current`, move `current`, unlock at
`current`. -/
def dec (s : St) (r : Nat) : Option St :=
  match lock s (s.its r) with
  | none => none
  | some s1 =>
    match nextOf s1.list.pv (s1.its r) with
    | none => none
    | some n =>
      let s2 := { s1 with its := fun q => if q = r then n else s1.its q }
      some (unlock s2 (s2.its r))

/-- `operator+=`, iterators/list.h:256-260 (`operator+` 263-268 is this on a copy): `while(summand--) ++*this`.
`fuel` bounds the turns; the outer `none` is "not ended within `fuel` turns", the inner one undefined
behaviour.  Simplified: the wrap of `summand` below the least `int` is not reached by any list (it would be
undefined as well). -/
def addInt : Nat → St → Nat → Int → Option (Option St)
  | 0, _, _, _ => none
  | fuel + 1, s, r, n =>
    if n = 0 then some (some s)
    else
      match inc s r with
      | none => some none
      | some s1 => addInt fuel s1 r (n - 1)

/-- `operator-(int)`, iterators/list.h:346-351: copies itself and returns `temp - subtrahend`, which is the
same function again.  The result is the one of the call it makes; `fuel` bounds the depth of calls. -/
def subInt : Nat → St → Nat → Int → Option (Option Nat)
  | 0, _, _, _ => none
  | fuel + 1, s, r, n => subInt fuel s r n

/-- `operator-(ReverseIterator)`, iterators/list.h:354-365, `its r - its q`: steps a copy of `q`'s iterator
forward until it meets `r`'s and counts.  Outcomes as in `addInt`. -/
def diff : Nat → St → Nat → Nat → Option (Option Nat)
  | 0, _, _, _ => none
  | fuel + 1, s, r, q =>
    if s.its q = s.its r then some (some 0)
    else
      match inc s q with
      | none => some none
      | some s1 => (diff fuel s1 r q).map (Option.map (· + 1))

/-- What a caller may do with the list and its iterators. -/
inductive Op
  | pushBack (n : Nat)
  | pushFront (n : Nat)
  /-- `it = list.insert(it, value)` -/
  | insert (r n : Nat)
  | front
  | back
  /-- `it = list.begin()` -/
  | begin (r : Nat)
  /-- `it = list.end()` -/
  | fin (r : Nat)
  /-- `it = other` -/
  | copy (r q : Nat)
  /-- `*it` -/
  | deref (r : Nat)
  /-- `it.lock()` -/
  | lock (r : Nat)
  /-- `it.unlock()` -/
  | unlock (r : Nat)
  | inc (r : Nat)
  | dec (r : Nat)

/-- One operation: `begin()` and `end()` internal/list_node.h:295-301, assignment iterators/list.h:284-295,
`lock()`, `unlock()` iterators/list.h:112-117, the others as above. -/
def step (s : St) : Op → Option St
  | .pushBack n => pushBack s n
  | .pushFront n => pushFront s n
  | .insert r n => insert s r n
  | .front => (peek s s.list.front).map (·.2)
  | .back => (peek s s.list.back).map (·.2)
  | .begin r => some { s with its := fun q => if q = r then s.list.front else s.its q }
  | .fin r => some { s with its := fun q => if q = r then none else s.its q }
  | .copy r q => some { s with its := fun p => if p = r then s.its q else s.its p }
  | .deref r => (deref s r).map (·.2)
  | .lock r => lock s (s.its r)
  | .unlock r => some (unlock s (s.its r))
  | .inc r => inc s r
  | .dec r => dec s r

/-- A history of operations. -/
def run : List Op → St → Option St
  | [], s => some s
  | op :: ops, s =>
    match step s op with
    | none => none
    | some s' => run ops s'

/-- The empty list over `size` unused handles, all iterators at the end, nothing locked (list.h:76,
internal/list_node.h:273-276, internal/reverse_list.h:43-46). -/
def start (size : Nat) : St :=
  ⟨⟨List.replicate size none, List.replicate size none, none, none⟩, fun _ => 0, 0, fun _ => none⟩

/-! ## Specification -/

/-- What stands right after `a` in `l`; `none` if `a` is the last. -/
def Spec.after (l : List Nat) (a : Nat) : Option Nat := ((l.dropWhile (· ≠ a)).drop 1).head?

/-- What stands right before `a` in `l`; `none` if `a` is the first. -/
def Spec.before (l : List Nat) (a : Nat) : Option Nat := Spec.after l.reverse a

/-- The plain picture: a sequence of nodes, and for each iterator the node it stands at, `none` being the
end. -/
structure Spec.Pic where
  l : List Nat
  at_ : Nat → Option Nat

def Spec.move (p : Spec.Pic) (r : Nat) (h : Option Nat) : Spec.Pic :=
  { p with at_ := fun q => if q = r then h else p.at_ q }

/-- What each operation does to the picture. -/
def Spec.act (p : Spec.Pic) : Op → Spec.Pic
  | .pushBack n => { p with l := p.l ++ [n] }
  | .pushFront n => { p with l := n :: p.l }
  | .insert r n =>
    match p.at_ r with
    | none => Spec.move { p with l := [n] } r (some n)
    | some a => Spec.move { p with l := Spec.insertBefore a n p.l } r (some n)
  | .begin r => Spec.move p r p.l.head?
  | .fin r => Spec.move p r none
  | .copy r q => Spec.move p r (p.at_ q)
  | .inc r => Spec.move p r ((p.at_ r).bind (Spec.after p.l))
  | .dec r => Spec.move p r ((p.at_ r).bind (Spec.before p.l))
  | _ => p

/-- What a caller may ask for: unused nodes, no reading at or moving away from the end; `insert` before a
node, or into the empty list. -/
def Spec.may (size : Nat) (p : Spec.Pic) : Op → Prop
  | .pushBack n | .pushFront n => n < size ∧ n ∉ p.l
  | .insert r n => n < size ∧ n ∉ p.l ∧ ((p.at_ r).isSome ∨ p.l = [])
  | .front | .back => p.l ≠ []
  | .deref r | .lock r | .unlock r | .inc r | .dec r => (p.at_ r).isSome
  | .begin _ | .fin _ | .copy _ _ => True

def Spec.pic : List Op → Spec.Pic → Spec.Pic
  | [], p => p
  | op :: ops, p => Spec.pic ops (Spec.act p op)

def Spec.Legal (size : Nat) : List Op → Spec.Pic → Prop
  | [], _ => True
  | op :: ops, p => Spec.may size p op ∧ Spec.Legal size ops (Spec.act p op)

/-- The empty picture. -/
def Spec.none_ : Spec.Pic := ⟨[], fun _ => none⟩

/-- One if the iterator stands at `h`. -/
def Spec.here (p : Option Nat) (h : Nat) : Int := if p = some h then 1 else 0

/-- The locks that each operation leaves behind on node `h`: reading through an iterator leaves one; `lock`
and `unlock` do what they say; a step back leaves one on the node it leaves and takes one from the node it
reaches; nothing else leaves any. -/
def Spec.leaves (p : Spec.Pic) (h : Nat) : Op → Int
  | .deref r | .lock r => Spec.here (p.at_ r) h
  | .unlock r => - Spec.here (p.at_ r) h
  | .dec r => Spec.here (p.at_ r) h - Spec.here ((p.at_ r).bind (Spec.before p.l)) h
  | _ => 0

/-- The locks that a history leaves on node `h`. -/
def Spec.locks (h : Nat) : List Op → Spec.Pic → Int
  | [], _ => 0
  | op :: ops, p => Spec.leaves p h op + Spec.locks h ops (Spec.act p op)

/-- How often a history steps back from the first node. -/
def Spec.offFront : List Op → Spec.Pic → Nat
  | [], _ => 0
  | op :: ops, p =>
    (match op with
     | .dec r => if (p.at_ r).bind (Spec.before p.l) = none then 1 else 0
     | _ => 0) + Spec.offFront ops (Spec.act p op)

/-! ## Proofs -/

theorem after_split {l1 l2 : List Nat} {a : Nat} (h : a ∉ l1) : Spec.after (l1 ++ a :: l2) a = l2.head? := by
  induction l1 with
  | nil => simp [Spec.after]
  | cons b l1 ih =>
    simp only [List.mem_cons, not_or] at h
    have := ih h.2
    simp only [Spec.after] at this ⊢
    rw [List.cons_append, List.dropWhile_cons_of_pos (by simp [Ne.symm h.1])]
    exact this

theorem before_split {l1 l2 : List Nat} {a : Nat} (h : a ∉ l2) :
    Spec.before (l1 ++ a :: l2) a = l1.getLast? := by
  rw [Spec.before, List.reverse_append, List.reverse_cons, List.append_assoc]
  have : a ∉ l2.reverse := by simpa using h
  rw [show ([a] ++ l1.reverse) = a :: l1.reverse from rfl, after_split this, List.head?_reverse]

theorem chain_head {nx : List (Option Nat)} {p : Option Nat} {l : List Nat} (h : Chain nx p l) : p = l.head? := by
  cases l with
  | nil => exact h
  | cons a l => exact h.1

theorem chain_after {nx : List (Option Nat)} {p : Option Nat} {l : List Nat} (h : Chain nx p l) {a : Nat}
    (ha : a ∈ l) : nx[a]? = some (Spec.after l a) := by
  obtain ⟨l1, l2, rfl, h1, -⟩ := split_mem ha (Chain.nodup h)
  obtain ⟨r, -, -, n, hn, h2⟩ := Seg.append_iff.mp h
  rw [after_split h1, hn, chain_head h2]

theorem chain_before {pv : List (Option Nat)} {p : Option Nat} {l : List Nat} (h : Chain pv p l.reverse) {a : Nat}
    (ha : a ∈ l) : pv[a]? = some (Spec.before l a) :=
  chain_after h (by simpa using ha)

theorem after_mem {l : List Nat} {a b : Nat} (h : Spec.after l a = some b) : b ∈ l := by
  unfold Spec.after at h
  exact (List.dropWhile_sublist _).mem (List.mem_of_mem_drop (List.mem_of_head? h))

theorem before_mem {l : List Nat} {a b : Nat} (h : Spec.before l a = some b) : b ∈ l := by
  have := after_mem h
  simpa using this

theorem lock_some (s : St) (a : Nat) :
    lock s (some a) = some { s with held := fun b => if b = a then s.held b + 1 else s.held b } := rfl

theorem held_back (s : St) (a : Nat) :
    (fun b => if b = a then (if b = a then s.held b + 1 else s.held b) - 1
      else (if b = a then s.held b + 1 else s.held b)) = s.held := by
  funext b; by_cases h : b = a <;> simp [h]

theorem setNextL_eq (s : St) (h v : Option Nat) :
    setNextL s h v = (setNext s.list.nx h v).map fun nx => { s with list := { s.list with nx := nx } } := by
  cases h with
  | none => rfl
  | some a =>
    simp only [setNextL, lock_some]
    cases setNext s.list.nx (some a) v with
    | none => rfl
    | some nx => simp [unlock, held_back]

theorem setPrevL_eq (s : St) (h v : Option Nat) :
    setPrevL s h v = (setNext s.list.pv h v).map fun pv => { s with list := { s.list with pv := pv } } := by
  cases h with
  | none => rfl
  | some a =>
    simp only [setPrevL, lock_some]
    cases setNext s.list.pv (some a) v with
    | none => rfl
    | some pv => simp [unlock, held_back]

theorem prev_eq (s : St) (h : Option Nat) : prev s h = (nextOf s.list.pv h).map fun n => (n, s) := by
  cases h with
  | none => rfl
  | some a =>
    simp only [prev, lock_some]
    cases nextOf s.list.pv (some a) with
    | none => rfl
    | some n => simp [unlock, held_back]

theorem allocate_eq (s : St) (n : Nat) : allocate s n = some s := by
  simp [allocate, lock_some, unlock, held_back]

theorem pushBack_eq (s : St) (n : Nat) :
    pushBack s n = (dPushBack s.list n).map fun d => { s with list := d } := by
  simp only [pushBack, allocate_eq, dPushBack]
  cases hb : s.list.back with
  | none =>
    simp only [setPrevL_eq, hb]
    cases setNext s.list.pv (some n) none <;> simp
  | some b =>
    simp only [setNextL_eq, setPrevL_eq]
    cases setNext s.list.nx (some b) (some n) with
    | none => simp
    | some nx =>
      simp only [Option.map_some, hb]
      cases setNext s.list.pv (some n) (some b) <;> simp

theorem linkFront_eq (s : St) (n : Nat) :
    linkFront s n = (dPushFront s.list n).map fun d => { s with list := d } := by
  simp only [linkFront, dPushFront]
  cases hb : s.list.front with
  | none =>
    simp only [setNextL_eq, hb]
    cases setNext s.list.nx (some n) none <;> simp
  | some b =>
    simp only [setNextL_eq, setPrevL_eq]
    cases setNext s.list.pv (some b) (some n) with
    | none => simp
    | some nx =>
      simp only [Option.map_some, hb]
      cases setNext s.list.nx (some n) (some b) <;> simp

theorem pushFront_eq (s : St) (n : Nat) :
    pushFront s n = (dPushFront s.list n).map fun d => { s with list := d } := by
  simp only [pushFront, allocate_eq, linkFront_eq]

theorem insert_eq (s : St) (r n : Nat) :
    insert s r n = (dInsert s.list (s.its r) n).map fun d =>
      { s with list := d, its := fun q => if q = r then some n else s.its q } := by
  simp only [insert, dInsert, allocate_eq, pushFront_eq]
  split
  · cases dPushFront s.list n <;> simp
  · simp only [prev_eq]
    cases nextOf s.list.pv (s.its r) with
    | none => simp
    | some after =>
      simp only [Option.map_some, setNextL_eq, setPrevL_eq]
      cases setNext s.list.nx (some n) (s.its r) with
      | none => simp
      | some nx1 =>
        simp only [Option.map_some]
        cases setNext nx1 after (some n) with
        | none => simp
        | some nx2 =>
          simp only [Option.map_some]
          cases setNext s.list.pv (some n) after with
          | none => simp
          | some pv1 =>
            simp only [Option.map_some]
            cases setNext pv1 (s.its r) (some n) <;> simp

/-- The list represents the picture, and every iterator stands at the end or at a node of the list. -/
structure Rep (size : Nat) (s : St) (p : Spec.Pic) : Prop where
  list : DRep size s.list p.l
  its : s.its = p.at_
  on : ∀ r a, p.at_ r = some a → a ∈ p.l

theorem Rep.front {size : Nat} {s : St} {p : Spec.Pic} (h : Rep size s p) : s.list.front = p.l.head? :=
  chain_head h.list.fwd

theorem Rep.back {size : Nat} {s : St} {p : Spec.Pic} (h : Rep size s p) : s.list.back = p.l.getLast? := by
  rw [chain_head h.list.bwd, List.head?_reverse]

theorem on_move {p : Spec.Pic} {l : List Nat} (hl : ∀ a ∈ p.l, a ∈ l) (ho : ∀ r a, p.at_ r = some a → a ∈ p.l)
    (r : Nat) (v : Option Nat) (hv : ∀ a, v = some a → a ∈ l) :
    ∀ q a, (Spec.move { p with l := l } r v).at_ q = some a → a ∈ l := by
  intro q a h
  simp only [Spec.move] at h
  split at h
  · exact hv a h
  · exact hl a (ho q a h)

theorem on_move' {p : Spec.Pic} (ho : ∀ r a, p.at_ r = some a → a ∈ p.l)
    (r : Nat) (v : Option Nat) (hv : ∀ a, v = some a → a ∈ p.l) :
    ∀ q a, (Spec.move p r v).at_ q = some a → a ∈ p.l := by
  intro q a h
  simp only [Spec.move] at h
  split at h
  · exact hv a h
  · exact ho q a h

theorem mem_insertBefore {pos n : Nat} {l : List Nat} {a : Nat} (h : a ∈ l) : a ∈ Spec.insertBefore pos n l := by
  induction l with
  | nil => simp at h
  | cons b l ih =>
    simp only [Spec.insertBefore]
    split
    · exact List.mem_cons_of_mem _ h
    · rcases List.mem_cons.mp h with rfl | h
      · simp
      · exact List.mem_cons_of_mem _ (ih h)

theorem new_mem_insertBefore {pos n : Nat} {l : List Nat} (h : pos ∈ l) : n ∈ Spec.insertBefore pos n l := by
  induction l with
  | nil => simp at h
  | cons b l ih =>
    simp only [Spec.insertBefore]
    split
    · simp
    · rename_i hb
      rcases List.mem_cons.mp h with rfl | h
      · simp at hb
      · exact List.mem_cons_of_mem _ (ih h)

/-- The steps back from the first node that one operation makes. -/
def Spec.off (p : Spec.Pic) : Op → Nat
  | .dec r => if (p.at_ r).bind (Spec.before p.l) = none then 1 else 0
  | _ => 0

theorem step_rep {size : Nat} {s : St} {p : Spec.Pic} (h : Rep size s p) (op : Op) (ha : Spec.may size p op) :
    ∃ s', step s op = some s' ∧ Rep size s' (Spec.act p op)
      ∧ (∀ b, s'.held b = s.held b + Spec.leaves p b op) ∧ s'.stray = s.stray + Spec.off p op := by
  cases op with
  | pushBack n =>
    obtain ⟨d, e1, e2⟩ := drep_pushBack h.list ha.1 ha.2
    refine ⟨{ s with list := d }, by simp [step, pushBack_eq, e1], ⟨e2, h.its, ?_⟩, by simp [Spec.leaves],
      by simp [Spec.off]⟩
    intro r a hr; exact List.mem_append_left _ (h.on r a hr)
  | pushFront n =>
    obtain ⟨d, e1, e2⟩ := drep_pushFront h.list ha.1 ha.2
    refine ⟨{ s with list := d }, by simp [step, pushFront_eq, e1], ⟨e2, h.its, ?_⟩, by simp [Spec.leaves],
      by simp [Spec.off]⟩
    intro r a hr; exact List.mem_cons_of_mem _ (h.on r a hr)
  | insert r n =>
    obtain ⟨hn, hnl, hpos⟩ := ha
    have hat : s.its r = p.at_ r := by rw [h.its]
    cases hp : p.at_ r with
    | none =>
      have hl : p.l = [] := by rw [hp] at hpos; simpa using hpos
      obtain ⟨d, e1, e2⟩ := drep_pushFront h.list hn hnl
      refine ⟨{ s with list := d, its := fun q => if q = r then some n else s.its q }, ?_, ?_,
        by simp [Spec.leaves], by simp [Spec.off]⟩
      · have hf := h.front
        rw [hl] at hf
        simp only [step, insert_eq, hat, hp, dInsert]
        simp only [List.head?_nil] at hf
        simp [hf, e1]
      · have hact : Spec.act p (.insert r n) = Spec.move { p with l := [n] } r (some n) := by
          simp only [Spec.act, hp]
        rw [hact]
        refine ⟨by rw [hl] at e2; exact e2, by simp [Spec.move, h.its], ?_⟩
        exact on_move (l := [n]) (by rw [hl]; simp) h.on r (some n) (by simp)
    | some a =>
      have hal := h.on r a hp
      obtain ⟨d, e1, e2⟩ := drep_insert h.list hn hnl hal
      refine ⟨{ s with list := d, its := fun q => if q = r then some n else s.its q }, ?_, ?_,
        by simp [Spec.leaves], by simp [Spec.off]⟩
      · have e1' : dInsert s.list (some a) n = some d := e1
        simp [step, insert_eq, hat, hp, e1']
      · have hact : Spec.act p (.insert r n) = Spec.move { p with l := Spec.insertBefore a n p.l } r (some n) := by
          simp only [Spec.act, hp]
        rw [hact]
        refine ⟨e2, by simp [Spec.move, h.its], ?_⟩
        exact on_move (fun b hb => mem_insertBefore hb) h.on r (some n)
          (by intro b hb; cases hb; exact new_mem_insertBefore hal)
  | front =>
    have hf := h.front
    cases hl : p.l with
    | nil => exact absurd hl ha
    | cons a l =>
      rw [hl] at hf
      refine ⟨s, ?_, h, by simp [Spec.leaves], by simp [Spec.off]⟩
      simp only [List.head?_cons] at hf
      simp [step, hf, peek, lock_some, unlock, held_back]
  | back =>
    have hf := h.back
    cases hl : p.l.getLast? with
    | none => exact absurd (List.getLast?_eq_none_iff.mp hl) ha
    | some a =>
      rw [hl] at hf
      refine ⟨s, ?_, h, by simp [Spec.leaves], by simp [Spec.off]⟩
      simp [step, hf, peek, lock_some, unlock, held_back]
  | begin r =>
    refine ⟨_, rfl, ⟨h.list, ?_, ?_⟩, by simp [Spec.leaves], by simp [Spec.off]⟩
    · simp [Spec.act, Spec.move, h.its, h.front]
    · exact on_move' h.on r _ (fun a ha => List.mem_of_head? ha)
  | fin r =>
    refine ⟨_, rfl, ⟨h.list, ?_, ?_⟩, by simp [Spec.leaves], by simp [Spec.off]⟩
    · simp [Spec.act, Spec.move, h.its]
    · exact on_move' h.on r _ (by simp)
  | copy r q =>
    refine ⟨_, rfl, ⟨h.list, ?_, ?_⟩, by simp [Spec.leaves], by simp [Spec.off]⟩
    · simp [Spec.act, Spec.move, h.its]
    · exact on_move' h.on r _ (fun a ha => h.on q a ha)
  | deref r =>
    obtain ⟨a, hp⟩ := Option.isSome_iff_exists.mp ha
    have hat : s.its r = some a := by rw [h.its]; exact hp
    refine ⟨{ s with held := fun b => if b = a then s.held b + 1 else s.held b },
      by simp [step, deref, hat, lock_some], ⟨h.list, h.its, h.on⟩, ?_,
      by simp [Spec.off]⟩
    intro b
    simp only [Spec.leaves, Spec.here, hp, Option.some.injEq]
    by_cases hb : b = a
    · simp [hb]
    · simp [hb, Ne.symm hb]
  | lock r =>
    obtain ⟨a, hp⟩ := Option.isSome_iff_exists.mp ha
    have hat : s.its r = some a := by rw [h.its]; exact hp
    refine ⟨{ s with held := fun b => if b = a then s.held b + 1 else s.held b },
      by simp [step, hat, lock_some], ⟨h.list, h.its, h.on⟩, ?_, by simp [Spec.off]⟩
    intro b
    simp only [Spec.leaves, Spec.here, hp, Option.some.injEq]
    by_cases hb : b = a
    · simp [hb]
    · simp [hb, Ne.symm hb]
  | unlock r =>
    obtain ⟨a, hp⟩ := Option.isSome_iff_exists.mp ha
    have hat : s.its r = some a := by rw [h.its]; exact hp
    refine ⟨{ s with held := fun b => if b = a then s.held b - 1 else s.held b },
      by simp [step, hat, unlock], ⟨h.list, h.its, h.on⟩, ?_, by simp [Spec.off]⟩
    intro b
    simp only [Spec.leaves, Spec.here, hp, Option.some.injEq]
    by_cases hb : b = a
    · simp [hb]; omega
    · simp [hb, Ne.symm hb]
  | inc r =>
    obtain ⟨a, hp⟩ := Option.isSome_iff_exists.mp ha
    have hat : s.its r = some a := by rw [h.its]; exact hp
    have hal := h.on r a hp
    have hn := chain_after h.list.fwd hal
    refine ⟨{ s with its := fun q => if q = r then Spec.after p.l a else s.its q }, ?_, ⟨h.list, ?_, ?_⟩,
      by simp [Spec.leaves], by simp [Spec.off]⟩
    · simp [step, inc, hat, lock_some, nextOf, rd, hn, unlock, held_back]
    · simp [Spec.act, Spec.move, h.its, hp]
    · have : Spec.act p (.inc r) = Spec.move p r (Spec.after p.l a) := by simp [Spec.act, hp]
      rw [this]
      exact on_move' h.on r _ (fun b hb => after_mem hb)
  | dec r =>
    obtain ⟨a, hp⟩ := Option.isSome_iff_exists.mp ha
    have hat : s.its r = some a := by rw [h.its]; exact hp
    have hal := h.on r a hp
    have hn := chain_before h.list.bwd hal
    have hact : Spec.act p (.dec r) = Spec.move p r (Spec.before p.l a) := by simp [Spec.act, hp]
    cases hb : Spec.before p.l a with
    | none =>
      refine ⟨⟨s.list, fun b => if b = a then s.held b + 1 else s.held b, s.stray + 1,
        fun q => if q = r then none else s.its q⟩, ?_, ⟨h.list, ?_, ?_⟩, ?_, ?_⟩
      · simp [step, dec, hat, lock_some, nextOf, rd, hn, unlock, hb]
      · rw [hact]; simp [Spec.move, h.its, hb]
      · rw [hact]; exact on_move' h.on r _ (fun b hb => before_mem hb)
      · intro b
        simp only [Spec.leaves, Spec.here, hp, Option.bind_some, hb, Option.some.injEq]
        by_cases hba : b = a
        · simp [hba]
        · simp [hba, Ne.symm hba]
      · simp [Spec.off, hp, hb]
    | some c =>
      refine ⟨⟨s.list, fun b => if b = c then (if b = a then s.held b + 1 else s.held b) - 1
          else (if b = a then s.held b + 1 else s.held b), s.stray, fun q => if q = r then some c else s.its q⟩, ?_, ⟨h.list, ?_, ?_⟩, ?_, ?_⟩
      · simp [step, dec, hat, lock_some, nextOf, rd, hn, unlock, hb]
      · rw [hact]; simp [Spec.move, h.its, hb]
      · rw [hact]; exact on_move' h.on r _ (fun b hb => before_mem hb)
      · intro b
        simp only [Spec.leaves, Spec.here, hp, Option.bind_some, hb, Option.some.injEq]
        by_cases hba : b = a <;> by_cases hbc : b = c
        · subst hba; subst hbc; simp
        · subst hba; simp [hbc, Ne.symm hbc]
        · subst hbc; simp [hba, Ne.symm hba]; omega
        · simp [hba, hbc, Ne.symm hba, Ne.symm hbc]
      · simp [Spec.off, hp, hb]

theorem run_rep {size : Nat} (ops : List Op) : ∀ {s : St} {p : Spec.Pic}, Rep size s p → Spec.Legal size ops p →
    ∃ s', run ops s = some s' ∧ Rep size s' (Spec.pic ops p)
      ∧ (∀ b, s'.held b = s.held b + Spec.locks b ops p) ∧ s'.stray = s.stray + Spec.offFront ops p := by
  induction ops with
  | nil => intro s p h _; exact ⟨s, rfl, h, by simp [Spec.locks], by simp [Spec.offFront]⟩
  | cons op ops ih =>
    intro s p h hl
    obtain ⟨s1, e1, e2, e3, e4⟩ := step_rep h op hl.1
    obtain ⟨s2, f1, f2, f3, f4⟩ := ih e2 hl.2
    refine ⟨s2, by simp [run, e1, f1], f2, ?_, ?_⟩
    · intro b; rw [f3, e3]; simp only [Spec.locks]; omega
    · rw [f4, e4]
      have : Spec.offFront (op :: ops) p = Spec.off p op + Spec.offFront ops (Spec.act p op) := by
        cases op <;> rfl
      omega

theorem start_rep (size : Nat) : Rep size (start size) Spec.none_ :=
  ⟨⟨rfl, rfl, by simp [start], by simp [start], by simp +contextual [start], by simp +contextual [start]⟩, rfl,
    by simp [Spec.none_]⟩

/-! ## C102 -/

/-- For every history of edits, reads and moves that a caller may perform on a new list over lockable memory:
no operation is undefined; the links spell the plain sequence in both directions; every iterator stands
where it stands in the plain picture; and the locks held afterwards are exactly those that `*it`, `lock`,
`unlock` and `--` have left behind — edits, `front()`, `back()` and `++` leave none. -/
theorem lockable_list_history_partial (size : Nat) (ops : List Op) (hl : Spec.Legal size ops Spec.none_) :
    ∃ s, run ops (start size) = some s
      ∧ Chain s.list.nx s.list.front (Spec.pic ops Spec.none_).l
      ∧ Chain s.list.pv s.list.back (Spec.pic ops Spec.none_).l.reverse
      ∧ s.its = (Spec.pic ops Spec.none_).at_
      ∧ (∀ h, s.held h = Spec.locks h ops Spec.none_)
      ∧ s.stray = Spec.offFront ops Spec.none_ := by
  obtain ⟨s, e1, e2, e3, e4⟩ := run_rep ops (start_rep size) hl
  refine ⟨s, e1, e2.list.fwd, e2.list.bwd, e2.its, ?_, ?_⟩
  · intro h; rw [e3]; simp [start]
  · rw [e4]; simp [start]

/-- Two nodes pushed, an iterator walked to the second and back, a node inserted before the last one. -/
example : Spec.Legal 3 [.pushBack 2, .pushFront 0, .begin 7, .deref 7, .inc 7, .deref 7, .dec 7, .inc 7, .insert 7 1]
    Spec.none_ := by
  simp [Spec.Legal, Spec.may, Spec.act, Spec.none_, Spec.move, Spec.after, Spec.before]

/-- Histories that keep their own account: they edit, ask for `front()` and `back()`, take, copy and compare
iterators and move them forward; they never read through an iterator nor step back. -/
def Spec.forwardOnly : Op → Bool
  | .deref _ | .lock _ | .unlock _ | .dec _ => false
  | _ => true

/-- After every history of edits and forward moves nothing is locked. -/
theorem forward_moves_balanced_partial (size : Nat) (ops : List Op) (hl : Spec.Legal size ops Spec.none_)
    (hf : ∀ op ∈ ops, Spec.forwardOnly op = true) :
    ∃ s, run ops (start size) = some s ∧ (∀ h, s.held h = 0) ∧ s.stray = 0 := by
  obtain ⟨s, e1, -, -, -, e5, e6⟩ := lockable_list_history_partial size ops hl
  have key : ∀ (ops : List Op) (p : Spec.Pic), (∀ op ∈ ops, Spec.forwardOnly op = true) →
      (∀ h, Spec.locks h ops p = 0) ∧ Spec.offFront ops p = 0 := by
    intro ops
    induction ops with
    | nil => intro p _; simp [Spec.locks, Spec.offFront]
    | cons op ops ih =>
      intro p hf
      have h1 := hf op (by simp)
      have h2 := ih (Spec.act p op) (fun o ho => hf o (List.mem_cons_of_mem _ ho))
      cases op <;> simp_all [Spec.forwardOnly, Spec.locks, Spec.leaves, Spec.offFront]
  obtain ⟨k1, k2⟩ := key ops Spec.none_ hf
  exact ⟨s, e1, fun h => by rw [e5, k1], by rw [e6, k2]⟩

/-- The reads of node `h` in a history. -/
def Spec.reads (h : Nat) : List Op → Spec.Pic → Nat
  | [], _ => 0
  | op :: ops, p =>
    (match op with
     | .deref r => if p.at_ r = some h then 1 else 0
     | _ => 0) + Spec.reads h ops (Spec.act p op)

/-- **Violation.** Reading through an iterator locks for ever: after every history without `lock`, `unlock`
and `--`, each node is still locked once for every time it was read.  No operation that a caller of the
standard interface knows takes these locks back. -/
theorem reads_stay_locked (size : Nat) (ops : List Op) (hl : Spec.Legal size ops Spec.none_)
    (hf : ∀ op ∈ ops, ∀ r, op ≠ .lock r ∧ op ≠ .unlock r ∧ op ≠ .dec r) :
    ∃ s, run ops (start size) = some s ∧ ∀ h, s.held h = Spec.reads h ops Spec.none_ := by
  obtain ⟨s, e1, -, -, -, e5, -⟩ := lockable_list_history_partial size ops hl
  have key : ∀ (ops : List Op) (p : Spec.Pic) (h : Nat),
      (∀ op ∈ ops, ∀ r, op ≠ .lock r ∧ op ≠ .unlock r ∧ op ≠ .dec r) →
      Spec.locks h ops p = Spec.reads h ops p := by
    intro ops
    induction ops with
    | nil => intro p h _; simp [Spec.locks, Spec.reads]
    | cons op ops ih =>
      intro p h hf
      have h1 := hf op (by simp)
      have h2 := ih (Spec.act p op) h (fun o ho => hf o (List.mem_cons_of_mem _ ho))
      cases op with
      | deref r =>
        simp only [Spec.locks, Spec.leaves, Spec.here, h2, Spec.reads]
        split <;> simp
      | lock r => exact absurd rfl (h1 r).1
      | unlock r => exact absurd rfl (h1 r).2.1
      | dec r => exact absurd rfl (h1 r).2.2
      | _ => simp only [Spec.locks, Spec.leaves, h2, Spec.reads]; simp
  exact ⟨s, e1, fun h => by rw [e5, key ops Spec.none_ h hf]⟩

example : Spec.reads 0 [.pushBack 0, .begin 1, .deref 1, .deref 1] Spec.none_ = 2 := by
  simp [Spec.reads, Spec.act, Spec.none_, Spec.move]

/-- One pass `for (auto& x : list)`: `begin()`, then reading and moving on at each of `n` elements. -/
def Spec.pass (r n : Nat) : List Op := .begin r :: (List.replicate n [Op.deref r, Op.inc r]).flatten

theorem walk_rest {size : Nat} (r : Nat) : ∀ (l2 l1 : List Nat) (s : St) (p : Spec.Pic), Rep size s p →
    p.l = l1 ++ l2 → p.at_ r = l2.head? →
    ∃ s', run (List.replicate l2.length [Op.deref r, Op.inc r]).flatten s = some s' ∧ s'.its r = none
      ∧ (∀ h, s'.held h = s.held h + if h ∈ l2 then 1 else 0) := by
  intro l2
  induction l2 with
  | nil => intro l1 s p h _ ha; exact ⟨s, rfl, by rw [h.its, ha]; rfl, by simp⟩
  | cons a l2 ih =>
    intro l1 s p h hl ha
    have hat : p.at_ r = some a := ha
    have hnd : (l1 ++ a :: l2).Nodup := hl ▸ Chain.nodup h.list.fwd
    have hal1 : a ∉ l1 := by
      intro hm
      exact (List.nodup_append.mp hnd).2.2 a hm a (by simp) rfl
    have hal2 : a ∉ l2 := (List.nodup_cons.mp (List.nodup_append.mp hnd).2.1).1
    obtain ⟨s1, e1, e2, e3, -⟩ := step_rep h (.deref r) (by simp [Spec.may, hat])
    obtain ⟨s2, f1, f2, f3, -⟩ := step_rep e2 (.inc r) (by simp [Spec.may, Spec.act, hat])
    have hat2 : (Spec.act (Spec.act p (.deref r)) (.inc r)).at_ r = l2.head? := by
      simp [Spec.act, Spec.move, hat, hl, after_split hal1]
    obtain ⟨s', g1, g2, g3⟩ := ih (l1 ++ [a]) s2 _ f2 (by simp [Spec.act, Spec.move, hl]) hat2
    refine ⟨s', ?_, g2, ?_⟩
    · simp [List.replicate_succ, run, e1, f1, g1]
    · intro b
      rw [g3, f3, e3]
      simp only [Spec.leaves, Spec.here, hat, Option.some.injEq, List.mem_cons]
      by_cases hb : b = a
      · subst hb; simp [hal2]
      · simp [hb, Ne.symm hb]

/-- **Violation.** Every pass over the list locks every node of it once more and unlocks none: after any
history, a pass reaches the end with one lock more on each node on the list. -/
theorem pass_locks_every_node (size : Nat) (ops : List Op) (hl : Spec.Legal size ops Spec.none_) (r : Nat) :
    ∃ s s', run ops (start size) = some s
      ∧ run (Spec.pass r (Spec.pic ops Spec.none_).l.length) s = some s' ∧ s'.its r = none
      ∧ ∀ h, s'.held h = s.held h + if h ∈ (Spec.pic ops Spec.none_).l then 1 else 0 := by
  obtain ⟨s, e1, e2, -, -⟩ := run_rep ops (start_rep size) hl
  obtain ⟨s1, f1, f2, f3, -⟩ := step_rep e2 (.begin r) trivial
  obtain ⟨s', g1, g2, g3⟩ := walk_rest (size := size) r (Spec.pic ops Spec.none_).l [] s1 _ f2
    (by simp [Spec.act, Spec.move]) (by simp [Spec.act, Spec.move])
  refine ⟨s, s', e1, by simp [Spec.pass, run, f1, g1], g2, ?_⟩
  intro h
  rw [g3, f3]; simp [Spec.leaves]

/-- **Violation.** A step back gives the wrong node back: after any history, `--it` at a node leaves that node
locked and unlocks the node it arrives at, which nobody need have locked; at the first node it unlocks the
invalid handle, and the iterator then equals `end()`. -/
theorem step_back_unlocks_the_wrong_node (size : Nat) (ops : List Op) (hl : Spec.Legal size ops Spec.none_)
    (r a : Nat) (ha : (Spec.pic ops Spec.none_).at_ r = some a) :
    ∃ s s', run ops (start size) = some s ∧ step s (.dec r) = some s'
      ∧ s'.its r = Spec.before (Spec.pic ops Spec.none_).l a
      ∧ s'.held a = s.held a + 1
      ∧ (∀ b, Spec.before (Spec.pic ops Spec.none_).l a = some b → s'.held b = s.held b - 1)
      ∧ (Spec.before (Spec.pic ops Spec.none_).l a = none → s'.stray = s.stray + 1) := by
  obtain ⟨s, e1, e2, -, -⟩ := run_rep ops (start_rep size) hl
  obtain ⟨s', f1, f2, f3, f4⟩ := step_rep e2 (.dec r) (by simp [Spec.may, ha])
  have hal := e2.on r a ha
  have hne : ∀ b, Spec.before (Spec.pic ops Spec.none_).l a = some b → b ≠ a := by
    intro b hb hba
    subst hba
    obtain ⟨l1, l2, hl', h1, h2⟩ := split_mem hal (Chain.nodup e2.list.fwd)
    rw [hl', before_split h2] at hb
    exact h1 (List.mem_of_getLast? hb)
  refine ⟨s, s', e1, f1, ?_, ?_, ?_, ?_⟩
  · rw [f2.its]; simp [Spec.act, Spec.move, ha]
  · rw [f3]
    simp only [Spec.leaves, Spec.here, ha, Option.bind_some]
    rw [if_neg (fun h => hne a h rfl)]
    simp
  · intro b hb
    rw [f3]
    simp only [Spec.leaves, Spec.here, ha, Option.bind_some, hb, Option.some.injEq]
    simp [Ne.symm (hne b hb)]
    omega
  · intro hb
    rw [f4]; simp [Spec.off, ha, hb]

/-- **Violation.** `--end()` is undefined, although the list knows its last node. -/
theorem step_back_from_end_undefined (s : St) (r : Nat) (h : s.its r = none) : step s (.dec r) = none := by
  simp [step, dec, h, lock]

theorem addInt_rep {size : Nat} (r : Nat) : ∀ (n fuel : Nat) (l2 l1 : List Nat) (s : St) (p : Spec.Pic), Rep size s p →
    p.l = l1 ++ l2 → p.at_ r = l2.head? → n < fuel →
    (n ≤ l2.length → ∃ s', addInt fuel s r n = some (some s') ∧ s'.its r = (l2.drop n).head?
        ∧ s'.held = s.held ∧ s'.stray = s.stray)
    ∧ (l2.length < n → addInt fuel s r n = some none) := by
  intro n
  induction n with
  | zero =>
    intro fuel l2 l1 s p h hl ha hf
    obtain ⟨fuel, rfl⟩ : ∃ k, fuel = k + 1 := ⟨fuel - 1, by omega⟩
    exact ⟨fun _ => ⟨s, by simp [addInt], by rw [h.its, ha]; rfl, rfl, rfl⟩, fun h => absurd h (by omega)⟩
  | succ n ih =>
    intro fuel l2 l1 s p h hl ha hf
    obtain ⟨fuel, rfl⟩ : ∃ k, fuel = k + 1 := ⟨fuel - 1, by omega⟩
    have hne : ((n + 1 : Nat) : Int) ≠ 0 := by omega
    have hsub : ((n + 1 : Nat) : Int) - 1 = n := by omega
    cases l2 with
    | nil =>
      refine ⟨fun h => absurd h (by simp), fun _ => ?_⟩
      have hn : s.its r = none := by rw [h.its, ha]; rfl
      rw [addInt, if_neg hne]
      simp [inc, hn, lock]
    | cons a l2 =>
      have hat : p.at_ r = some a := ha
      have hnd : (l1 ++ a :: l2).Nodup := hl ▸ Chain.nodup h.list.fwd
      have hal1 : a ∉ l1 := by
        intro hm
        exact (List.nodup_append.mp hnd).2.2 a hm a (by simp) rfl
      obtain ⟨s1, e1, e2, e3, e4⟩ := step_rep h (.inc r) (by simp [Spec.may, hat])
      have e1' : inc s r = some s1 := e1
      have hat2 : (Spec.act p (.inc r)).at_ r = l2.head? := by
        simp [Spec.act, Spec.move, hat, hl, after_split hal1]
      obtain ⟨i1, i2⟩ := ih fuel l2 (l1 ++ [a]) s1 _ e2 (by simp [Spec.act, Spec.move, hl]) hat2 (by omega)
      have hh : s1.held = s.held := by funext b; rw [e3]; simp [Spec.leaves]
      have hs : s1.stray = s.stray := by rw [e4]; simp [Spec.off]
      constructor
      · intro hle
        obtain ⟨s', j1, j2, j3, j4⟩ := i1 (by simpa using hle)
        refine ⟨s', ?_, by simpa using j2, by rw [j3, hh], by rw [j4, hs]⟩
        rw [addInt, if_neg hne, e1', hsub]
        exact j1
      · intro hlt
        rw [addInt, if_neg hne, e1', hsub]
        exact i2 (by simpa using hlt)

/-- Moving by `n`: from the node in front of which `l1` stands, `it += n` ends, leaves no locks, and stands `n`
places further on, at the end if that is just past the last; any more is undefined. -/
theorem add_moves (size : Nat) (ops : List Op) (hl : Spec.Legal size ops Spec.none_) (r n fuel : Nat)
    (l1 l2 : List Nat) (hp : (Spec.pic ops Spec.none_).l = l1 ++ l2)
    (ha : (Spec.pic ops Spec.none_).at_ r = l2.head?) (hf : n < fuel) :
    ∃ s, run ops (start size) = some s
      ∧ (n ≤ l2.length → ∃ s', addInt fuel s r n = some (some s') ∧ s'.its r = (l2.drop n).head?
          ∧ s'.held = s.held ∧ s'.stray = s.stray)
      ∧ (l2.length < n → addInt fuel s r n = some none) := by
  obtain ⟨s, e1, e2, -, -⟩ := run_rep ops (start_rep size) hl
  exact ⟨s, e1, addInt_rep r n fuel l2 l1 s _ e2 hp ha hf⟩

example : (Spec.pic [.pushBack 2, .pushFront 0, .begin 7] Spec.none_).l = [] ++ [0, 2]
    ∧ (Spec.pic [.pushBack 2, .pushFront 0, .begin 7] Spec.none_).at_ 7 = [0, 2].head? := by
  simp [Spec.pic, Spec.act, Spec.none_, Spec.move]

/-- **Violation.** Moving by a negative number runs forward off the end of the list and is undefined, from
every position and for every negative number. -/
theorem add_negative_undefined (size : Nat) (ops : List Op) (hl : Spec.Legal size ops Spec.none_) (r : Nat)
    (n : Int) (hn : n < 0) (fuel : Nat) (hf : (Spec.pic ops Spec.none_).l.length < fuel) :
    ∃ s, run ops (start size) = some s ∧ addInt fuel s r n = some none := by
  obtain ⟨s, e1, e2, -, -⟩ := run_rep ops (start_rep size) hl
  refine ⟨s, e1, ?_⟩
  have key : ∀ (l2 l1 : List Nat) (fuel : Nat) (s : St) (p : Spec.Pic) (n : Int), n < 0 → Rep size s p →
      p.l = l1 ++ l2 → p.at_ r = l2.head? → l2.length < fuel → addInt fuel s r n = some none := by
    intro l2
    induction l2 with
    | nil =>
      intro l1 fuel s p n hn h hl ha hf
      obtain ⟨fuel, rfl⟩ : ∃ k, fuel = k + 1 := ⟨fuel - 1, by omega⟩
      have hi : s.its r = none := by rw [h.its, ha]; rfl
      rw [addInt, if_neg (by omega)]
      simp [inc, hi, lock]
    | cons a l2 ih =>
      intro l1 fuel s p n hn h hl ha hf
      obtain ⟨fuel, rfl⟩ : ∃ k, fuel = k + 1 := ⟨fuel - 1, by omega⟩
      have hat : p.at_ r = some a := ha
      have hnd : (l1 ++ a :: l2).Nodup := hl ▸ Chain.nodup h.list.fwd
      have hal1 : a ∉ l1 := by
        intro hm
        exact (List.nodup_append.mp hnd).2.2 a hm a (by simp) rfl
      obtain ⟨s1, e1, e2, -, -⟩ := step_rep h (.inc r) (by simp [Spec.may, hat])
      have e1' : inc s r = some s1 := e1
      have hat2 : (Spec.act p (.inc r)).at_ r = l2.head? := by
        simp [Spec.act, Spec.move, hat, hl, after_split hal1]
      rw [addInt, if_neg (by omega), e1']
      exact ih (l1 ++ [a]) fuel s1 _ (n - 1) (by omega) e2 (by simp [Spec.act, Spec.move, hl]) hat2
        (by simp at hf; omega)
  cases ha : (Spec.pic ops Spec.none_).at_ r with
  | none => exact key [] (Spec.pic ops Spec.none_).l fuel s _ n hn e2 (by simp) (by rw [ha]; rfl) (by simp; omega)
  | some a =>
    obtain ⟨l1, l2, hl', -, -⟩ := split_mem (e2.on r a ha) (Chain.nodup e2.list.fwd)
    refine key (a :: l2) l1 fuel s _ n hn e2 hl' (by rw [ha]; rfl) ?_
    rw [hl'] at hf
    simp at hf ⊢
    omega

/-- **Violation.** `it - n` never returns, whatever `n`: the operator calls itself with the same arguments. -/
theorem sub_int_never_returns (fuel : Nat) (s : St) (r : Nat) (n : Int) : subInt fuel s r n = none := by
  induction fuel with
  | zero => rfl
  | succ fuel ih => exact ih

theorem diff_rep {size : Nat} (r q : Nat) (hrq : q ≠ r) : ∀ (l2 l1 l3 : List Nat) (fuel : Nat) (s : St) (p : Spec.Pic),
    Rep size s p → p.l = l1 ++ l2 ++ l3 → p.at_ q = (l2 ++ l3).head? → p.at_ r = l3.head? → l2.length < fuel →
    diff fuel s r q = some (some l2.length) := by
  intro l2
  induction l2 with
  | nil =>
    intro l1 l3 fuel s p h hl hq hr hf
    obtain ⟨fuel, rfl⟩ : ∃ k, fuel = k + 1 := ⟨fuel - 1, by omega⟩
    rw [diff, if_pos (by rw [h.its, hq, hr]; rfl)]; rfl
  | cons a l2 ih =>
    intro l1 l3 fuel s p h hl hq hr hf
    obtain ⟨fuel, rfl⟩ : ∃ k, fuel = k + 1 := ⟨fuel - 1, by omega⟩
    have hat : p.at_ q = some a := hq
    have hl' : p.l = l1 ++ a :: (l2 ++ l3) := by rw [hl]; simp
    have hnd : (l1 ++ a :: (l2 ++ l3)).Nodup := hl' ▸ Chain.nodup h.list.fwd
    have hal1 : a ∉ l1 := by
      intro hm
      exact (List.nodup_append.mp hnd).2.2 a hm a (by simp) rfl
    have hal3 : a ∉ l3 := by
      have := (List.nodup_cons.mp (List.nodup_append.mp hnd).2.1).1
      simp only [List.mem_append, not_or] at this
      exact this.2
    obtain ⟨s1, e1, e2, -, -⟩ := step_rep h (.inc q) (by simp [Spec.may, hat])
    have e1' : inc s q = some s1 := e1
    have hne : ¬ s.its q = s.its r := by
      rw [h.its, hat, hr]
      intro he
      exact hal3 (List.mem_of_head? he.symm)
    have hat2 : (Spec.act p (.inc q)).at_ q = (l2 ++ l3).head? := by
      simp [Spec.act, Spec.move, hat, hl', after_split hal1]
    have hat3 : (Spec.act p (.inc q)).at_ r = l3.head? := by
      simp [Spec.act, Spec.move, Ne.symm hrq, hr]
    rw [diff, if_neg hne, e1']
    simp only [ih (l1 ++ [a]) l3 fuel s1 _ e2 (by simp [Spec.act, Spec.move, hl']) hat2 hat3 (by simp at hf; omega)]
    simp

/-- The difference of two iterators, the first not before the second, is the number of steps between them. -/
theorem difference_counts (size : Nat) (ops : List Op) (hl : Spec.Legal size ops Spec.none_) (r q : Nat) (hrq : q ≠ r)
    (l1 l2 l3 : List Nat) (hp : (Spec.pic ops Spec.none_).l = l1 ++ l2 ++ l3)
    (hq : (Spec.pic ops Spec.none_).at_ q = (l2 ++ l3).head?)
    (hr : (Spec.pic ops Spec.none_).at_ r = l3.head?) (fuel : Nat) (hf : l2.length < fuel) :
    ∃ s, run ops (start size) = some s ∧ diff fuel s r q = some (some l2.length) := by
  obtain ⟨s, e1, e2, -, -⟩ := run_rep ops (start_rep size) hl
  exact ⟨s, e1, diff_rep r q hrq l2 l1 l3 fuel s _ e2 hp hq hr hf⟩

/-- `end() - begin()` on a list of two. -/
example : (Spec.pic [.pushBack 2, .pushFront 0, .begin 7, .fin 8] Spec.none_).l = [] ++ [0, 2] ++ []
    ∧ (Spec.pic [.pushBack 2, .pushFront 0, .begin 7, .fin 8] Spec.none_).at_ 7 = ([0, 2] ++ []).head?
    ∧ (Spec.pic [.pushBack 2, .pushFront 0, .begin 7, .fin 8] Spec.none_).at_ 8 = [].head? := by
  simp [Spec.pic, Spec.act, Spec.none_, Spec.move]

/-- **Violation.** `front()` and `back()` return the address of a node on which they hold no lock: after every
history of edits and forward moves the node whose address they return is not locked by anybody, so the
allocator may move it while the caller reads it. -/
theorem front_back_unprotected (size : Nat) (ops : List Op) (hl : Spec.Legal size ops Spec.none_)
    (hf : ∀ op ∈ ops, Spec.forwardOnly op = true) (a b : Nat)
    (ha : (Spec.pic ops Spec.none_).l.head? = some a) (hb : (Spec.pic ops Spec.none_).l.getLast? = some b) :
    ∃ s s1 s2, run ops (start size) = some s
      ∧ peek s s.list.front = some (a, s1) ∧ s1.held a = 0
      ∧ peek s s.list.back = some (b, s2) ∧ s2.held b = 0 := by
  obtain ⟨s, e1, e2, e3, -⟩ := run_rep ops (start_rep size) hl
  obtain ⟨s', e1', k, -⟩ := forward_moves_balanced_partial size ops hl hf
  rw [e1] at e1'
  cases e1'
  refine ⟨s, s, s, e1, ?_, k a, ?_, k b⟩
  · rw [e2.front, ha]; simp [peek, lock_some, unlock, held_back]
  · rw [e2.back, hb]; simp [peek, lock_some, unlock, held_back]

example : (Spec.pic [.pushBack 2, .pushFront 0] Spec.none_).l.head? = some 0
    ∧ (Spec.pic [.pushBack 2, .pushFront 0] Spec.none_).l.getLast? = some 2 := by
  simp [Spec.pic, Spec.act, Spec.none_]

end Verif.Lists.Locks
