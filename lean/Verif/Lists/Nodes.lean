import Verif.Lists.Props
/-!
# Forward lists that own their nodes

`internal::forward_list<T, ValueNode<T, forward_node_base>>`: the list obtains a node for each value from
its allocator and keeps a copy of the value inside it (`inlinevalue_node_traits_new_base`).

Memory is a partial map from addresses to nodes: `none` is memory that the list does not hold (never
obtained, or given back).  Reading or writing a node there is undefined behaviour, the outcome `none` of the
operations.  The address that the allocator returns is an argument of each operation: any address that is
not allocated, including ones given back before.  Locking is the identity for the allocators modelled
(`experimental_std_allocator`, allocators/generic.h:70-110).  `destroyed` counts the values whose destructor
has run.
-/
namespace Verif.Lists.Nodes
open Verif.Lists

/-- `ValueNode`, traits/list_node.h:39-67 over `forward_node_base`, internal/list_node.h:19-42. -/
structure Node (α : Type) where
  next : Option Nat
  val : α
deriving DecidableEq, Repr

/-- Memory. -/
abbrev Heap (α : Type) := Nat → Option (Node α)

/-- The list object (`m_front`, internal/list_node.h:210), the memory, and the number of values destroyed. -/
structure St (α : Type) where
  heap : Heap α
  front : Option Nat
  destroyed : Nat

/-- Writing one address. -/
def put {α : Type} (m : Heap α) (a : Nat) (c : Option (Node α)) : Heap α := fun b => if b = a then c else m b

/-- A list just constructed, forward_list.h:108-109 with internal/list_node.h:273-276. -/
def St.init (α : Type) : St α := ⟨fun _ => none, none, 0⟩

/-- `lock` of a handle: dereferences it (traits/list_node.h:163-166, 240-243). -/
def deref {α : Type} (m : Heap α) (p : Option Nat) : Option (Node α) :=
  match p with
  | none => none
  | some a => m a

/-- `next(from)`, internal/list_node.h:162-171. -/
def next {α : Type} (m : Heap α) (p : Option Nat) : Option (Option Nat) := (deref m p).map (·.next)

/-- `set_next(node, next)`, internal/list_node.h:186-193. -/
def setNext {α : Type} (m : Heap α) (p v : Option Nat) : Option (Heap α) :=
  match p with
  | none => none
  | some a =>
    match m a with
    | none => none
    | some c => some (put m a (some { c with next := v }))

/-- `allocate(value)`, `alloc_move`, `alloc_emplace`, traits/list_node.h:254-265, 274-286, 290-303: obtains
memory at `h` and constructs the node there without looking at what the allocator returned; `h = none` is
the invalid handle an exhausted allocator returns. -/
def newNode {α : Type} (m : Heap α) (h : Option Nat) (v : α) : Option (Heap α) :=
  match h with
  | none => none
  | some a => some (put m a (some ⟨none, v⟩))

/-- `push_front`, `emplace_front`, forward_list.h:129-139, 179-192 with `set_front`,
internal/list_node.h:284-289. -/
def pushFront {α : Type} (s : St α) (h : Option Nat) (v : α) : Option (St α) :=
  match newNode s.heap h v with
  | none => none
  | some m =>
    match setNext m h s.front with
    | none => none
    | some m' => some { s with heap := m', front := h }

/-- `pop_front`, forward_list.h:117-127: `deallocate` (traits/list_node.h:267-270) gives the memory back; it
is not `destroy` (188-192), so no destructor runs. -/
def popFront {α : Type} (s : St α) : Option (St α) :=
  match s.front with
  | none => none
  | some old =>
    match next s.heap (some old) with
    | none => none
    | some n => some { s with heap := put s.heap old none, front := n }

/-- `insert_after(pos, value)`, forward_list.h:144-154. -/
def insertAfter {α : Type} (s : St α) (pos : Nat) (h : Option Nat) (v : α) : Option (St α) :=
  match next s.heap (some pos) with
  | none => none
  | some old =>
    match newNode s.heap h v with
    | none => none
    | some m =>
      match setNext m (some pos) h with
      | none => none
      | some m1 =>
        match setNext m1 h old with
        | none => none
        | some m2 => some { s with heap := m2 }

/-- `erase_after(pos)`, forward_list.h:156-165: unlinks the node and neither destroys its value nor gives
its memory back. -/
def eraseAfter {α : Type} (s : St α) (pos : Nat) : Option (St α) :=
  match next s.heap (some pos) with
  | none => none
  | some victim =>
    match next s.heap victim with
    | none => none
    | some following =>
      match setNext s.heap (some pos) following with
      | none => none
      | some m => some { s with heap := m }

/-- Loop of `remove_if`, forward_list.h:206-229; `p` sees the value.  `fuel` bounds the steps: the theorems
hold for every bound that is large enough. -/
def removeLoop {α : Type} (p : α → Bool) (firstOnly : Bool) :
    Nat → St α → Option Nat → Option Nat → Option (St α)
  | _, s, none, _ => some s
  | 0, _, some _, _ => none
  | fuel + 1, s, some cur, prev =>
    match s.heap cur with
    | none => none
    | some c =>
      if p c.val then
        match (match prev with
               | none => some { s with front := c.next }
               | some q => (setNext s.heap (some q) c.next).map fun m => { s with heap := m }) with
        | none => none
        | some s' => if firstOnly then some s' else removeLoop p firstOnly fuel s' c.next (some cur)
      else removeLoop p firstOnly fuel s c.next (some cur)

/-- `remove_if(p, first_only)`, forward_list.h:200-230. -/
def removeIf {α : Type} (p : α → Bool) (firstOnly : Bool) (fuel : Nat) (s : St α) : Option (St α) :=
  removeLoop p firstOnly fuel s s.front none

/-- End of the list's lifetime: neither `forward_list` (forward_list.h:48-274) nor its bases
(internal/list_node.h:98-306) declare a destructor, so the handle is dropped and nothing else happens. -/
def endOfLife {α : Type} (s : St α) : St α := { s with front := none }

/-- `for(i = begin(); i != end(); ++i) use(*i)`, internal/list_node.h:295-301 with iterators/list.h:123-142,
215-245: the values met. -/
def walk {α : Type} (m : Heap α) : Nat → Option Nat → Option (List α)
  | _, none => some []
  | 0, some _ => none
  | fuel + 1, some a =>
    match m a with
    | none => none
    | some c => (walk m fuel c.next).map (c.val :: ·)

/-! ## The specification -/

/-- What a user does with the list.  `h` is the address the allocator picks. -/
inductive Op (α : Type)
  | push (h : Nat) (v : α)
  | pop
  | insertAfter (pos h : Nat) (v : α)
  | eraseAfter (pos : Nat)
  | removeIf (p : α → Bool) (firstOnly : Bool)

/-- Elements, with the address of each (what an iterator holds). -/
abbrev Spec.L (α : Type) := List (Nat × α)

/-- Inserts after the element at `pos`. -/
def Spec.insAfter {α : Type} (pos h : Nat) (v : α) : Spec.L α → Spec.L α
  | [] => []
  | e :: l => if e.1 = pos then e :: (h, v) :: l else e :: Spec.insAfter pos h v l

/-- Erases the element after the one at `pos`. -/
def Spec.erAfter {α : Type} (pos : Nat) : Spec.L α → Spec.L α
  | [] => []
  | e :: l => if e.1 = pos then e :: l.tail else e :: Spec.erAfter pos l

/-- The element after the one at `pos`. -/
def Spec.afterAt {α : Type} (pos : Nat) : Spec.L α → Option (Nat × α)
  | [] => none
  | e :: l => if e.1 = pos then l.head? else Spec.afterAt pos l

/-- What each operation does to the sequence. -/
def Spec.apply {α : Type} (l : Spec.L α) : Op α → Spec.L α
  | .push h v => (h, v) :: l
  | .pop => l.tail
  | .insertAfter pos h v => Spec.insAfter pos h v l
  | .eraseAfter pos => Spec.erAfter pos l
  | .removeIf p true => l.eraseP (fun e => p e.2)
  | .removeIf p false => l.filter (fun e => ! p e.2)

/-- The addresses of elements that an operation other than `pop_front` takes out of the sequence. -/
def Spec.dropped {α : Type} (l : Spec.L α) : Op α → List Nat
  | .push _ _ | .pop | .insertAfter _ _ _ => []
  | .eraseAfter pos => ((Spec.afterAt pos l).map (·.1)).toList
  | .removeIf p true => ((l.find? (fun e => p e.2)).map (·.1)).toList
  | .removeIf p false => (l.filter (fun e => p e.2)).map (·.1)

/-- No two neighbouring elements satisfy `p`. -/
def Spec.NoAdj {α : Type} (p : α → Bool) : Spec.L α → Prop
  | a :: b :: l => ¬ (p a.2 ∧ p b.2) ∧ Spec.NoAdj p (b :: l)
  | _ => True

/-- What a caller must ensure: the allocator hands out memory that is not in use (`held` are the addresses in
use), positions are elements of the list, and something is there to be erased or popped.  `remove_if` of all
matches is limited to lists without neighbouring matches (C25 shows what happens otherwise). -/
def Spec.Allowed {α : Type} (l : Spec.L α) (held : List Nat) : Op α → Prop
  | .push h _ => h ∉ held
  | .pop => l ≠ []
  | .insertAfter pos h _ => pos ∈ l.map (·.1) ∧ h ∉ held
  | .eraseAfter pos => (Spec.afterAt pos l).isSome
  | .removeIf _ true => True
  | .removeIf p false => Spec.NoAdj p l

/-- The abstract state: the elements, and the addresses dropped so far. -/
structure Spec.St (α : Type) where
  elems : Spec.L α
  dropped : List Nat

/-- One step of the specification. -/
def Spec.step {α : Type} (t : Spec.St α) (op : Op α) : Spec.St α :=
  ⟨Spec.apply t.elems op, Spec.dropped t.elems op ++ t.dropped⟩

/-- A history of the specification. -/
def Spec.run {α : Type} (ops : List (Op α)) (t : Spec.St α) : Spec.St α := ops.foldl Spec.step t

/-- Histories a caller may perform: the memory in use is that of the elements and of what was dropped. -/
def Spec.Legal {α : Type} : List (Op α) → Spec.St α → Prop
  | [], _ => True
  | op :: ops, t =>
    Spec.Allowed t.elems (t.elems.map (·.1) ++ t.dropped) op ∧ Spec.Legal ops (Spec.step t op)

/-- Number of values put into the list by a history. -/
def Spec.inserted {α : Type} : List (Op α) → Nat
  | [] => 0
  | .push _ _ :: ops | .insertAfter _ _ _ :: ops => 1 + Spec.inserted ops
  | _ :: ops => Spec.inserted ops

/-- Number of `pop_front` calls in a history. -/
def Spec.popped {α : Type} : List (Op α) → Nat
  | [] => 0
  | .pop :: ops => 1 + Spec.popped ops
  | _ :: ops => Spec.popped ops

/-- One step of the model. -/
def step {α : Type} (fuel : Nat) (s : St α) : Op α → Option (St α)
  | .push h v => pushFront s (some h) v
  | .pop => popFront s
  | .insertAfter pos h v => insertAfter s pos (some h) v
  | .eraseAfter pos => eraseAfter s pos
  | .removeIf p f => removeIf p f fuel s

/-- A history of the model. -/
def run {α : Type} (fuel : Nat) : List (Op α) → St α → Option (St α)
  | [], s => some s
  | op :: ops, s =>
    match step fuel s op with
    | none => none
    | some s' => run fuel ops s'

/-! ## Chains -/

/-- Following `next` from `p` one meets exactly the elements `l` and then holds `q`. -/
def Seg {α : Type} (m : Heap α) : Option Nat → Spec.L α → Option Nat → Prop
  | p, [], q => p = q
  | p, e :: l, q => p = some e.1 ∧ ∃ n, m e.1 = some ⟨n, e.2⟩ ∧ Seg m n l q

theorem Seg.append {α : Type} {m : Heap α} {p q : Option Nat} {l1 l2 : Spec.L α} :
    Seg m p (l1 ++ l2) q ↔ ∃ r, Seg m p l1 r ∧ Seg m r l2 q := by
  induction l1 generalizing p with
  | nil => simp [Seg]
  | cons a l1 ih =>
    simp only [List.cons_append, Seg, ih]
    constructor
    · rintro ⟨hp, n, hn, r, h1, h2⟩; exact ⟨r, ⟨hp, n, hn, h1⟩, h2⟩
    · rintro ⟨r, ⟨hp, n, hn, h1⟩, h2⟩; exact ⟨hp, n, hn, r, h1, h2⟩

theorem Seg.put_ne {α : Type} {m : Heap α} {p q : Option Nat} {l : Spec.L α} {a : Nat}
    {c : Option (Node α)} (ha : a ∉ l.map (·.1)) (h : Seg m p l q) : Seg (put m a c) p l q := by
  induction l generalizing p with
  | nil => exact h
  | cons e l ih =>
    obtain ⟨hp, n, hn, h⟩ := h
    simp only [List.map_cons, List.mem_cons, not_or] at ha
    refine ⟨hp, n, ?_, ih ha.2 h⟩
    simp only [put, if_neg (Ne.symm ha.1)]; exact hn

theorem Seg.walk {α : Type} {m : Heap α} {p : Option Nat} {l : Spec.L α} (h : Seg m p l none) (fuel : Nat)
    (hf : l.length ≤ fuel) : walk m fuel p = some (l.map (·.2)) := by
  induction l generalizing p fuel with
  | nil => have : p = none := h; subst this; cases fuel <;> rfl
  | cons e l ih =>
    obtain ⟨rfl, n, hn, h⟩ := h
    cases fuel with
    | zero => simp at hf
    | succ fuel => simp only [Nodes.walk, hn, ih h fuel (by simpa using hf), Option.map_some, List.map_cons]

/-- What holds between the memory and the abstract state. -/
structure Rep {α : Type} (s : St α) (t : Spec.St α) : Prop where
  seg : Seg s.heap s.front t.elems none
  nodup : (t.elems.map (·.1) ++ t.dropped).Nodup
  held : ∀ a, (s.heap a).isSome ↔ a ∈ t.elems.map (·.1) ++ t.dropped
  destroyed : s.destroyed = 0

theorem split_at {α : Type} {pos : Nat} {l : Spec.L α} (h : pos ∈ l.map (·.1)) :
    ∃ l1 v l2, l = l1 ++ (pos, v) :: l2 ∧ pos ∉ l1.map (·.1) := by
  induction l with
  | nil => simp at h
  | cons e l ih =>
    by_cases he : e.1 = pos
    · exact ⟨[], e.2, l, by simp [← he], by simp⟩
    · simp only [List.map_cons, List.mem_cons] at h
      obtain ⟨l1, v, l2, hl, hn⟩ := ih (by rcases h with h | h; exact absurd h.symm he; exact h)
      exact ⟨e :: l1, v, l2, by simp [hl], by simpa [Ne.symm he] using hn⟩

theorem insAfter_split {α : Type} {pos h : Nat} {v w : α} {l1 l2 : Spec.L α} (hn : pos ∉ l1.map (·.1)) :
    Spec.insAfter pos h v (l1 ++ (pos, w) :: l2) = l1 ++ (pos, w) :: (h, v) :: l2 := by
  induction l1 with
  | nil => simp [Spec.insAfter]
  | cons e l1 ih =>
    simp only [List.map_cons, List.mem_cons, not_or] at hn
    simp [Spec.insAfter, Ne.symm hn.1, ih hn.2]

theorem erAfter_split {α : Type} {pos : Nat} {w : α} {l1 l2 : Spec.L α} (hn : pos ∉ l1.map (·.1)) :
    Spec.erAfter pos (l1 ++ (pos, w) :: l2) = l1 ++ (pos, w) :: l2.tail := by
  induction l1 with
  | nil => simp [Spec.erAfter]
  | cons e l1 ih =>
    simp only [List.map_cons, List.mem_cons, not_or] at hn
    simp [Spec.erAfter, Ne.symm hn.1, ih hn.2]

theorem afterAt_split {α : Type} {pos : Nat} {w : α} {l1 l2 : Spec.L α} (hn : pos ∉ l1.map (·.1)) :
    Spec.afterAt pos (l1 ++ (pos, w) :: l2) = l2.head? := by
  induction l1 with
  | nil => simp [Spec.afterAt]
  | cons e l1 ih =>
    simp only [List.map_cons, List.mem_cons, not_or] at hn
    simp [Spec.afterAt, Ne.symm hn.1, ih hn.2]

theorem afterAt_mem {α : Type} {pos : Nat} {l : Spec.L α} (h : (Spec.afterAt pos l).isSome) :
    pos ∈ l.map (·.1) := by
  induction l with
  | nil => simp [Spec.afterAt] at h
  | cons e l ih =>
    by_cases he : e.1 = pos
    · simp [he]
    · simp only [Spec.afterAt, if_neg he] at h; simp only [List.map_cons, List.mem_cons]; exact Or.inr (ih h)

theorem isSome_put {α : Type} {m : Heap α} {a b : Nat} {c : Option (Node α)} :
    (put m a c b).isSome = if b = a then c.isSome else (m b).isSome := by
  simp only [put]; split <;> rfl

theorem rep_push {α : Type} {s : St α} {t : Spec.St α} (r : Rep s t) (h : Nat) (v : α)
    (hh : h ∉ t.elems.map (·.1) ++ t.dropped) :
    ∃ s', pushFront s (some h) v = some s' ∧ Rep s' (Spec.step t (.push h v)) := by
  refine ⟨⟨put (put s.heap h (some ⟨none, v⟩)) h (some ⟨s.front, v⟩), some h, s.destroyed⟩, ?_, ?_⟩
  · simp [pushFront, newNode, setNext, put]
  · have hne : h ∉ t.elems.map (·.1) := fun e => hh (List.mem_append_left _ e)
    refine ⟨⟨rfl, s.front, by simp [put], ?_⟩, ?_, ?_, r.destroyed⟩
    · exact Seg.put_ne hne (Seg.put_ne hne r.seg)
    · simp only [Spec.step, Spec.apply, Spec.dropped, List.nil_append, List.map_cons, List.cons_append,
        List.nodup_cons]
      exact ⟨hh, r.nodup⟩
    · intro a
      simp only [isSome_put, Spec.step, Spec.apply, Spec.dropped, List.nil_append, List.map_cons,
        List.cons_append, List.mem_cons]
      by_cases e : a = h
      · simp [e]
      · simp only [if_neg e, e, false_or]; exact r.held a

theorem rep_pop {α : Type} {s : St α} {t : Spec.St α} (r : Rep s t) (hl : t.elems ≠ []) :
    ∃ s', popFront s = some s' ∧ Rep s' (Spec.step t .pop) := by
  obtain ⟨l, d⟩ := t
  cases l with
  | nil => exact absurd rfl hl
  | cons e l =>
    obtain ⟨hp, n, hn, hs⟩ := r.seg
    have hnd := r.nodup
    simp only [List.map_cons, List.cons_append, List.nodup_cons, List.mem_append, not_or] at hnd
    refine ⟨⟨put s.heap e.1 none, n, s.destroyed⟩, ?_, ?_⟩
    · simp [popFront, hp, next, deref, hn]
    · refine ⟨Seg.put_ne hnd.1.1 hs, ?_, ?_, r.destroyed⟩
      · simpa [Spec.step, Spec.apply, Spec.dropped] using hnd.2
      · intro a
        have := r.held a
        simp only [isSome_put, Spec.step, Spec.apply, Spec.dropped, List.nil_append, List.tail_cons]
        simp only [List.map_cons, List.cons_append, List.mem_cons] at this
        by_cases ea : a = e.1
        · simp only [ea, if_true, Option.isSome_none, Bool.false_eq_true, false_iff, List.mem_append, not_or]
          exact hnd.1
        · simp only [if_neg ea]; rw [this]; simp [ea]

theorem rep_insertAfter {α : Type} {s : St α} {t : Spec.St α} (r : Rep s t) (pos h : Nat) (v : α)
    (hpos : pos ∈ t.elems.map (·.1)) (hh : h ∉ t.elems.map (·.1) ++ t.dropped) :
    ∃ s', insertAfter s pos (some h) v = some s' ∧ Rep s' (Spec.step t (.insertAfter pos h v)) := by
  obtain ⟨l, d⟩ := t
  obtain ⟨l1, w, l2, rfl, hn1⟩ := split_at hpos
  obtain ⟨q, hs1, rfl, n, hn, hs2⟩ := Seg.append.mp r.seg
  have hnd := r.nodup
  simp only [List.map_append, List.map_cons, List.mem_append, List.mem_cons, not_or] at hh
  have hph : pos ≠ h := fun e => hh.1.2.1 e.symm
  have hn2 : pos ∉ l2.map (·.1) := by
    simp only [List.map_append, List.map_cons, List.append_assoc, List.cons_append] at hnd
    have := (List.nodup_append.mp hnd).2.1
    simp only [List.nodup_cons, List.mem_append, not_or] at this
    exact this.1.1
  refine ⟨⟨put (put (put s.heap h (some ⟨none, v⟩)) pos (some ⟨some h, w⟩)) h (some ⟨n, v⟩), s.front,
    s.destroyed⟩, ?_, ?_⟩
  · simp [insertAfter, next, deref, hn, newNode, setNext, put, hph, Ne.symm hph]
  · refine ⟨?_, ?_, ?_, r.destroyed⟩
    · simp only [Spec.step, Spec.apply, insAfter_split hn1]
      refine Seg.append.mpr ⟨some pos, ?_, rfl, some h, ?_, rfl, n, ?_, ?_⟩
      · exact Seg.put_ne hh.1.1 (Seg.put_ne hn1 (Seg.put_ne hh.1.1 hs1))
      · simp [put, hph]
      · simp [put]
      · exact Seg.put_ne hh.1.2.2 (Seg.put_ne hn2 (Seg.put_ne hh.1.2.2 hs2))
    · simp only [Spec.step, Spec.apply, Spec.dropped, List.nil_append, insAfter_split hn1]
      have hp : ((l1 ++ (pos, w) :: (h, v) :: l2).map (·.1) ++ d).Perm
          (h :: ((l1 ++ (pos, w) :: l2).map (·.1) ++ d)) := by
        have e1 : (l1 ++ (pos, w) :: (h, v) :: l2).map (·.1) ++ d
            = (l1.map (·.1) ++ [pos]) ++ h :: (l2.map (·.1) ++ d) := by simp
        have e2 : (l1 ++ (pos, w) :: l2).map (·.1) ++ d
            = (l1.map (·.1) ++ [pos]) ++ (l2.map (·.1) ++ d) := by simp
        rw [e1, e2]; exact List.perm_middle
      refine hp.nodup_iff.mpr (List.nodup_cons.mpr ⟨?_, hnd⟩)
      simp only [List.map_append, List.map_cons, List.mem_append, List.mem_cons, not_or]
      exact hh
    · intro a
      have := r.held a
      simp only [isSome_put, Spec.step, Spec.apply, Spec.dropped, List.nil_append, insAfter_split hn1]
      simp only [List.map_append, List.map_cons, List.mem_append, List.mem_cons] at this ⊢
      by_cases ea : a = h
      · simp [ea]
      · by_cases eb : a = pos
        · simp [eb]
        · simp only [ea, eb, if_false, false_or] at this ⊢; exact this

theorem rep_eraseAfter {α : Type} {s : St α} {t : Spec.St α} (r : Rep s t) (pos : Nat)
    (hpos : (Spec.afterAt pos t.elems).isSome) :
    ∃ s', eraseAfter s pos = some s' ∧ Rep s' (Spec.step t (.eraseAfter pos)) := by
  obtain ⟨l, d⟩ := t
  obtain ⟨l1, w, l2, rfl, hn1⟩ := split_at (afterAt_mem hpos)
  simp only [afterAt_split hn1] at hpos
  cases l2 with
  | nil => simp at hpos
  | cons e l2 =>
    obtain ⟨q, hs1, rfl, n, hn, rfl, n2, hm2, hs2⟩ := Seg.append.mp r.seg
    have hnd := r.nodup
    have hp : ((l1 ++ (pos, w) :: e :: l2).map (·.1) ++ d).Perm
        ((l1 ++ (pos, w) :: l2).map (·.1) ++ e.1 :: d) := by
      have e1 : (l1 ++ (pos, w) :: e :: l2).map (·.1) ++ d
          = (l1.map (·.1) ++ [pos]) ++ e.1 :: (l2.map (·.1) ++ d) := by simp
      have e2 : (l1 ++ (pos, w) :: l2).map (·.1) ++ e.1 :: d
          = (l1.map (·.1) ++ [pos] ++ l2.map (·.1)) ++ e.1 :: d := by simp
      rw [e1, e2]
      exact List.perm_middle.trans (by simpa using (List.perm_middle (l₁ := l1.map (·.1) ++ [pos] ++ l2.map (·.1)) (l₂ := d) (a := e.1)).symm)
    have hn2 : pos ∉ l2.map (·.1) := by
      simp only [List.map_append, List.map_cons, List.append_assoc, List.cons_append] at hnd
      have := (List.nodup_append.mp hnd).2.1
      simp only [List.nodup_cons, List.mem_cons, List.mem_append, not_or] at this
      exact this.1.2.1
    refine ⟨⟨put s.heap pos (some ⟨n2, w⟩), s.front, s.destroyed⟩, ?_, ?_⟩
    · simp [eraseAfter, next, deref, hn, hm2, setNext]
    · refine ⟨?_, ?_, ?_, r.destroyed⟩
      · simp only [Spec.step, Spec.apply, erAfter_split hn1, List.tail_cons]
        refine Seg.append.mpr ⟨some pos, Seg.put_ne hn1 hs1, rfl, n2, by simp [put], Seg.put_ne hn2 hs2⟩
      · simp only [Spec.step, Spec.apply, Spec.dropped, erAfter_split hn1, List.tail_cons,
          afterAt_split hn1, List.head?_cons, Option.map_some, Option.toList_some, List.singleton_append]
        exact hp.nodup_iff.mp hnd
      · intro a
        simp only [Spec.step, Spec.apply, Spec.dropped, erAfter_split hn1, List.tail_cons,
          afterAt_split hn1, List.head?_cons, Option.map_some, Option.toList_some, List.singleton_append]
        rw [← hp.mem_iff, ← r.held a, isSome_put]
        by_cases ea : a = pos
        · simp [ea, hn]
        · simp [ea]

/-! ## `remove_if` -/

/-- Unlinking the element between `kept` and the rest: what the loop does on a match. -/
theorem unlink {α : Type} {s : St α} {kept : Spec.L α} {cur n : Option Nat}
    (h : Seg s.heap s.front kept cur) (hnd : (kept.map (·.1)).Nodup) :
    ∃ s', (match (kept.getLast?).map (·.1) with
           | none => some { s with front := n }
           | some q => (setNext s.heap (some q) n).map fun m => { s with heap := m }) = some s'
      ∧ Seg s'.heap s'.front kept n
      ∧ (∀ a, a ∉ kept.map (·.1) → s'.heap a = s.heap a)
      ∧ (∀ a, (s'.heap a).isSome = (s.heap a).isSome) ∧ s'.destroyed = s.destroyed := by
  rcases List.eq_nil_or_concat kept with rfl | ⟨k, e, rfl⟩
  · exact ⟨_, rfl, rfl, fun _ _ => rfl, fun _ => rfl, rfl⟩
  · rw [List.concat_eq_append] at h hnd ⊢
    obtain ⟨r, h1, rfl, x, hx, hc⟩ := Seg.append.mp h
    have hc : x = cur := hc
    subst hc
    simp only [List.map_append, List.map_cons, List.map_nil, List.nodup_append,
      List.mem_singleton, forall_eq] at hnd
    have hq : e.1 ∉ k.map (·.1) := fun hm => hnd.2.2 _ hm rfl
    refine ⟨⟨put s.heap e.1 (some ⟨n, e.2⟩), s.front, s.destroyed⟩, ?_, ?_, ?_, ?_, rfl⟩
    · simp [setNext, hx]
    · refine Seg.append.mpr ⟨some e.1, Seg.put_ne hq h1, rfl, n, by simp [put], rfl⟩
    · intro a ha
      have : a ≠ e.1 := by rintro rfl; exact ha (by simp)
      simp [put, this]
    · intro a
      rw [isSome_put]
      by_cases ea : a = e.1
      · simp [ea, hx]
      · simp [ea]

theorem Seg.congr {α : Type} {m m' : Heap α} {p q : Option Nat} {l : Spec.L α}
    (hm : ∀ a ∈ l.map (·.1), m' a = m a) (h : Seg m p l q) : Seg m' p l q := by
  induction l generalizing p with
  | nil => exact h
  | cons e l ih =>
    obtain ⟨hp, n, hn, h⟩ := h
    exact ⟨hp, n, by rw [hm e.1 (by simp)]; exact hn, ih (fun a ha => hm a (by simp [ha])) h⟩

theorem removeLoop_all {α : Type} (p : α → Bool) : ∀ (rest : Spec.L α) (fuel : Nat) (s : St α)
    (kept : Spec.L α) (cur prev : Option Nat), Seg s.heap s.front kept cur → Seg s.heap cur rest none →
    ((kept ++ rest).map (·.1)).Nodup → Spec.NoAdj p rest →
    (∀ e l, rest = e :: l → p e.2 = true → prev = (kept.getLast?).map (·.1)) → rest.length ≤ fuel →
    ∃ s', removeLoop p false fuel s cur prev = some s'
      ∧ Seg s'.heap s'.front (kept ++ rest.filter (fun e => ! p e.2)) none
      ∧ (∀ a, (s'.heap a).isSome = (s.heap a).isSome) ∧ s'.destroyed = s.destroyed := by
  intro rest
  induction rest with
  | nil =>
    intro fuel s kept cur prev h1 h2 _ _ _ _
    have h2 : cur = none := h2
    subst h2
    exact ⟨s, by cases fuel <;> rfl, by simpa using h1, fun _ => rfl, rfl⟩
  | cons e l ih =>
    intro fuel s kept cur prev h1 h2 hnd hadj hprev hf
    obtain ⟨rfl, n, hn, h2⟩ := h2
    cases fuel with
    | zero => simp at hf
    | succ fuel =>
      have hf' : l.length ≤ fuel := by simpa using hf
      have hadj' : Spec.NoAdj p l := by
        cases l with
        | nil => trivial
        | cons b l => exact hadj.2
      by_cases hp : p e.2 = true
      · obtain ⟨s1, hs1, hseg, hsame, hsome, hdes⟩ := unlink (n := n) h1
          (by simp only [List.map_append] at hnd; exact (List.nodup_append.mp hnd).1)
        have hpr := hprev e l rfl hp
        subst hpr
        have h2' : Seg s1.heap n l none := by
          refine Seg.congr (fun a ha => hsame a ?_) h2
          intro hk
          simp only [List.map_append, List.map_cons] at hnd
          exact (List.nodup_append.mp hnd).2.2 a hk a (by simp [ha]) rfl
        obtain ⟨s2, hs2, hseg2, hsome2, hdes2⟩ := ih fuel s1 kept n (some e.1) hseg h2'
          (by
            have : ((kept ++ l).map (·.1)).Sublist ((kept ++ e :: l).map (·.1)) :=
              ((List.Sublist.refl kept).append (List.sublist_cons_self e l)).map _
            exact hnd.sublist this)
          hadj'
          (by
            intro b l' hl hb
            subst hl
            exact absurd ⟨hp, hb⟩ hadj.1)
          hf'
        refine ⟨s2, ?_, ?_, fun a => (hsome2 a).trans (hsome a), hdes2.trans hdes⟩
        · simp only [removeLoop, hn, hp, if_true, hs1]
          exact hs2
        · simpa [hp] using hseg2
      · obtain ⟨s2, hs2, hseg2, hsome2, hdes2⟩ := ih fuel s (kept ++ [e]) n (some e.1)
          (Seg.append.mpr ⟨some e.1, h1, rfl, n, hn, rfl⟩) h2 (by simpa using hnd) hadj'
          (by intro b l' _ _; simp) hf'
        refine ⟨s2, ?_, ?_, hsome2, hdes2⟩
        · simp only [removeLoop, hn, hp]
          exact hs2
        · simpa [hp] using hseg2

theorem removeLoop_first {α : Type} (p : α → Bool) : ∀ (rest : Spec.L α) (fuel : Nat) (s : St α)
    (kept : Spec.L α) (cur : Option Nat), Seg s.heap s.front kept cur → Seg s.heap cur rest none →
    ((kept ++ rest).map (·.1)).Nodup → rest.length ≤ fuel →
    ∃ s', removeLoop p true fuel s cur ((kept.getLast?).map (·.1)) = some s'
      ∧ Seg s'.heap s'.front (kept ++ rest.eraseP (fun e => p e.2)) none
      ∧ (∀ a, (s'.heap a).isSome = (s.heap a).isSome) ∧ s'.destroyed = s.destroyed := by
  intro rest
  induction rest with
  | nil =>
    intro fuel s kept cur h1 h2 _ _
    have h2 : cur = none := h2
    subst h2
    exact ⟨s, by cases fuel <;> rfl, by simpa using h1, fun _ => rfl, rfl⟩
  | cons e l ih =>
    intro fuel s kept cur h1 h2 hnd hf
    obtain ⟨rfl, n, hn, h2⟩ := h2
    cases fuel with
    | zero => simp at hf
    | succ fuel =>
      have hf' : l.length ≤ fuel := by simpa using hf
      by_cases hp : p e.2 = true
      · obtain ⟨s1, hs1, hseg, hsame, hsome, hdes⟩ := unlink (n := n) h1
          (by simp only [List.map_append] at hnd; exact (List.nodup_append.mp hnd).1)
        have h2' : Seg s1.heap n l none := by
          refine Seg.congr (fun a ha => hsame a ?_) h2
          intro hk
          simp only [List.map_append, List.map_cons] at hnd
          exact (List.nodup_append.mp hnd).2.2 a hk a (by simp [ha]) rfl
        refine ⟨s1, ?_, ?_, hsome, hdes⟩
        · simp only [removeLoop, hn, hp, if_true, hs1]
        · simp only [List.eraseP_cons, hp, cond_true]
          exact Seg.append.mpr ⟨n, hseg, h2'⟩
      · obtain ⟨s2, hs2, hseg2, hsome2, hdes2⟩ := ih fuel s (kept ++ [e]) n
          (Seg.append.mpr ⟨some e.1, h1, rfl, n, hn, rfl⟩) h2 (by simpa using hnd) hf'
        refine ⟨s2, ?_, ?_, hsome2, hdes2⟩
        · simp only [removeLoop, hn, hp]
          simpa using hs2
        · simpa [List.eraseP_cons, hp] using hseg2

/-- Elements are either kept or dropped. -/
theorem filter_perm {α : Type} (p : α → Bool) (l : Spec.L α) (d : List Nat) :
    (l.map (·.1) ++ d).Perm
      ((l.filter (fun e => ! p e.2)).map (·.1) ++ ((l.filter (fun e => p e.2)).map (·.1) ++ d)) := by
  induction l with
  | nil => simp
  | cons e l ih =>
    by_cases hp : p e.2 = true
    · simp only [List.filter_cons, hp, Bool.not_true, Bool.false_eq_true, if_false, if_true, List.map_cons,
        List.cons_append]
      exact (ih.cons e.1).trans List.perm_middle.symm
    · simp only [List.filter_cons, hp, Bool.not_false, Bool.false_eq_true, if_false, if_true, List.map_cons,
        List.cons_append]
      exact ih.cons e.1

theorem eraseP_perm {α : Type} (p : α → Bool) (l : Spec.L α) (d : List Nat) :
    (l.map (·.1) ++ d).Perm
      ((l.eraseP (fun e => p e.2)).map (·.1) ++ (((l.find? (fun e => p e.2)).map (·.1)).toList ++ d)) := by
  induction l with
  | nil => simp
  | cons e l ih =>
    by_cases hp : p e.2 = true
    · simp only [List.eraseP_cons, List.find?_cons, hp, cond_true, Option.map_some, Option.toList_some,
        List.map_cons, List.cons_append, List.nil_append]
      exact List.perm_middle.symm
    · simp only [List.eraseP_cons, List.find?_cons, hp, cond_false, List.map_cons, List.cons_append]
      exact ih.cons e.1

theorem rep_removeIf {α : Type} {s : St α} {t : Spec.St α} (r : Rep s t) (p : α → Bool) (f : Bool)
    (fuel : Nat) (hf : t.elems.length ≤ fuel) (ha : f = false → Spec.NoAdj p t.elems) :
    ∃ s', removeIf p f fuel s = some s' ∧ Rep s' (Spec.step t (.removeIf p f)) := by
  have hnd : (t.elems.map (·.1)).Nodup := (List.nodup_append.mp r.nodup).1
  cases f with
  | true =>
    obtain ⟨s', hs', hseg, hsome, hdes⟩ := removeLoop_first p t.elems fuel s [] s.front rfl r.seg hnd hf
    refine ⟨s', hs', by simpa [Spec.step, Spec.apply] using hseg, (eraseP_perm p t.elems t.dropped).nodup_iff.mp r.nodup, ?_,
      hdes.trans r.destroyed⟩
    intro a
    rw [hsome a, r.held a]
    exact (eraseP_perm p t.elems t.dropped).mem_iff
  | false =>
    obtain ⟨s', hs', hseg, hsome, hdes⟩ :=
      removeLoop_all p t.elems fuel s [] s.front none rfl r.seg hnd (ha rfl) (fun _ _ _ _ => rfl) hf
    refine ⟨s', hs', by simpa [Spec.step, Spec.apply] using hseg, (filter_perm p t.elems t.dropped).nodup_iff.mp r.nodup, ?_,
      hdes.trans r.destroyed⟩
    intro a
    rw [hsome a, r.held a]
    exact (filter_perm p t.elems t.dropped).mem_iff

/-! ## Histories -/

theorem rep_step {α : Type} {s : St α} {t : Spec.St α} (r : Rep s t) (op : Op α) (fuel : Nat)
    (hf : t.elems.length ≤ fuel) (ha : Spec.Allowed t.elems (t.elems.map (·.1) ++ t.dropped) op) :
    ∃ s', step fuel s op = some s' ∧ Rep s' (Spec.step t op) := by
  cases op with
  | push h v => exact rep_push r h v ha
  | pop => exact rep_pop r ha
  | insertAfter pos h v => exact rep_insertAfter r pos h v ha.1 ha.2
  | eraseAfter pos => exact rep_eraseAfter r pos ha
  | removeIf p f => exact rep_removeIf r p f fuel hf (by rintro rfl; exact ha)

theorem insAfter_length {α : Type} (pos h : Nat) (v : α) (l : Spec.L α) :
    (Spec.insAfter pos h v l).length ≤ l.length + 1 := by
  induction l with
  | nil => simp [Spec.insAfter]
  | cons e l ih => simp only [Spec.insAfter]; split <;> simp <;> omega

theorem erAfter_length {α : Type} (pos : Nat) (l : Spec.L α) : (Spec.erAfter pos l).length ≤ l.length := by
  induction l with
  | nil => simp [Spec.erAfter]
  | cons e l ih => simp only [Spec.erAfter]; split <;> simp <;> omega

theorem apply_length {α : Type} (l : Spec.L α) (op : Op α) (ops : List (Op α)) :
    (Spec.apply l op).length + Spec.inserted ops ≤ l.length + Spec.inserted (op :: ops) := by
  cases op with
  | push h v => simp [Spec.apply, Spec.inserted]; omega
  | pop => simp [Spec.apply, Spec.inserted]
  | insertAfter pos h v => have := insAfter_length pos h v l; simp [Spec.apply, Spec.inserted]; omega
  | eraseAfter pos => have := erAfter_length pos l; simp [Spec.apply, Spec.inserted]; omega
  | removeIf p f =>
    cases f with
    | true =>
      have : (l.eraseP (fun e => p e.2)).length ≤ l.length := List.eraseP_sublist.length_le
      simp [Spec.apply, Spec.inserted]; omega
    | false =>
      have := List.length_filter_le (fun e : Nat × α => ! p e.2) l
      simp [Spec.apply, Spec.inserted]; omega

theorem rep_run {α : Type} (ops : List (Op α)) : ∀ {s : St α} {t : Spec.St α}, Rep s t → ∀ fuel,
    t.elems.length + Spec.inserted ops ≤ fuel → Spec.Legal ops t →
    ∃ s', run fuel ops s = some s' ∧ Rep s' (Spec.run ops t) := by
  induction ops with
  | nil => intro s t r fuel _ _; exact ⟨s, rfl, r⟩
  | cons op ops ih =>
    intro s t r fuel hf hl
    obtain ⟨s1, h1, r1⟩ := rep_step r op fuel (by omega) hl.1
    have := apply_length t.elems op ops
    obtain ⟨s2, h2, r2⟩ := ih r1 fuel (by show (Spec.apply t.elems op).length + _ ≤ _; omega) hl.2
    exact ⟨s2, by simp only [run, h1]; exact h2, r2⟩

theorem rep_init (α : Type) : Rep (St.init α) ⟨[], []⟩ :=
  ⟨rfl, by simp, by simp [St.init], rfl⟩

/-- For every history of pushes, pops, insertions, erasures and removals that a caller may perform on a new
list that owns its nodes — whatever addresses the allocator picks, including memory given back before — no
operation reads or writes memory that the list does not hold, and iterating from `begin()` to `end()`
afterwards yields exactly the values of the same history performed on a plain sequence.  `remove_if` of all
matches is covered for lists without neighbouring matches only (C25). -/
theorem owning_list_history_partial {α : Type} (ops : List (Op α)) (hl : Spec.Legal ops ⟨[], []⟩) (fuel : Nat)
    (hf : Spec.inserted ops ≤ fuel) :
    ∃ s, run fuel ops (St.init α) = some s
      ∧ walk s.heap fuel s.front = some ((Spec.run ops ⟨[], []⟩).elems.map (·.2)) := by
  obtain ⟨s, hs, r⟩ := rep_run ops (rep_init α) fuel (by simpa using hf) hl
  refine ⟨s, hs, r.seg.walk fuel ?_⟩
  have : ∀ (ops : List (Op α)) (t : Spec.St α), (Spec.run ops t).elems.length ≤ t.elems.length + Spec.inserted ops := by
    intro ops
    induction ops with
    | nil => intro t; simp [Spec.run, Spec.inserted]
    | cons op ops ih =>
      intro t
      have h1 := ih (Spec.step t op)
      have h2 := apply_length t.elems op ops
      exact Nat.le_trans h1 h2
  have := this ops ⟨[], []⟩
  simp at this
  omega

/-- **Violation.** Memory: after every such history the list still holds the memory of its elements — and
also that of every element that `erase_after` or `remove_if` ever took out, which nothing can give back any
more.  Only `pop_front` gives memory back. -/
theorem owning_list_leaks {α : Type} (ops : List (Op α)) (hl : Spec.Legal ops ⟨[], []⟩) (fuel : Nat)
    (hf : Spec.inserted ops ≤ fuel) :
    ∃ s, run fuel ops (St.init α) = some s
      ∧ ∀ a, (s.heap a).isSome ↔
          a ∈ (Spec.run ops ⟨[], []⟩).elems.map (·.1) ∨ a ∈ (Spec.run ops ⟨[], []⟩).dropped := by
  obtain ⟨s, hs, r⟩ := rep_run ops (rep_init α) fuel (by simpa using hf) hl
  exact ⟨s, hs, fun a => by rw [r.held a, List.mem_append]⟩

theorem step_dropped_length {α : Type} (t : Spec.St α) (op : Op α)
    (ha : Spec.Allowed t.elems (t.elems.map (·.1) ++ t.dropped) op) (ops : List (Op α)) :
    (Spec.step t op).elems.length + (Spec.step t op).dropped.length + Spec.popped (op :: ops)
        + Spec.inserted ops
      = t.elems.length + t.dropped.length + Spec.popped ops + Spec.inserted (op :: ops) := by
  cases op with
  | push h v => simp [Spec.step, Spec.apply, Spec.dropped, Spec.popped, Spec.inserted]; omega
  | pop =>
    have : t.elems.length ≠ 0 := fun e => ha (List.length_eq_zero_iff.mp e)
    simp [Spec.step, Spec.apply, Spec.dropped, Spec.popped, Spec.inserted]; omega
  | insertAfter pos h v =>
    obtain ⟨l1, w, l2, hl, hn⟩ := split_at ha.1
    simp [Spec.step, Spec.apply, Spec.dropped, Spec.popped, Spec.inserted, hl, insAfter_split hn]; omega
  | eraseAfter pos =>
    obtain ⟨l1, w, l2, hl, hn⟩ := split_at (afterAt_mem ha)
    have ha' : (Spec.afterAt pos t.elems).isSome := ha
    rw [hl, afterAt_split hn] at ha'
    cases l2 with
    | nil => simp at ha'
    | cons e l2 =>
      simp [Spec.step, Spec.apply, Spec.dropped, Spec.popped, Spec.inserted, hl, erAfter_split hn,
        afterAt_split hn]; omega
  | removeIf p f =>
    cases f with
    | true =>
      have := (eraseP_perm p t.elems t.dropped).length_eq
      simp only [List.length_append, List.length_map] at this
      simp only [Spec.step, Spec.apply, Spec.dropped, Spec.popped, Spec.inserted, List.length_append]; omega
    | false =>
      have := (filter_perm p t.elems t.dropped).length_eq
      simp only [List.length_append, List.length_map] at this
      simp only [Spec.step, Spec.apply, Spec.dropped, Spec.popped, Spec.inserted, List.length_append,
        List.length_map]; omega

theorem run_dropped_length {α : Type} (ops : List (Op α)) : ∀ (t : Spec.St α), Spec.Legal ops t →
    (Spec.run ops t).elems.length + (Spec.run ops t).dropped.length + Spec.popped ops
      = t.elems.length + t.dropped.length + Spec.inserted ops := by
  induction ops with
  | nil => intro t _; simp [Spec.run, Spec.popped, Spec.inserted]
  | cons op ops ih =>
    intro t hl
    have h1 := ih (Spec.step t op) hl.2
    have h2 := step_dropped_length t op hl.1 ops
    have h3 : Spec.run (op :: ops) t = Spec.run ops (Spec.step t op) := rfl
    rw [h3]; omega

/-- The accounts of memory for every history: the nodes obtained are those given back by `pop_front`, those
in the list, and those dropped for good; so the addresses held, without repetition, number
`inserted - popped`. -/
theorem owning_list_accounts {α : Type} (ops : List (Op α)) (hl : Spec.Legal ops ⟨[], []⟩) (fuel : Nat)
    (hf : Spec.inserted ops ≤ fuel) :
    ∃ s, ∃ held : List Nat, run fuel ops (St.init α) = some s ∧ held.Nodup ∧ (∀ a, (s.heap a).isSome ↔ a ∈ held)
      ∧ held.length + Spec.popped ops = Spec.inserted ops := by
  obtain ⟨s, hs, r⟩ := rep_run ops (rep_init α) fuel (by simpa using hf) hl
  refine ⟨s, _, hs, r.nodup, r.held, ?_⟩
  have := run_dropped_length ops ⟨[], []⟩ hl
  simp at this ⊢
  omega

/-- **Violation.** No history ever runs the destructor of a value: not `pop_front` (which hands the memory
back with the value still in it), not `erase_after`, not `remove_if`, not the end of the list.  A list of
values that own something loses what they own. -/
theorem owning_list_never_destroys {α : Type} (ops : List (Op α)) (hl : Spec.Legal ops ⟨[], []⟩) (fuel : Nat)
    (hf : Spec.inserted ops ≤ fuel) :
    ∃ s, run fuel ops (St.init α) = some s ∧ (endOfLife s).destroyed = 0 := by
  obtain ⟨s, hs, r⟩ := rep_run ops (rep_init α) fuel (by simpa using hf) hl
  exact ⟨s, hs, r.destroyed⟩

/-- **Violation.** The end of the list's lifetime gives no memory back: after every history in which more was
inserted than popped, some memory is held for ever. -/
theorem owning_list_end_leaks {α : Type} (ops : List (Op α)) (hl : Spec.Legal ops ⟨[], []⟩) (fuel : Nat)
    (hf : Spec.inserted ops ≤ fuel) (hlt : Spec.popped ops < Spec.inserted ops) :
    ∃ s a, run fuel ops (St.init α) = some s ∧ ((endOfLife s).heap a).isSome := by
  obtain ⟨s, held, hs, -, hh, hc⟩ := owning_list_accounts ops hl fuel hf
  cases held with
  | nil => simp at hc; omega
  | cons a l => exact ⟨s, a, hs, (hh a).mpr (by simp)⟩

/-- **Violation.** An allocator that has nothing left returns the invalid handle; `push_front` and
`insert_after` construct the node there all the same. -/
theorem owning_list_exhausted {α : Type} (s : St α) (v : α) (pos : Nat) :
    pushFront s none v = none ∧ insertAfter s pos none v = none := by
  refine ⟨rfl, ?_⟩
  simp only [insertAfter, newNode]
  split <;> rfl

/-- A history that meets the hypotheses: the address 1 is given back by `pop_front` and obtained again. -/
def sample : List (Op Nat) :=
  [.push 0 30, .push 1 10, .insertAfter 1 2 20, .pop, .push 1 15, .eraseAfter 1, .insertAfter 0 3 31,
   .removeIf (fun v => v == 30) false, .removeIf (fun v => v == 31) true]

example : Spec.Legal sample ⟨[], []⟩ := by
  simp [sample, Spec.Legal, Spec.Allowed, Spec.step, Spec.apply, Spec.dropped, Spec.insAfter, Spec.erAfter,
    Spec.afterAt, Spec.NoAdj]

example : ((run 10 sample (St.init Nat)).bind fun s => walk s.heap 10 s.front) = some [15]
    ∧ (Spec.run sample ⟨[], []⟩).dropped = [3, 0, 2] := by decide +kernel

end Verif.Lists.Nodes
