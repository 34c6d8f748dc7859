import Verif.Algorithm.CopyProps
/-!
# Model of the k-ary heap (internal/algorithm/heap.h)

`heap{first_, last_, k, comp}` over a flat memory `m`: the range is the `n` cells `m[f], …, m[f+n-1]`
(`f = first_`, `n = last_ - first_`).  `comp(a, b)` true means `b` belongs nearer the root.

Simplifications: indices are unbounded naturals (the code narrows `size()` to `int`, so ranges of more than
`INT_MAX` cells are out of scope); a zero arity `k` (division by zero in `restore_up`/`make`) is undefined;
forming (not dereferencing) an out-of-range iterator such as `first_child` is not counted as undefined.
-/
namespace Verif.Heap
open Verif Verif.Algorithm

variable {α : Type u}

theorem maxLoop_range (comp : α → α → Bool) (m : List α) (first last lg r : Nat)
    (h : maxLoop comp m first last lg = some r) (hf : first ≤ last) :
    r = lg ∨ (first ≤ r ∧ r < last) := by
  fun_induction maxLoop comp m first last lg with
  | case1 => left; simpa using h.symm
  | case2 first lg hne x y hx hy ih =>
    have := ih h (by omega)
    split at this <;> omega
  | case3 => simp at h

theorem maxElement_range {comp : α → α → Bool} {m : List α} {first last r : Nat}
    (h : maxElement comp m first last = some r) (hf : first < last) : first ≤ r ∧ r < last := by
  unfold maxElement at h
  rw [if_neg (by omega)] at h
  have := maxLoop_range comp m (first + 1) last first r h (by omega)
  omega

/-- Loop of `heap::restore_up`, heap.h:66-85.  Returns the memory and the final `current_idx`. -/
def upLoop (comp : α → α → Bool) (k f : Nat) (m : List α) (cur : Nat) : Option (List α × Nat) :=
  if h0 : cur = 0 then some (m, cur)
  else if k = 0 then none
  else
    match rd m (f + (cur - 1) / k), rd m (f + cur) with
    | some p, some c =>
      if comp p c then
        match iterSwap m (f + cur) (f + (cur - 1) / k) with
        | none => none
        | some m' => upLoop comp k f m' ((cur - 1) / k)
      else some (m, cur)
    | _, _ => none
termination_by cur
decreasing_by
  have := Nat.div_le_self (cur - 1) k
  omega

/-- `heap::restore_up`, heap.h:57-89: bubbles the last element up; the flag is "no swap happened".
An empty range forms `first_ - 1` and walks from there: undefined. -/
def restoreUp (comp : α → α → Bool) (k f n : Nat) (m : List α) : Option (List α × Bool) :=
  if n = 0 then none
  else
    match upLoop comp k f m (n - 1) with
    | none => none
    | some (m', cur) => some (m', cur == n - 1)

/-- `heap::restore_down(current)`, heap.h:96-125. -/
def restoreDown (comp : α → α → Bool) (k f n : Nat) (m : List α) (cur : Nat) : Option (List α) :=
  if hk : k = 0 then none
  else if hl : n ≤ cur * k + 1 then some m
  else
    match hc : maxElement comp m (f + (cur * k + 1)) (min (f + (cur * k + 1) + k) (f + n)) with
    | none => none
    | some ch =>
      match rd m (f + cur), rd m ch with
      | some x, some y =>
        if comp x y then
          match iterSwap m ch (f + cur) with
          | none => none
          | some m' => restoreDown comp k f n m' (ch - f)
        else some m
      | _, _ => none
termination_by n - cur
decreasing_by
  have hr := maxElement_range hc (by omega)
  have : cur ≤ cur * k := Nat.le_mul_of_pos_right cur (by omega)
  omega

/-- `heap::pop`, heap.h:135-139: swaps root and last element, shrinks, pushes the new root down.  For integers and one
element the swap is wrong: `Verif.Utility.popInt`. -/
def pop (comp : α → α → Bool) (k f n : Nat) (m : List α) : Option (List α) :=
  if n = 0 then none
  else
    match iterSwap m f (f + (n - 1)) with
    | none => none
    | some m' => restoreDown comp k f (n - 1) m' 0

/-- `heap::push(v)`, heap.h:142-146: writes at `last_++`, then bubbles up. -/
def push (comp : α → α → Bool) (k f n : Nat) (m : List α) (v : α) : Option (List α) :=
  match wr m (f + n) v with
  | none => none
  | some m' => (restoreUp comp k f (n + 1) m').map (·.1)

/-- Loop of `heap::make`, heap.h:168-173: `restore_down(i)` for `i` down to the root, inclusive. -/
def makeLoop (comp : α → α → Bool) (k f n : Nat) (m : List α) (i : Nat) : Option (List α) :=
  match restoreDown comp k f n m i with
  | none => none
  | some m' =>
    match i with
    | 0 => some m'
    | j + 1 => makeLoop comp k f n m' j

/-- `heap::make`, heap.h:163-174.  For an empty range `size() - 1` wraps around and the loop starts far
outside the range: undefined. -/
def make (comp : α → α → Bool) (k f n : Nat) (m : List α) : Option (List α) :=
  if n = 0 ∨ k = 0 then none else makeLoop comp k f n m ((n - 1) / k)

/-- `make_heap(first, last, comp, k)`, heap.h:183-188. -/
def makeHeap (comp : α → α → Bool) (m : List α) (first last : Nat) (k : Nat := 2) : Option (List α) :=
  make comp k first (last - first) m

/-- `push_heap(first, last, comp)`, heap.h:191-196. -/
def pushHeap (comp : α → α → Bool) (m : List α) (first last : Nat) : Option (List α) :=
  (restoreUp comp 2 first (last - first) m).map (·.1)

/-- `pop_heap(first, last, comp)`, heap.h:199-204. -/
def popHeap (comp : α → α → Bool) (m : List α) (first last : Nat) : Option (List α) :=
  pop comp 2 first (last - first) m

end Verif.Heap
