import Verif.Deque.Props
import Verif.Lifetime.Objects
import Verif.Pool.Props

/-!
# C77 for `deque`, vectors and pools: what an exception leaves behind

The operations of `Verif.Deque`, `Verif.Lifetime` and `Verif.Pool` up to the point where the constructor or assignment of
the element type throws.
-/
namespace Verif.Throw

variable {α : Type u}

/-! ## `layer1::deque` -/
namespace Dq
open Verif.Deque

/-- `push_back(const T&)`, queue.h:284-292, whose assignment throws: `m_back` is already past the cell (286), the statements
after it (287-289) are not reached; the cell is left with some value `w`. -/
def pushBackThrows (d : Deque α) (w : α) : Option (Deque α) :=
  (wr d.arr d.back w).map fun a => { d with arr := a, back := d.back + 1 }

/-- `push_back(T&&)`, queue.h:407-417, whose constructor throws: the same, with `m_back` moved at 409 -/
def pushBackMoveThrows (d : Deque α) (w : α) : Option (Deque α) :=
  (wr d.arr d.back w).map fun a => { d with arr := a, back := d.back + 1 }

/-- `push_front`, queue.h:303-314, whose assignment throws: `m_front` is moved at 306-307, `m_empty` not yet set -/
def pushFrontThrows (d : Deque α) (w : α) : Option (Deque α) :=
  (wr d.arr (rollunder d.arr.length d.front - 1) w).map fun a =>
    { d with arr := a, front := rollunder d.arr.length d.front - 1 }

/-- `emplace_back`, queue.h:394-403, whose constructor throws: `m_back` is only moved afterwards (400).  The cell, which is
outside the sequence, is left with some value `w`. -/
def emplaceBackThrows (d : Deque α) (w : α) : Option (Deque α) := (wr d.arr d.back w).map fun a => { d with arr := a }

/-- an operation, or an `emplace_back` that throws -/
inductive TOp (α : Type u) where
  | op (o : Op α)
  | emplaceThrows (w : α)

/-- a program; exceptions are caught -/
def trun : List (TOp α) → Deque α → Option (Deque α)
  | [], d => some d
  | .op o :: ops, d => (step d o).bind (trun ops)
  | .emplaceThrows w :: ops, d => (emplaceBackThrows d w).bind (trun ops)

/-- the specification: what throws has no effect -/
def Spec.trun : List (TOp α) → List α → List α
  | [], l => l
  | .op o :: ops, l => Spec.trun ops (Spec.apply l o)
  | .emplaceThrows _ :: ops, l => Spec.trun ops l

/-- pushes and emplacements, also the throwing ones, only below capacity, pops only when not empty -/
def Spec.TLegal (N : Nat) : List (TOp α) → List α → Prop
  | [], _ => True
  | .op o :: ops, l => Spec.allowed N l o ∧ Spec.TLegal N ops (Spec.apply l o)
  | .emplaceThrows _ :: ops, l => l.length < N ∧ Spec.TLegal N ops l

theorem rep_emplaceThrows {N : Nat} {d : Deque α} {l : List α} (h : Rep N d l) (hl : l.length < N) (w : α) :
    ∃ d', emplaceBackThrows d w = some d' ∧ Rep N d' l := by
  have hf := h.front
  have hb : d.back < d.arr.length := by rw [h.back, h.len]; unfold wrap; split <;> omega
  refine ⟨_, by unfold emplaceBackThrows; rw [wr_lt hb]; rfl, ?_⟩
  refine ⟨by simpa using h.len, h.cap, hf, h.back, h.empty, ?_⟩
  intro i hi
  have hne : d.back ≠ wrap N (d.front + i) := by
    rw [h.back]; unfold wrap; repeat' split
    all_goals omega
  simp only
  rw [List.getElem?_set_ne hne, h.cells i hi]

theorem rep_trun {N : Nat} : ∀ (ops : List (TOp α)) {d : Deque α} {l : List α}, Rep N d l → Spec.TLegal N ops l →
    ∃ d', trun ops d = some d' ∧ Rep N d' (Spec.trun ops l)
  | [], d, l, h, _ => ⟨d, rfl, h⟩
  | .op o :: ops, d, l, h, hL => by
    obtain ⟨d1, e1, h1⟩ := rep_step h o hL.1
    obtain ⟨d', e2, h2⟩ := rep_trun ops h1 hL.2
    exact ⟨d', by simp [trun, e1, e2], h2⟩
  | .emplaceThrows w :: ops, d, l, h, hL => by
    obtain ⟨d1, e1, h1⟩ := rep_emplaceThrows h hL.1 w
    obtain ⟨d', e2, h2⟩ := rep_trun ops h1 hL.2
    exact ⟨d', by simp [trun, e1, e2], h2⟩

/-- **C77 (partial).**  In every program over a `deque` in which only `emplace_back` throws, an `emplace_back` that throws
has no effect on the sequence.  Partial: `push_back` and `push_front` that throw do have one, see below. -/
theorem deque_emplace_throw_partial (arr : List α) (hN : 0 < arr.length) (ops : List (TOp α))
    (hL : Spec.TLegal arr.length ops []) :
    ∃ d, trun ops (init arr) = some d ∧ size d = (Spec.trun ops []).length ∧
      (d.empty = true ↔ Spec.trun ops [] = []) ∧
      (Spec.trun ops [] ≠ [] → frontVal d = (Spec.trun ops []).head? ∧ backVal d = (Spec.trun ops []).getLast?) := by
  obtain ⟨d, e, h⟩ := rep_trun ops (rep_init arr hN) hL
  exact ⟨d, e, rep_size h, h.empty, fun hne => ⟨rep_front h hne, rep_back h hne⟩⟩

example : Spec.TLegal 3 [TOp.op (.pushBack 1), .emplaceThrows 9, .op (.pushFront 2), .emplaceThrows 8, .op .popBack] [] := by
  simp [Spec.TLegal, Spec.allowed, Spec.apply]
example : (trun [TOp.op (.pushBack 1), .emplaceThrows 9, .op (.pushFront 2), .emplaceThrows 8, .op .popBack]
    (init [0, 0, 0])).map (fun d => (size d, frontVal d, backVal d)) = some (1, some 2, some 2) := by decide +kernel

/-- **Violation.**  A `push_back` that throws adds an element all the same: after any legal history that leaves the deque
neither empty nor full, `size()` is one more, and `back()` is what the failed assignment left in the cell. -/
theorem push_back_throw_grows (arr : List α) (hN : 0 < arr.length) (ops : List (Op α)) (hl : Spec.Legal arr.length ops [])
    (h0 : Spec.run ops [] ≠ []) (hc : (Spec.run ops []).length < arr.length) (w : α) :
    ∃ d d', run ops (init arr) = some d ∧ size d = (Spec.run ops []).length ∧ pushBackThrows d w = some d' ∧
      pushBackMoveThrows d w = some d' ∧ size d' = (Spec.run ops []).length + 1 ∧ backVal d' = some w := by
  obtain ⟨d, e, h⟩ := rep_run (rep_init arr hN) ops hl
  have hf := h.front
  have hlen := h.len
  have hb := h.back
  have hp := List.length_pos_iff.mpr h0
  have hbl : d.back < d.arr.length := by rw [hb, hlen]; unfold wrap; split <;> omega
  have he : d.empty = false := by
    cases hd : d.empty with
    | false => rfl
    | true => exact absurd (h.empty.mp hd) h0
  refine ⟨d, _, e, rep_size h, by unfold pushBackThrows; rw [wr_lt hbl]; rfl,
    by unfold pushBackMoveThrows; rw [wr_lt hbl]; rfl, ?_, ?_⟩
  · simp only [size, he, Bool.false_eq_true, if_false, rawSize, List.length_set, hlen, hb]
    unfold wrap
    repeat' split
    all_goals omega
  · simp [backVal, decrement, rollunder, rd, hbl]

/-- **Violation.**  A `push_back` into the last cell of the array that throws leaves the position past the array, and the
next `push_back` writes outside it. -/
theorem push_back_throw_overruns (arr : List α) (hN : 0 < arr.length) (ops : List (Op α)) (hl : Spec.Legal arr.length ops [])
    (w v : α) :
    ∃ d d', run ops (init arr) = some d ∧ pushBackThrows d w = some d' ∧ pushBackMoveThrows d w = some d' ∧
      (d.back + 1 = arr.length → pushBack d' v = none ∧ emplaceBack d' v = none) := by
  obtain ⟨d, e, h⟩ := rep_run (rep_init arr hN) ops hl
  have hf := h.front
  have hcap := h.cap
  have hbl : d.back < d.arr.length := by rw [h.back, h.len]; unfold wrap; split <;> omega
  refine ⟨d, _, e, by unfold pushBackThrows; rw [wr_lt hbl]; rfl,
    by unfold pushBackMoveThrows; rw [wr_lt hbl]; rfl, ?_⟩
  intro hb
  have hlen := h.len
  have : wr (d.arr.set d.back w) (d.back + 1) v = none := by simp [wr]; omega
  simp [pushBack, emplaceBack, this]

/-- a history after which the next cell is the last one -/
example : Spec.Legal 3 [Op.pushBack 1, .pushBack 2] [] ∧ (run [Op.pushBack 1, .pushBack 2] (init [0, 0, 0])).map (·.back) = some 2 :=
  ⟨by simp [Spec.Legal, Spec.allowed, Spec.apply], by decide +kernel⟩

/-- **Violation.**  An empty deque whose `push_back` throws says it is empty, but holds two elements after the next
`push_back` (here, when neither push reaches the end of the array). -/
theorem push_back_throw_empty (arr : List α) (hN : 0 < arr.length) (ops : List (Op α)) (hl : Spec.Legal arr.length ops [])
    (h0 : Spec.run ops [] = []) (w v : α) :
    ∃ d d', run ops (init arr) = some d ∧ pushBackThrows d w = some d' ∧
      pushBackMoveThrows d w = some d' ∧ size d' = 0 ∧
      (d.back + 2 < arr.length → ∃ d'', pushBack d' v = some d'' ∧ size d'' = 2 ∧ frontVal d'' = some w) := by
  obtain ⟨d, e, h⟩ := rep_run (rep_init arr hN) ops hl
  have hf := h.front
  have hlen := h.len
  have hb : d.back = d.front := by rw [h.back, h0]; simp [wrap, hf]
  have he : d.empty = true := h.empty.mpr h0
  refine ⟨d, _, e, by unfold pushBackThrows; rw [wr_lt (by omega)]; rfl,
    by unfold pushBackMoveThrows; rw [wr_lt (by omega)]; rfl, by simp [size, he], ?_⟩
  intro h2
  refine ⟨_, by unfold pushBack; simp only [List.length_set]; rw [wr_lt (by simp; omega)], ?_, ?_⟩
  · simp only [size, Bool.false_eq_true, if_false, rawSize, List.length_set, hlen, rollover]
    repeat' split
    all_goals omega
  · simp only [frontVal, rd, hb]
    rw [List.getElem?_set_ne (by omega), List.getElem?_set_self (by omega)]

/-- **Violation.**  A `push_front` that throws adds an element all the same. -/
theorem push_front_throw_grows (arr : List α) (hN : 0 < arr.length) (ops : List (Op α)) (hl : Spec.Legal arr.length ops [])
    (h0 : Spec.run ops [] ≠ []) (hc : (Spec.run ops []).length < arr.length) (w : α) :
    ∃ d d', run ops (init arr) = some d ∧ size d = (Spec.run ops []).length ∧ pushFrontThrows d w = some d' ∧
      size d' = (Spec.run ops []).length + 1 ∧ frontVal d' = some w := by
  obtain ⟨d, e, h⟩ := rep_run (rep_init arr hN) ops hl
  have hf := h.front
  have hlen := h.len
  have hb := h.back
  have hp := List.length_pos_iff.mpr h0
  have hr : rollunder d.arr.length d.front - 1 < d.arr.length := by unfold rollunder; split <;> omega
  have he : d.empty = false := by
    cases hd : d.empty with
    | false => rfl
    | true => exact absurd (h.empty.mp hd) h0
  refine ⟨d, _, e, rep_size h, by unfold pushFrontThrows; rw [wr_lt hr]; rfl, ?_, ?_⟩
  · simp only [size, he, Bool.false_eq_true, if_false, rawSize, List.length_set, hlen, hb]
    unfold wrap rollunder
    repeat' split
    all_goals omega
  · simp [frontVal, rd, hr]

example : Spec.Legal 3 [Op.pushBack 1, .pushFront 2] [] ∧ Spec.run [Op.pushBack 1, .pushFront 2] [] ≠ [] ∧
    (Spec.run [Op.pushBack 1, .pushFront 2] []).length < 3 := by
  simp [Spec.Legal, Spec.allowed, Spec.apply, Spec.run]

end Dq

/-! ## vectors -/
namespace Vec
open Verif.Lifetime Verif.Lifetime.Spec
open Verif.DynArray (Res)

/-- `emplace_back`, dynamic_array.h:660-680, and `push_back(T&&)`, 611-629, whose constructor throws: the size has been
increased (664, 614), there is no object in the new cell (when the cell was raw memory). -/
def emplaceThrows (s : St α) : Res (St α) := grow s 1

/-- **Violation.**  An `emplace_back` or moving `push_back` that throws adds an element all the same, and there is no object
there: after any history fit for raw cells (C74), `size()` is one more, and reading the last element, or `pop_back`, is
undefined. -/
theorem emplace_throw_dead_element (cap : Nat) (b : Bool) (ops : List (Op α)) (l : List α) (hL : Legal Op.ends cap [] ops)
    (hl : applyAll cap [] ops = some l) (hc : l.length < cap) :
    ∃ s s', run b (raw cap) ops = .ok s ∧ s.size = l.length ∧ emplaceThrows s = .ok s' ∧ s'.size = l.length + 1 ∧
      Lifetime.read s' l.length = .ub ∧ step b s' .pop = .ub := by
  obtain ⟨s, l', e1, e2, h1, h2, h3⟩ := raw_history_partial cap b ops hL
  rw [hl] at e2; cases e2
  have hg : s.slots[l.length]? = some none := h3 _ (Nat.le_refl _) hc
  have hlt : l.length < s.slots.length := (List.getElem?_eq_some_iff.mp hg).1
  refine ⟨s, { s with size := s.size + 1 }, e1, h1.1, ?_, by simp [h1.1], ?_, ?_⟩
  · unfold emplaceThrows grow
    rw [if_pos (by rw [h1.1]; omega)]
  · simp [Lifetime.read, hg]
  · simp [step, pop, destroy, h1.1, hg, Res.bind]

example : Legal Op.ends 4 [] rawOps ∧ applyAll 4 [] rawOps = some [7, 9, 4] := by
  constructor
  · simp [rawOps, Legal, Op.ends, apply]
  · rfl

/-- `push_back(const T&)`, dynamic_array.h:605-608 with 457-485, whose assignment throws: the size has been increased (459),
the object past the end is left with some value `w` (475). -/
def pushCopyThrows (s : St α) (w : α) : Res (St α) := (grow s 1).bind fun s' => assign s' s.size (.val w)

/-- **Violation.**  A copying `push_back` that throws adds an element all the same: after any history fit for an array of
objects (C74), the sequence is longer by what the failed assignment left in the cell. -/
theorem push_throw_grows (xs : List α) (b : Bool) (ops : List (Op α)) (l : List α) (hL : Legal Op.assigns xs.length [] ops)
    (hl : applyAll xs.length [] ops = some l) (hc : l.length < xs.length) (w : α) :
    ∃ s s', run b (over xs) ops = .ok s ∧ Holds s l ∧ pushCopyThrows s w = .ok s' ∧ Holds s' (l ++ [w]) := by
  obtain ⟨s, l', e1, e2, h⟩ := obj_run b ops (over xs) [] (objInv_init xs) hL
  rw [hl] at e2; cases e2
  obtain ⟨s', e3, h'⟩ := obj_pushCopy h w hc
  refine ⟨s, s', e1, objInv_holds h, ?_, objInv_holds h'⟩
  rw [← e3]
  simp only [pushCopyThrows, pushCopy, assignAll]
  cases grow s 1 with
  | ok t =>
    simp only [Res.bind]
    cases assign t s.size (.val w) <;> rfl
  | abort => rfl
  | ub => rfl

example : ∃ l, Legal Op.assigns 4 [] overOps ∧ applyAll 4 [] overOps = some l ∧ l.length < 4 :=
  ⟨[7, 1], by simp [overOps, Legal, Op.assigns, apply], rfl, by decide⟩

end Vec

/-! ## `typed_pool` -/
namespace Pl
open Verif.Pool

/-- `typed_pool::emplace`, internal/memory/v1/pool.h:161-169, whose constructor throws: the block has been taken (164) and
its address goes nowhere -/
def emplaceThrows (p : Pool) : Option Pool := (alloc p).map (·.1)

/-- `n` of them -/
def emplacesThrow : Nat → Pool → Option Pool
  | 0, p => some p
  | n + 1, p => (emplaceThrows p).bind (emplacesThrow n)

theorem lost_block {n : Nat} {p : Pool} {o : List Nat} (h : Reach n p o) (hn : o.length < n) :
    ∃ p' b, emplaceThrows p = some p' ∧ Reach n p' (b :: o) := by
  obtain ⟨p', r, e, hr, -⟩ := pool_alloc h
  cases r with
  | none => have := hr.mp rfl; omega
  | some b => exact ⟨p', b, by simp [emplaceThrows, e], Reach.alloc h e⟩

theorem lost_blocks {n : Nat} : ∀ (k : Nat) {p : Pool} {o : List Nat}, Reach n p o → o.length + k ≤ n →
    ∃ p' o', emplacesThrow k p = some p' ∧ Reach n p' o' ∧ o'.length = o.length + k
  | 0, p, o, h, _ => ⟨p, o, rfl, h, rfl⟩
  | k + 1, p, o, h, hk => by
    obtain ⟨p1, b, e1, h1⟩ := lost_block h (by omega)
    obtain ⟨p', o', e2, h2, h3⟩ := lost_blocks k h1 (by simp; omega)
    exact ⟨p', o', by simp [emplacesThrow, e1, e2], h2, by simp at h3; omega⟩

/-- **Violation.**  Every `emplace` that throws loses a block: in every reachable state of a pool, after `k` of them there
are `k` blocks fewer, though the program holds the same blocks as before; with as many of them as there were blocks left, the
pool is full. -/
theorem emplace_throw_loses_blocks {n : Nat} {p : Pool} {o : List Nat} (h : Reach n p o) (k : Nat) (hk : k ≤ n - o.length)
    (ho : o.length ≤ n) :
    ∃ p', emplacesThrow k p = some p' ∧ available p' = some (n - o.length - k) ∧
      (k = n - o.length → full p' = true ∧ ∃ p'', alloc p' = some (p'', none)) := by
  obtain ⟨p', o', e, h', hl⟩ := lost_blocks k h (by omega)
  have ha := pool_available h'
  refine ⟨p', e, by rw [ha.1]; congr 1; omega, ?_⟩
  intro hk'
  have hfull : o'.length = n := by omega
  obtain ⟨p'', r, e2, hr, -⟩ := pool_alloc h'
  exact ⟨ha.2.mpr hfull, p'', by rw [e2, hr.mpr hfull]⟩

example : ∃ p, Reach 3 p [] ∧ 2 ≤ 3 - ([] : List Nat).length :=
  ⟨⟨[some 1, some 2, none], some 0⟩, .create (mem := [none, none, none]) rfl (by decide +kernel), by decide⟩

end Pl

end Verif.Throw
