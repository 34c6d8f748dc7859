import Verif.Deque.Model
/-!
# Property theorems for deque and queue (C08, C09)
-/
namespace Verif.Deque
open Verif

variable {α : Type u}

/-! ## Specification: the abstract double-ended sequence -/

/-- Effect of an operation on the abstract list. -/
def Spec.apply (l : List α) : Op α → List α
  | .pushBack v | .emplaceBack v => l ++ [v]
  | .pushFront v => v :: l
  | .popBack => l.dropLast
  | .popFront => l.tail

/-- The operation is within the contract: pushes only below capacity `N`, pops only when non-empty. -/
def Spec.allowed (N : Nat) (l : List α) : Op α → Prop
  | .pushBack _ | .emplaceBack _ | .pushFront _ => l.length < N
  | .popBack | .popFront => l ≠ []

def Spec.run : List (Op α) → List α → List α
  | [], l => l
  | op :: ops, l => Spec.run ops (Spec.apply l op)

def Spec.Legal (N : Nat) : List (Op α) → List α → Prop
  | [], _ => True
  | op :: ops, l => Spec.allowed N l op ∧ Spec.Legal N ops (Spec.apply l op)

/-- Circular index: `front + i` wrapped around an array of `N`. -/
def wrap (N x : Nat) : Nat := if x < N then x else x - N

/-- The concrete deque `d` stores the abstract list `l`. -/
structure Rep (N : Nat) (d : Deque α) (l : List α) : Prop where
  len : d.arr.length = N
  cap : l.length ≤ N
  front : d.front < N
  back : d.back = wrap N (d.front + l.length)
  empty : d.empty = true ↔ l = []
  cells : ∀ i, i < l.length → d.arr[wrap N (d.front + i)]? = l[i]?

theorem rep_init (arr : List α) (hN : 0 < arr.length) : Rep arr.length (init arr) [] := by
  refine ⟨rfl, by simp, hN, ?_, by simp [init], by simp⟩
  simp [init, wrap, hN]

theorem rep_pushBack {N : Nat} {d : Deque α} {l : List α} (h : Rep N d l) (hl : l.length < N) (v : α) :
    ∃ d', pushBack d v = some d' ∧ Rep N d' (l ++ [v]) := by
  have hf := h.front
  have hlen := h.len
  have hb : d.back < d.arr.length := by rw [h.back, h.len]; unfold wrap; split <;> omega
  refine ⟨_, by unfold pushBack; rw [wr_lt hb], ?_⟩
  refine ⟨by simpa using h.len, by simp; omega, hf, ?_, by simp, ?_⟩
  · simp only [rollover, h.back, h.len, wrap, List.length_append, List.length_cons, List.length_nil]
    repeat' split
    all_goals omega
  · intro i hi
    simp at hi
    simp only
    by_cases he : i = l.length
    · subst he
      rw [← h.back]; simp [hb]
    · have hne : d.back ≠ wrap N (d.front + i) := by
        rw [h.back]; unfold wrap; repeat' split
        all_goals omega
      rw [List.getElem?_set_ne hne, h.cells i (by omega), List.getElem?_append_left (by omega)]

theorem emplaceBack_eq (d : Deque α) (v : α) :
    emplaceBack d v = (pushBack d v).map fun d' => (d', d.back) := by
  unfold emplaceBack pushBack increment
  cases wr d.arr d.back v <;> rfl

theorem rep_pushFront {N : Nat} {d : Deque α} {l : List α} (h : Rep N d l) (hl : l.length < N) (v : α) :
    ∃ d', pushFront d v = some d' ∧ Rep N d' (v :: l) := by
  have hf := h.front
  have hlen := h.len
  have hb : rollunder d.arr.length d.front - 1 < d.arr.length := by
    unfold rollunder; split <;> omega
  refine ⟨_, by unfold pushFront; simp only [wr_lt hb]; rfl, ?_⟩
  have hb' := hb
  rw [h.len] at hb'
  refine ⟨by simpa using h.len, by simp; omega, ?_, ?_, by simp, ?_⟩
  · simpa [h.len] using hb'
  · simp only [rollunder, h.back, h.len, wrap, List.length_cons]
    repeat' split
    all_goals omega
  · intro i hi
    simp at hi
    simp only
    cases i with
    | zero =>
      have e : wrap N (rollunder d.arr.length d.front - 1 + 0) = rollunder d.arr.length d.front - 1 := by
        unfold wrap; rw [if_pos (by omega)]; omega
      rw [e]; simp [hb]
    | succ i =>
      have hne : rollunder d.arr.length d.front - 1 ≠ wrap N (rollunder d.arr.length d.front - 1 + (i + 1)) := by
        unfold wrap; split <;> omega
      rw [List.getElem?_set_ne hne]
      have e : wrap N (rollunder d.arr.length d.front - 1 + (i + 1)) = wrap N (d.front + i) := by
        unfold wrap rollunder; repeat' split
        all_goals omega
      rw [e, h.cells i (by omega)]; simp

theorem rep_front {N : Nat} {d : Deque α} {l : List α} (h : Rep N d l) (hl : l ≠ []) :
    frontVal d = l.head? := by
  have hp : 0 < l.length := by cases l <;> simp_all
  have := h.cells 0 hp
  have hf := h.front
  rw [show wrap N (d.front + 0) = d.front by unfold wrap; rw [if_pos (by omega)]; rfl] at this
  unfold frontVal rd
  rw [this]; cases l <;> simp_all

theorem rep_back {N : Nat} {d : Deque α} {l : List α} (h : Rep N d l) (hl : l ≠ []) :
    backVal d = l.getLast? := by
  have hp : 0 < l.length := by cases l <;> simp_all
  have := h.cells (l.length - 1) (by omega)
  have hf := h.front
  have hc := h.cap
  have e : decrement d.arr.length d.back = wrap N (d.front + (l.length - 1)) := by
    simp only [decrement, rollunder, h.back, h.len, wrap]; repeat' split
    all_goals omega
  unfold backVal rd
  rw [e, this, List.getLast?_eq_getElem?]

theorem rep_popFront {N : Nat} {d : Deque α} {l : List α} (h : Rep N d l) (hl : l ≠ []) :
    ∃ d', popFront d = some d' ∧ Rep N d' l.tail := by
  have hfv := rep_front h hl
  obtain ⟨x, t, rfl⟩ : ∃ x t, l = x :: t := by cases l <;> simp_all
  have hf := h.front
  have hc := h.cap
  have hb := h.back
  simp at hfv hc hb
  refine ⟨_, by unfold popFront; rw [hfv], ?_⟩
  have hroll : rollover d.arr.length (d.front + 1) = wrap N (d.front + 1) := by
    simp only [rollover, h.len, wrap]; repeat' split
    all_goals omega
  refine ⟨h.len, by simp; omega, ?_, ?_, ?_, ?_⟩
  · simp only [hroll, wrap]; split <;> omega
  · simp only [hroll, hb, wrap, List.tail_cons]; repeat' split
    all_goals omega
  · have he := h.empty
    simp only [hroll, hb, List.tail_cons]
    have hne : d.empty = false := by simpa using he
    rw [hne]
    simp only [Bool.if_false_right, Bool.and_true, decide_eq_true_eq]
    rw [← List.length_eq_zero_iff]
    unfold wrap; repeat' split
    all_goals omega
  · intro i hi
    simp only [List.tail_cons] at hi ⊢
    have := h.cells (i + 1) (by simp; omega)
    simp only [List.getElem?_cons_succ] at this
    rw [hroll]
    rw [← this]
    congr 1
    unfold wrap; repeat' split
    all_goals omega

theorem rep_popBack {N : Nat} {d : Deque α} {l : List α} (h : Rep N d l) (hl : l ≠ []) :
    ∃ d', popBack d = some d' ∧ Rep N d' l.dropLast := by
  have hbv := rep_back h hl
  have hp : 0 < l.length := by cases l <;> simp_all
  have hf := h.front
  have hc := h.cap
  have hb := h.back
  obtain ⟨x, hx⟩ : ∃ x, l.getLast? = some x := ⟨_, List.getLast?_eq_some_getLast hl⟩
  rw [hx] at hbv
  refine ⟨_, by unfold popBack; rw [hbv], ?_⟩
  have hdec : decrement d.arr.length d.back = wrap N (d.front + (l.length - 1)) := by
    simp only [decrement, rollunder, h.back, h.len, wrap]; repeat' split
    all_goals omega
  refine ⟨h.len, by simp; omega, hf, ?_, ?_, ?_⟩
  · simp only [hdec, List.length_dropLast]
  · have hne : d.empty = false := by
      have := h.empty; cases hd : d.empty <;> simp_all
    simp only [hdec, hne]
    simp only [Bool.if_false_right, Bool.and_true, decide_eq_true_eq]
    rw [← List.length_eq_zero_iff, List.length_dropLast]
    unfold wrap; repeat' split
    all_goals omega
  · intro i hi
    simp only [List.length_dropLast] at hi
    simp only
    rw [h.cells i (by omega), List.dropLast_eq_take, List.getElem?_take_of_lt (by omega)]

theorem rep_size {N : Nat} {d : Deque α} {l : List α} (h : Rep N d l) : size d = l.length := by
  have hf := h.front
  have hc := h.cap
  have hb := h.back
  have he := h.empty
  have hlen := h.len
  unfold size
  cases hd : d.empty with
  | true => simp [he.mp hd]
  | false =>
    have hne : l.length ≠ 0 := by
      intro h0; rw [List.length_eq_zero_iff] at h0; simp [he.mpr h0] at hd
    simp only [Bool.false_eq_true, if_false, rawSize, hlen, hb]
    unfold wrap; repeat' split
    all_goals omega

theorem rep_step {N : Nat} {d : Deque α} {l : List α} (h : Rep N d l) (op : Op α)
    (ha : Spec.allowed N l op) : ∃ d', step d op = some d' ∧ Rep N d' (Spec.apply l op) := by
  cases op with
  | pushBack v => exact rep_pushBack h ha v
  | pushFront v => exact rep_pushFront h ha v
  | emplaceBack v =>
    obtain ⟨d', e1, e2⟩ := rep_pushBack h ha v
    exact ⟨d', by simp [step, emplaceBack_eq, e1], e2⟩
  | popBack => exact rep_popBack h ha
  | popFront => exact rep_popFront h ha

theorem rep_run {N : Nat} {d : Deque α} {l : List α} (h : Rep N d l) (ops : List (Op α))
    (ha : Spec.Legal N ops l) : ∃ d', run ops d = some d' ∧ Rep N d' (Spec.run ops l) := by
  induction ops generalizing d l with
  | nil => exact ⟨d, rfl, h⟩
  | cons op ops ih =>
    obtain ⟨d1, e1, e2⟩ := rep_step h op ha.1
    obtain ⟨d', e3, e4⟩ := ih e2 ha.2
    exact ⟨d', by simp [run, e1, e3], e4⟩

/-- C08: after any legal history, from the empty deque over an `N`-slot array, every access stayed inside the
array (the run is defined) and the observers agree with the abstract list. -/
theorem deque_history (arr : List α) (hN : 0 < arr.length) (ops : List (Op α))
    (hl : Spec.Legal arr.length ops []) :
    ∃ d, run ops (init arr) = some d ∧
      size d = (Spec.run ops []).length ∧
      (d.empty = true ↔ Spec.run ops [] = []) ∧
      (Spec.run ops [] ≠ [] → frontVal d = (Spec.run ops []).head? ∧ backVal d = (Spec.run ops []).getLast?) := by
  obtain ⟨d, e1, e2⟩ := rep_run (rep_init arr hN) ops hl
  exact ⟨d, e1, rep_size e2, e2.empty, fun hne => ⟨rep_front e2 hne, rep_back e2 hne⟩⟩

example : Spec.Legal 2 [Op.pushBack 1, .pushFront 2, .popBack, .pushFront 3, .popFront, .emplaceBack 5] [] := by
  simp [Spec.Legal, Spec.allowed, Spec.apply]

example : (run [Op.pushBack 1, .pushFront 2, .popBack, .pushFront 3, .popFront, .emplaceBack 5] (init [0, 0])) =
    some ⟨[5, 2], 1, 1, false⟩ := by decide +kernel

/-- Legality of a queue history in terms of its current length. -/
def Spec.QLegal (N : Nat) : List (QOp α) → Nat → Prop
  | [], _ => True
  | .push _ :: ops, n | .emplace _ :: ops, n => n < N ∧ Spec.QLegal N ops (n + 1)
  | .pop :: ops, n => 0 < n ∧ Spec.QLegal N ops (n - 1)

def Spec.qpushed : List (QOp α) → List α
  | [] => []
  | .push v :: ops | .emplace v :: ops => v :: Spec.qpushed ops
  | .pop :: ops => Spec.qpushed ops

theorem rep_qrun {N : Nat} {d : Deque α} {l : List α} (h : Rep N d l) (ops : List (QOp α))
    (ha : Spec.QLegal N ops l.length) :
    ∃ d' out l', qrun ops d = some (d', out) ∧ Rep N d' l' ∧ out ++ l' = l ++ Spec.qpushed ops := by
  induction ops generalizing d l with
  | nil => exact ⟨d, [], l, rfl, h, by simp [Spec.qpushed]⟩
  | cons op ops ih =>
    cases op with
    | push v =>
      obtain ⟨d1, e1, e2⟩ := rep_pushBack h ha.1 v
      obtain ⟨d', out, l', e3, e4, e5⟩ := ih e2 (by simpa using ha.2)
      exact ⟨d', out, l', by simp [qrun, e1, e3], e4, by simp [e5, Spec.qpushed]⟩
    | emplace v =>
      obtain ⟨d1, e1, e2⟩ := rep_pushBack h ha.1 v
      obtain ⟨d', out, l', e3, e4, e5⟩ := ih e2 (by simpa using ha.2)
      exact ⟨d', out, l', by simp [qrun, emplaceBack_eq, e1, e3], e4, by simp [e5, Spec.qpushed]⟩
    | pop =>
      have hne : l ≠ [] := by have := ha.1; intro hc; simp [hc] at this
      obtain ⟨x, t, rfl⟩ : ∃ x t, l = x :: t := by cases l <;> simp_all
      obtain ⟨d1, e1, e2⟩ := rep_popFront h hne
      have hfv := rep_front h hne
      simp at hfv
      obtain ⟨d', out, l', e3, e4, e5⟩ := ih e2 (by simpa using ha.2)
      exact ⟨d', x :: out, l', by simp [qrun, e1, e3, hfv], e4, by simpa [Spec.qpushed] using e5⟩

/-- C08: `queue` is FIFO: what a legal history popped, followed by what is still stored (its length being
`size()`), is exactly what it pushed, in order. -/
theorem queue_fifo (arr : List α) (hN : 0 < arr.length) (ops : List (QOp α))
    (hl : Spec.QLegal arr.length ops 0) :
    ∃ d out rest, qrun ops (init arr) = some (d, out) ∧ out ++ rest = Spec.qpushed ops ∧
      size d = rest.length ∧ (rest ≠ [] → frontVal d = rest.head? ∧ backVal d = rest.getLast?) := by
  obtain ⟨d, out, l', e1, e2, e3⟩ := rep_qrun (rep_init arr hN) ops (by simpa using hl)
  exact ⟨d, out, l', e1, by simpa using e3, rep_size e2, fun hne => ⟨rep_front e2 hne, rep_back e2 hne⟩⟩

example : Spec.QLegal 2 [QOp.push 1, .push 2, .pop, .emplace 3, .pop] 0 := by simp [Spec.QLegal]
example : qrun [QOp.push 1, .push 2, .pop, .emplace 3, .pop] (init [0, 0]) = some (⟨[3, 2], 0, 1, false⟩, [1, 2]) := by
  decide +kernel

/-! ## C09 -/

theorem visit_spec {N : Nat} {d : Deque α} {l : List α} (h : Rep N d l) (hlt : l.length < N) (k fuel : Nat)
    (hk : k ≤ l.length) (hfu : l.length - k < fuel) :
    visit d fuel (wrap N (d.front + k)) = some (l.drop k) := by
  have hf := h.front
  induction fuel generalizing k with
  | zero => omega
  | succ fuel ih =>
    unfold visit
    by_cases he : k = l.length
    · subst he; rw [if_pos h.back.symm]; simp
    · have hne : wrap N (d.front + k) ≠ d.back := by
        rw [h.back]; unfold wrap; repeat' split
        all_goals omega
      rw [if_neg hne]
      have hcell := h.cells k (by omega)
      have hkl : k < l.length := by omega
      rw [List.getElem?_eq_getElem hkl] at hcell
      unfold rd
      rw [hcell]
      have hinc : increment d.arr.length (wrap N (d.front + k)) = wrap N (d.front + (k + 1)) := by
        simp only [increment, rollover, h.len, wrap]; repeat' split
        all_goals omega
      simp only [hinc]
      rw [ih (k + 1) (by omega) (by omega)]
      rw [List.drop_eq_getElem_cons hkl]; rfl

/-- C09, partial: iterating visits exactly the contents, front to back, in every reachable deque that is not
full.  Missing: the full deque, where the property fails (`deque_iteration_full`). -/
theorem deque_iteration_partial (arr : List α) (hN : 0 < arr.length) (ops : List (Op α))
    (hl : Spec.Legal arr.length ops []) (hnf : (Spec.run ops []).length < arr.length) :
    ∃ d, run ops (init arr) = some d ∧ visit d (arr.length + 1) d.front = some (Spec.run ops []) := by
  obtain ⟨d, e1, e2⟩ := rep_run (rep_init arr hN) ops hl
  refine ⟨d, e1, ?_⟩
  have := visit_spec e2 hnf 0 (arr.length + 1) (by omega) (by omega)
  have hf := e2.front
  rw [show wrap arr.length (d.front + 0) = d.front by unfold wrap; rw [if_pos (by omega)]; rfl] at this
  simpa using this

example : visit ⟨[5, 2, 7], 1, 0, false⟩ 4 1 = some [2, 7] := by decide +kernel

/-- C09 fails on every full deque: `begin() == end()`, so iteration visits nothing although the deque holds
`N > 0` elements. -/
theorem deque_iteration_full (arr : List α) (hN : 0 < arr.length) (ops : List (Op α))
    (hl : Spec.Legal arr.length ops []) (hfull : (Spec.run ops []).length = arr.length) (fuel : Nat) :
    ∃ d, run ops (init arr) = some d ∧ size d = arr.length ∧ visit d (fuel + 1) d.front = some [] := by
  obtain ⟨d, e1, e2⟩ := rep_run (rep_init arr hN) ops hl
  refine ⟨d, e1, by rw [rep_size e2, hfull], ?_⟩
  have hf := e2.front
  have : d.front = d.back := by rw [e2.back, hfull]; unfold wrap; split <;> omega
  unfold visit; rw [if_pos this]

example : Spec.Legal 2 [Op.pushBack 1, .pushBack 2] [] ∧ (Spec.run [Op.pushBack 1, .pushBack 2] []).length = 2 := by
  simp [Spec.Legal, Spec.allowed, Spec.apply, Spec.run]

/-- Outside the contract: pushing onto a full deque of at least two slots reports success, overwrites the
front element, and `size()` drops to 1. -/
theorem push_back_full_loses_contents {N : Nat} {d : Deque α} {l : List α} (h : Rep N d l)
    (hfull : l.length = N) (hN : 2 ≤ N) (v : α) :
    ∃ d', pushBack d v = some d' ∧ size d' = 1 := by
  have hf := h.front
  have hlen := h.len
  have hbf : d.back = d.front := by rw [h.back, hfull]; unfold wrap; split <;> omega
  refine ⟨_, by unfold pushBack; rw [wr_lt (by omega)], ?_⟩
  simp only [size, rawSize, rollover, List.length_set, Bool.false_eq_true, if_false]
  repeat' split
  all_goals omega

/-- Disagreement: `emplace_front` stores at the old front and then moves the front to an untouched slot, so
`front()` is not the emplaced element. -/
theorem emplace_front_wrong :
    ∃ d, run [Op.pushBack 1] (init [0, 0, 0]) = some d ∧
      ((emplaceFront d 9).bind fun r => frontVal r.1) = some 0 ∧
      ((emplaceFront d 9).map fun r => r.1.arr) = some [9, 0, 0] := by
  exact ⟨⟨[1, 0, 0], 0, 1, false⟩, by decide +kernel, by decide +kernel, by decide +kernel⟩

/-- Disagreement, in general: on any deque with room for another element `emplace_front(v)` overwrites the front element
with `v` and puts whatever the slot before it held in front. -/
theorem emplace_front_effect {N : Nat} {d : Deque α} {l : List α} (h : Rep N d l) (hl : l.length < N) (v : α) :
    ∃ d' g, emplaceFront d v = some (d', d.front) ∧ d.arr[decrement N d.front]? = some g ∧
      (N ≠ 1 → Rep N d' (g :: if l = [] then [] else v :: l.tail)) := by
  have hf := h.front
  have hlen := h.len
  have hb : decrement N d.front < N := by unfold decrement rollunder; split <;> omega
  refine ⟨_, d.arr[decrement N d.front]'(by omega), by unfold emplaceFront; rw [wr_lt (by omega)], by simp, ?_⟩
  intro hN
  refine ⟨by simpa using h.len, ?_, ?_, ?_, by simp, ?_⟩
  · cases l <;> simp_all <;> omega
  · simpa [h.len] using hb
  · simp only [h.back, h.len]
    cases l with
    | nil => simp only [decrement, rollunder, wrap, if_true, List.length_cons, List.length_nil]; repeat' split
             all_goals omega
    | cons x xs =>
      simp only [decrement, rollunder, wrap, List.length_cons, reduceCtorEq, if_false, List.tail_cons]
      simp only [List.length_cons] at hl
      repeat' split
      all_goals omega
  · intro i hi
    simp only [h.len]
    have hne : d.front ≠ decrement N d.front := by unfold decrement rollunder; split <;> omega
    match i with
    | 0 =>
      rw [show wrap N (decrement N d.front + 0) = decrement N d.front by unfold wrap; rw [if_pos (by omega)]; rfl,
        List.getElem?_set_ne hne]
      simp
    | 1 =>
      cases l with
      | nil => simp at hi
      | cons x xs =>
        rw [show wrap N (decrement N d.front + 1) = d.front by
          unfold decrement rollunder wrap; repeat' split
          all_goals omega]
        simp [hlen, hf]
    | i + 2 =>
      cases l with
      | nil => simp at hi
      | cons x xs =>
        simp only [reduceCtorEq, if_false, List.length_cons, List.tail_cons] at hi
        simp only [List.length_cons] at hl
        have e : wrap N (decrement N d.front + (i + 2)) = wrap N (d.front + (i + 1)) := by
          unfold decrement rollunder wrap; repeat' split
          all_goals omega
        rw [e, List.getElem?_set_ne (by unfold wrap; split <;> omega), h.cells (i + 1) (by simp; omega)]
        simp

example : Rep 3 ⟨[1, 2, 0], 0, 2, false⟩ [1, 2] :=
  ⟨rfl, by decide, by decide, rfl, by decide, by decide⟩

end Verif.Deque
