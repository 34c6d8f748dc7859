import Verif.Heap.Props
/-!
# priority_queue (internal/priority_queue.h): model and properties (C07)

The container is modelled by its contents `c` (a list) and a capacity `cap`; the container operations used
(`push_back`, `pop_back`, `front`, `back`, iteration) are those of the fixed-capacity vector, modelled in
`Verif.DynArray`.  Exceeding the capacity writes outside the buffer (see C11) and is undefined here.
-/
namespace Verif.PriorityQueue
open Verif Verif.Heap Verif.Heap.Spec Verif.Algorithm

variable {α : Type u}

/-- `push(value)`, priority_queue.h:99-110: `c.push_back(value); push_heap();` -/
def push (comp : α → α → Bool) (cap : Nat) (c : List α) (v : α) : Option (List α) :=
  if c.length < cap then pushHeap comp (c ++ [v]) 0 (c.length + 1) else none

/-- `pop()`, priority_queue.h:125-129: `pop_heap(); c.pop_back();` -/
def pop (comp : α → α → Bool) (c : List α) : Option (List α) :=
  match popHeap comp c 0 c.length with
  | none => none
  | some c' => some c'.dropLast

/-- `top()`, priority_queue.h:94-97: `c.front()`. -/
def top (c : List α) : Option α := rd c 0

/-- `size()` / `empty()`, priority_queue.h:87-89. -/
def size (c : List α) : Nat := c.length
def isEmpty (c : List α) : Bool := c.length == 0

/-- `emplace(args...)`, priority_queue.h:134-139: `c.emplace_back(args); push_heap(); return c.back();` The
second component is the value the returned accessor denotes. -/
def emplace (comp : α → α → Bool) (cap : Nat) (c : List α) (v : α) : Option (List α × α) :=
  match push comp cap c v with
  | none => none
  | some c' => (rd c' (c'.length - 1)).map fun x => (c', x)

/-- `erase(v)`, priority_queue.h:165-182, `v` the element at index `i`: overwrite it with `c.back()`,
`pop_back()`, `make_heap`. -/
def erase (comp : α → α → Bool) (c : List α) (i : Nat) : Option (List α) :=
  match rd c (c.length - 1) with
  | none => none
  | some b =>
    match wr c i b with
    | none => none
    | some c' => makeHeap comp c'.dropLast 0 (c.length - 1)

/-- `erase_if(f)`, priority_queue.h:186-194. -/
def eraseIf (comp : α → α → Bool) (c : List α) (p : α → Bool) : Option (List α × Bool) :=
  match findIf c p 0 c.length with
  | none => none
  | some i => if i = c.length then some (c, false) else (erase comp c i).map fun c' => (c', true)

/-- Operations of a history. -/
inductive Op (α : Type u) where
  | push (v : α)
  | pop

/-- Runs a history, recording what `top()` returned just before each `pop()`. -/
def run (comp : α → α → Bool) (cap : Nat) : List (Op α) → List α → Option (List α × List α)
  | [], c => some (c, [])
  | .push v :: ops, c =>
    match push comp cap c v with
    | none => none
    | some c' => run comp cap ops c'
  | .pop :: ops, c =>
    match top c, pop comp c with
    | some t, some c' => (run comp cap ops c').map fun r => (r.1, t :: r.2)
    | _, _ => none

/-! ## Specification -/

/-- A history that never pushes into a full queue nor pops an empty one. -/
def Legal (cap : Nat) : List (Op α) → Nat → Prop
  | [], _ => True
  | .push _ :: ops, n => n < cap ∧ Legal cap ops (n + 1)
  | .pop :: ops, n => 0 < n ∧ Legal cap ops (n - 1)

/-- Everything a history pushes. -/
def pushed : List (Op α) → List α
  | [] => []
  | .push v :: ops => v :: pushed ops
  | .pop :: ops => pushed ops

/-- The invariant every reachable queue satisfies. -/
def Inv (comp : α → α → Bool) (c : List α) : Prop := IsHeap comp 2 0 c.length c

/-! ## Properties -/

theorem rearranged_perm {m m' : List α} {n : Nat} (h : Rearranged 0 n m m') (hn : n = m.length) :
    m'.Perm m := by
  have := h.perm
  have hl := h.length
  simp only [List.drop_zero] at this
  rw [List.take_of_length_le (by omega), List.take_of_length_le (by omega)] at this
  exact this

/-- C07: `top()` of a non-empty queue exists and is an extremum of the contents. -/
theorem top_extremal {comp : α → α → Bool} (hs : StrictWeak comp) (c : List α) (hi : Inv comp c)
    (hc : c ≠ []) : ∃ t, top c = some t ∧ t ∈ c ∧ ∀ x ∈ c, comp t x = false := by
  have hl : 0 < c.length := by cases c <;> simp_all
  refine ⟨c[0], rd_lt hl, List.getElem_mem hl, ?_⟩
  intro x hx
  obtain ⟨i, hi2, rfl⟩ := List.mem_iff_getElem.mp hx
  exact heap_root_extremal hs (f := 0) (n := c.length) (by omega) hi i hi2 _ _ (by simp [hl]) (by simp [hi2])

/-- C07: `push` adds exactly the pushed element. -/
theorem push_spec {comp : α → α → Bool} (hs : StrictWeak comp) (cap : Nat) (c : List α) (v : α)
    (hi : Inv comp c) (hc : c.length < cap) :
    ∃ c', push comp cap c v = some c' ∧ Inv comp c' ∧ c'.Perm (v :: c) := by
  obtain ⟨m', e1, e2, e3⟩ := push_heap_spec hs (c ++ [v]) 0 (c.length + 1) (by omega) (by simp) (by
    intro i x y h0 h1 hx hy
    have := parent_lt (k := 2) h0
    simp only [Nat.add_sub_cancel, Nat.sub_zero] at h1
    rw [List.getElem?_append_left (by omega)] at hx hy
    exact hi i x y h0 h1 hx hy)
  have hp : m'.Perm (c ++ [v]) := rearranged_perm e3 (by simp)
  refine ⟨m', by unfold push; rw [if_pos hc]; exact e1, ?_, hp.trans (List.perm_append_comm)⟩
  have : m'.length = c.length + 1 := by rw [hp.length_eq]; simp
  unfold Inv; rw [this]; exact e2

/-- C07: `pop` removes exactly the element `top()` returned. -/
theorem pop_spec {comp : α → α → Bool} (hs : StrictWeak comp) (c : List α) (hi : Inv comp c) (hc : c ≠ []) :
    ∃ t c', top c = some t ∧ pop comp c = some c' ∧ Inv comp c' ∧ c.Perm (t :: c') ∧
      (∀ x ∈ c, comp t x = false) := by
  have hl : 0 < c.length := by cases c <;> simp_all
  obtain ⟨t, ht, -, hmax⟩ := top_extremal hs c hi hc
  obtain ⟨m', e1, e2, e3, e4⟩ := pop_heap_spec hs c 0 c.length hl (by omega) hi
  have hp : m'.Perm c := rearranged_perm e3 (by simp)
  have hml : m'.length = c.length := hp.length_eq
  refine ⟨t, m'.dropLast, ht, by unfold pop; rw [e1], ?_, ?_, hmax⟩
  · intro i x y h0 h1 hx hy
    simp at h1
    have := parent_lt (k := 2) h0
    rw [List.dropLast_eq_take, List.getElem?_take_of_lt (by omega)] at hx hy
    exact e2 i x y h0 (by omega) hx hy
  · have hne : m' ≠ [] := by intro h; simp [h] at hml; omega
    have hlast : m'.getLast hne = t := by
      unfold top rd at ht
      rw [ht] at e4
      rw [List.getLast_eq_getElem]
      rw [List.getElem?_eq_some_iff] at e4
      obtain ⟨h, he⟩ := e4
      simpa [hml] using he
    have : m' = m'.dropLast ++ [t] := by rw [← hlast, List.dropLast_concat_getLast]
    have h2 : (m'.dropLast ++ [t]).Perm (t :: m'.dropLast) := List.perm_append_comm
    exact hp.symm.trans ((List.Perm.of_eq this).trans h2)

theorem run_spec {comp : α → α → Bool} (hs : StrictWeak comp) (cap : Nat) (ops : List (Op α)) (c : List α)
    (hi : Inv comp c) (hl : Legal cap ops c.length) :
    ∃ c' out, run comp cap ops c = some (c', out) ∧ Inv comp c' ∧ (out ++ c').Perm (c ++ pushed ops) := by
  induction ops generalizing c with
  | nil => exact ⟨c, [], rfl, hi, by simp [pushed]⟩
  | cons op ops ih =>
    cases op with
    | push v =>
      obtain ⟨c1, e1, e2, e3⟩ := push_spec hs cap c v hi hl.1
      obtain ⟨c', out, a1, a2, a3⟩ := ih c1 e2 (by rw [e3.length_eq]; exact hl.2)
      refine ⟨c', out, by simp [run, e1, a1], a2, a3.trans ?_⟩
      show (c1 ++ pushed ops).Perm (c ++ v :: pushed ops)
      exact (e3.append_right _).trans List.perm_middle.symm
    | pop =>
      have hne : c ≠ [] := by have := hl.1; intro h; simp [h] at this
      obtain ⟨t, c1, e0, e1, e2, e3, -⟩ := pop_spec hs c hi hne
      have hlen := e3.length_eq
      simp at hlen
      obtain ⟨c', out, a1, a2, a3⟩ := ih c1 e2 (by
        have := hl.2; rw [hlen] at this; simpa using this)
      refine ⟨c', t :: out, by simp [run, e0, e1, a1], a2, ?_⟩
      show (t :: (out ++ c')).Perm (c ++ pushed ops)
      exact (a3.cons t).trans (e3.symm.append_right _)

/-- C07: after any legal history from the empty queue, the popped elements together with the stored ones are
exactly the pushed ones, and `top()` is an extremum of the stored ones. -/
theorem priority_queue_history {comp : α → α → Bool} (hs : StrictWeak comp) (cap : Nat) (ops : List (Op α))
    (hl : Legal cap ops 0) :
    ∃ c out, run comp cap ops [] = some (c, out) ∧ (out ++ c).Perm (pushed ops) ∧
      (c ≠ [] → ∃ t, top c = some t ∧ t ∈ c ∧ ∀ x ∈ c, comp t x = false) := by
  obtain ⟨c, out, e1, e2, e3⟩ := run_spec hs cap ops [] (by intro i _ _ _ h; simp at h) hl
  exact ⟨c, out, e1, by simpa using e3, top_extremal hs c e2⟩

example : Legal 3 [Op.push 4, .push 9, .pop, .push 7, .push 1, .pop] 0 := by simp [Legal]

example : run (fun a b : Nat => decide (a < b)) 3 [Op.push 4, .push 9, .pop, .push 7, .push 1, .pop] [] =
    some ([4, 1], [9, 7]) := by decide +kernel

/-- C07: after any legal history `size()` is the number of pushes less the number of pops, and `empty()` holds exactly
when they balance. -/
theorem priority_queue_size {comp : α → α → Bool} (hs : StrictWeak comp) (cap : Nat) (ops : List (Op α))
    (hl : Legal cap ops 0) :
    ∃ c out, run comp cap ops [] = some (c, out) ∧ size c + out.length = (pushed ops).length ∧
      (isEmpty c = true ↔ out.length = (pushed ops).length) := by
  obtain ⟨c, out, e1, e2, -⟩ := priority_queue_history hs cap ops hl
  have := e2.length_eq
  simp only [List.length_append] at this
  refine ⟨c, out, e1, by unfold size; omega, ?_⟩
  unfold isEmpty
  rw [beq_iff_eq]; omega

/-- C07: draining any reachable queue yields its contents in comparator order, extremum first. -/
theorem priority_queue_drain {comp : α → α → Bool} (hs : StrictWeak comp) (cap : Nat) (ops : List (Op α))
    (hl : Legal cap ops 0) :
    ∃ c out rest sorted, run comp cap ops [] = some (c, out) ∧
      run comp cap (List.replicate c.length .pop) c = some (rest, sorted) ∧
      rest = [] ∧ sorted.Perm c ∧ sorted.Pairwise (fun a b => comp a b = false) := by
  obtain ⟨c, out, e1, e2, e3⟩ := run_spec hs cap ops [] (by intro i _ _ _ h; simp at h) hl
  refine ⟨c, out, ?_⟩
  have key : ∀ n (c : List α), c.length = n → Inv comp c → ∃ sorted,
      run comp cap (List.replicate n .pop) c = some ([], sorted) ∧ sorted.Perm c ∧
      sorted.Pairwise (fun a b => comp a b = false) := by
    intro n
    induction n with
    | zero => intro c hc _; exact ⟨[], by simp [run, List.length_eq_zero_iff.mp hc], by simp [List.length_eq_zero_iff.mp hc], .nil⟩
    | succ n ih =>
      intro c hc hi
      have hne : c ≠ [] := by intro h; simp [h] at hc
      obtain ⟨t, c1, p0, p1, p2, p3, p4⟩ := pop_spec hs c hi hne
      have hlen := p3.length_eq
      simp at hlen
      obtain ⟨s, a1, a2, a3⟩ := ih c1 (by omega) p2
      refine ⟨t :: s, by simp [List.replicate_succ, run, p0, p1, a1], (a2.cons t).trans p3.symm, ?_⟩
      refine List.Pairwise.cons ?_ a3
      intro x hx
      exact p4 x (p3.mem_iff.mpr (List.mem_cons_of_mem _ (a2.mem_iff.mp hx)))
  obtain ⟨s, k1, k2, k3⟩ := key c.length c rfl e2
  exact ⟨[], s, e1, k1, rfl, k2, k3⟩

/-- Erasing an element of a queue with at least two removes exactly it and keeps the order property. -/
theorem erase_spec {comp : α → α → Bool} (hs : StrictWeak comp) (c : List α) (i : Nat) (hi : i < c.length)
    (h2 : 2 ≤ c.length) :
    ∃ c', erase comp c i = some c' ∧ Inv comp c' ∧ c.Perm (c[i] :: c') := by
  unfold erase
  have hb : c.length - 1 < c.length := by omega
  rw [rd_lt hb]
  simp only [wr_lt hi]
  have hlen : (c.set i c[c.length - 1]).dropLast.length = c.length - 1 := by simp
  obtain ⟨m', e1, e2, e3⟩ := make_heap_spec hs (c.set i c[c.length - 1]).dropLast 0 (c.length - 1) 2
    (by omega) (by omega) (by omega)
  have hp : m'.Perm (c.set i c[c.length - 1]).dropLast := rearranged_perm e3 (by omega)
  refine ⟨m', e1, ?_, ?_⟩
  · unfold Inv; rw [hp.length_eq, hlen]; exact e2
  · -- `c.set i last` with its last cell restored to `c[i]` is a rearrangement of `c`
    have hsw := List.set_set_perm (as := c) (i := i) (j := c.length - 1) hi hb
    have hsplit : (c.set i c[c.length - 1]).set (c.length - 1) c[i] =
        (c.set i c[c.length - 1]).dropLast ++ [c[i]] := by
      apply List.ext_getElem (by simp; omega)
      intro j hj1 hj2
      simp at hj1
      by_cases hj : j = c.length - 1
      · subst hj; simp [List.getElem_append]
      · rw [List.getElem_set_ne (by omega), List.getElem_append_left (by simp; omega), List.getElem_dropLast]
    rw [hsplit] at hsw
    exact hsw.symm.trans (List.perm_append_comm.trans ((hp.symm).cons _))

/-- Erasing the only element is undefined: it calls `make_heap` on an empty range. -/
theorem erase_single_undefined (comp : α → α → Bool) (x : α) : erase comp [x] 0 = none := by
  simp [erase, rd, wr, makeHeap, make]

/-- `erase_if` on a queue of at least two removes the first match in storage order, or nothing when there is none. -/
theorem erase_if_spec {comp : α → α → Bool} (hs : StrictWeak comp) (c : List α) (p : α → Bool)
    (hi : Inv comp c) (h2 : 2 ≤ c.length) :
    ∃ c' b, eraseIf comp c p = some (c', b) ∧ Inv comp c' ∧
      (b = false → c' = c ∧ ∀ x ∈ c, p x = false) ∧
      (b = true → ∃ x ∈ c, p x = true ∧ c.Perm (x :: c')) := by
  obtain ⟨r, e1, e2⟩ := find_if_first c p 0 c.length (by omega) (by omega)
  unfold eraseIf
  rw [e1]
  simp only
  by_cases hr : r = c.length
  · rw [if_pos hr]
    refine ⟨c, false, rfl, hi, fun _ => ⟨rfl, ?_⟩, by simp⟩
    intro x hx
    obtain ⟨i, hil, rfl⟩ := List.mem_iff_getElem.mp hx
    have := e2.earlier i c[i] (by omega) (by omega) (by simp [hil])
    simpa using this
  · rw [if_neg hr]
    have hrl : r < c.length := by have := e2.hi; omega
    obtain ⟨c', a1, a2, a3⟩ := erase_spec hs c r hrl h2
    obtain ⟨x, hx, hpx⟩ := e2.here hrl
    refine ⟨c', true, by rw [a1]; rfl, a2, by simp, fun _ => ⟨c[r], by simp, ?_, a3⟩⟩
    rw [List.getElem?_eq_getElem hrl] at hx
    cases hx; exact hpx

example : eraseIf (fun a b : Nat => decide (a < b)) [9, 5, 2, 1, 4] (· == 5) = some ([9, 4, 2, 1], true) := by
  decide +kernel

/-- Disagreement: `emplace` returns `c.back()` taken *after* re-heaping, which need not be the new element. -/
theorem emplace_returns_other_element :
    emplace (fun a b : Nat => decide (a < b)) 4 [5] 9 = some ([9, 5], 5) := by decide +kernel

end Verif.PriorityQueue
