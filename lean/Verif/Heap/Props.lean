import Verif.Heap.Lemmas
/-!
# Property theorems for the k-ary heap (C06)
-/
namespace Verif.Heap
open Verif Verif.Algorithm Spec

variable {α : Type u}

/-- C06: the root of a heap is an extremum: no cell of the range belongs nearer the root. -/
theorem heap_root_extremal {comp : α → α → Bool} (hs : StrictWeak comp) {k f n : Nat} {m : List α}
    (hn : f + n ≤ m.length) (h : IsHeap comp k f n m) (i : Nat) (hi : i < n) (x y : α)
    (hx : m[f]? = some x) (hy : m[f + i]? = some y) : comp x y = false := by
  have key : ∀ i, i < n → Ok comp f m 0 i := by
    intro i
    induction i using Nat.strongRecOn with
    | _ i ih =>
      intro hi
      by_cases h0 : i = 0
      · subst h0; exact Ok.refl hs f m 0
      · have hp := parent_lt (k := k) (i := i) (by omega)
        exact Ok.trans hs (by omega) (ih _ hp (by omega)) (isHeap_iff.mp h i (by omega) hi)
  exact key i hi x y (by simpa using hx) hy

/-- C06: `make_heap` turns any non-empty range into a heap, only rearranging that range, for every arity. -/
theorem make_heap_spec {comp : α → α → Bool} (hs : StrictWeak comp) (m : List α) (first last k : Nat)
    (hk : 0 < k) (h1 : first < last) (h2 : last ≤ m.length) :
    ∃ m', makeHeap comp m first last k = some m' ∧ IsHeap comp k first (last - first) m' ∧
      Rearranged first (last - first) m m' := by
  unfold makeHeap make
  rw [if_neg (by omega)]
  have hdiv := Nat.div_le_self (last - first - 1) k
  apply makeLoop_spec hs k first (last - first) hk m _ (by omega) (by omega)
  intro i hi hi2 hp
  exfalso
  have : (i - 1) / k ≤ (last - first - 1) / k := Nat.div_le_div_right (by omega)
  omega

example : makeHeap (fun a b : Nat => decide (a < b)) [9, 1, 2, 3, 4, 5, 0] 1 6 = some [9, 5, 4, 3, 1, 2, 0] := by
  decide +kernel

/-- C06 (disagreement with `std::make_heap`, which accepts any range): on an empty range the code computes
its starting position from a wrapped-around size and is undefined. -/
theorem make_heap_empty_undefined (comp : α → α → Bool) (m : List α) (first k : Nat) :
    makeHeap comp m first first k = none := by
  simp [makeHeap, make]

/-- C06: bubbling the last element up, for every arity: a heap of `n` cells followed by one more cell
becomes a heap of `n + 1` cells. The returned flag is true only if nothing moved. -/
theorem restore_up_spec {comp : α → α → Bool} (hs : StrictWeak comp) (m : List α) (k f n : Nat)
    (hk : 0 < k) (h2 : f + (n + 1) ≤ m.length) (h : IsHeap comp k f n m) :
    ∃ m' b, restoreUp comp k f (n + 1) m = some (m', b) ∧ IsHeap comp k f (n + 1) m' ∧
      Rearranged f (n + 1) m m' ∧ (b = true → m' = m) := by
  obtain ⟨m', c', e1, e2, e3, e4, e5⟩ := upLoop_spec hs k f (n + 1) hk m n h2 (by omega)
    (fun i hi hi2 hne => isHeap_iff.mp h i hi (by omega))
    (fun i hi hi2 _ hp => by have := parent_lt (k := k) hi; omega)
  refine ⟨m', c' == n, ?_, e2, e3, ?_⟩
  · unfold restoreUp
    rw [if_neg (by omega)]
    simp [e1]
  · intro hb; exact e5 (by simpa using hb)

/-- C06: `push_heap(first, last)` makes `[first, last)` a heap when `[first, last-1)` is one. -/
theorem push_heap_spec {comp : α → α → Bool} (hs : StrictWeak comp) (m : List α) (first last : Nat)
    (h1 : first < last) (h2 : last ≤ m.length) (h : IsHeap comp 2 first (last - 1 - first) m) :
    ∃ m', pushHeap comp m first last = some m' ∧ IsHeap comp 2 first (last - first) m' ∧
      Rearranged first (last - first) m m' := by
  have e : last - first = (last - 1 - first) + 1 := by omega
  obtain ⟨m', b, e1, e2, e3, -⟩ := restore_up_spec hs m 2 first (last - 1 - first) (by omega) (by omega) h
  refine ⟨m', ?_, by rw [e]; exact e2, by rw [e]; exact e3⟩
  unfold pushHeap; rw [e, e1]; rfl

example : pushHeap (fun a b : Nat => decide (a < b)) [5, 4, 2, 1, 9] 0 5 = some [9, 5, 2, 1, 4] := by
  decide +kernel

/-- C06: `heap.push(v)` stores `v` one past the range and yields a heap of `n + 1` cells made of the old
cells and `v`. -/
theorem push_value_spec {comp : α → α → Bool} (hs : StrictWeak comp) (m : List α) (k f n : Nat) (v : α)
    (hk : 0 < k) (h2 : f + n < m.length) (h : IsHeap comp k f n m) :
    ∃ m', push comp k f n m v = some m' ∧ IsHeap comp k f (n + 1) m' ∧
      Rearranged f (n + 1) (m.set (f + n) v) m' := by
  obtain ⟨m', b, e1, e2, e3, -⟩ := restore_up_spec hs (m.set (f + n) v) k f n hk (by simp; omega) (by
    intro i x y hi hi2 hx hy
    have := parent_lt (k := k) hi
    rw [List.getElem?_set_ne (by omega)] at hx
    rw [List.getElem?_set_ne (by omega)] at hy
    exact h i x y hi hi2 hx hy)
  refine ⟨m', ?_, e2, e3⟩
  unfold push; rw [wr_lt h2]; simp [e1]

example : push (fun a b : Nat => decide (a < b)) 3 0 3 [5, 4, 2, 0] 9 = some [9, 4, 2, 5] := by decide +kernel

/-- C06: popping, for every arity: the extremum ends in the last cell, the first `n - 1` cells are a heap,
and the range is only rearranged. -/
theorem pop_spec {comp : α → α → Bool} (hs : StrictWeak comp) (m : List α) (k f n : Nat) (hk : 0 < k)
    (hn : 0 < n) (h2 : f + n ≤ m.length) (h : IsHeap comp k f n m) :
    ∃ m', pop comp k f n m = some m' ∧ IsHeap comp k f (n - 1) m' ∧ Rearranged f n m m' ∧
      m'[f + (n - 1)]? = m[f]? := by
  unfold pop
  rw [if_neg (by omega), iterSwap_lt (show f < m.length by omega) (show f + (n - 1) < m.length by omega)]
  simp only
  have hf : f + 0 < m.length := by omega
  have hl : f + (n - 1) < m.length := by omega
  have hm0 : (m.set f m[f + (n - 1)]).set (f + (n - 1)) m[f] =
      (m.set (f + 0) m[f + (n - 1)]).set (f + (n - 1)) m[f + 0] := by simp
  rw [hm0]
  generalize hm1 : (m.set (f + 0) m[f + (n - 1)]).set (f + (n - 1)) m[f + 0] = m1
  have hsw : Rearranged f n m m1 := by
    rw [← hm1]; exact rearranged_swap (a := 0) (b := n - 1) h2 (by omega) (by omega)
  obtain ⟨m', e1, e2, e3, -⟩ := restoreDown_spec hs k f (n - 1) 0 hk m1 0 (by rw [hsw.length]; omega)
    (by omega) (Nat.le_refl _)
    (by
      intro i hi hi2 _ hp
      rw [← hm1, ok_swap hf hl]
      have hpl := parent_lt (k := k) hi
      have t1 : tr 0 (n - 1) ((i - 1) / k) = (i - 1) / k := by unfold tr; grind
      have t2 : tr 0 (n - 1) i = i := by unfold tr; grind
      rw [t1, t2]
      exact isHeap_iff.mp h i hi (by omega))
    (fun i _ _ hlt => absurd hlt (by omega))
  refine ⟨m', e1, isHeap_iff.mpr fun i hi hi2 => e2 i hi hi2 (Nat.zero_le _),
    hsw.trans (e3.mono (by omega)), ?_⟩
  rw [e3.outside _ (by omega), ← hm1, swap_get hf hl]
  congr 1; unfold tr; grind

/-- C06: `pop_heap(first, last)`. -/
theorem pop_heap_spec {comp : α → α → Bool} (hs : StrictWeak comp) (m : List α) (first last : Nat)
    (h1 : first < last) (h2 : last ≤ m.length) (h : IsHeap comp 2 first (last - first) m) :
    ∃ m', popHeap comp m first last = some m' ∧ IsHeap comp 2 first (last - 1 - first) m' ∧
      Rearranged first (last - first) m m' ∧ m'[last - 1]? = m[first]? := by
  obtain ⟨m', e1, e2, e3, e4⟩ := pop_spec hs m 2 first (last - first) (by omega) (by omega) (by omega) h
  refine ⟨m', e1, ?_, e3, ?_⟩
  · rw [show last - 1 - first = last - first - 1 by omega]; exact e2
  · rw [← e4]; congr 1; omega

example : popHeap (fun a b : Nat => decide (a < b)) [9, 5, 2, 1, 4] 0 5 = some [5, 4, 2, 1, 9] := by
  decide +kernel

example : IsHeap (fun a b : Nat => decide (a < b)) 2 0 5 [9, 5, 2, 1, 4] := by
  intro i x y hi hi2 hx hy
  have : i = 1 ∨ i = 2 ∨ i = 3 ∨ i = 4 := by omega
  rcases this with rfl | rfl | rfl | rfl <;> simp at hx hy <;> subst hx <;> subst hy <;> decide

end Verif.Heap
