import Verif.Growable.Props

/-!
# Growable vectors: what growth costs, allocation failure, aliasing, copies and destruction
-/
namespace Verif.Growable

open Verif.DynArray (Res)

variable {α : Type} [DecidableEq α]

/-! ## The cost of growing one element at a time -/

theorem reserve_counts {base : Nat} {s s' : St α} {l : List α} (h : Rep base s l) {n : Nat} {b : Bool}
    (e : reserve s n = .ok (s', b)) :
    s'.heap.calls = s.heap.calls + 1 ∧ s'.heap.moved = s.heap.moved + min n s.vec.cap := by
  have hp : ∀ r, s.heap.plan ≠ false :: r := by
    intro r hr; have := h.grants false (by rw [hr]; simp); simp at this
  obtain ⟨c, e1, e2, e3⟩ := h.cs
  unfold reserve at e
  cases hh : s.vec.handle with
  | none =>
    rw [cells_none hh] at e1
    simp only [Option.some.injEq] at e1; subst e1
    simp only [List.length_nil] at e2
    simp only [hh] at e
    simp only [Res.ok.injEq, Prod.mk.injEq] at e
    obtain ⟨rfl, _⟩ := e
    rw [← e2]
    unfold Heap.allocate
    split <;> simp
  | some b =>
    have hb := cells_some hh e1
    simp only [hh] at e
    unfold Heap.reallocate at e
    rw [hb] at e
    cases hq : s.heap.plan with
    | nil =>
      simp only [hq, DynArray.Res.bind_ok, Res.ok.injEq, Prod.mk.injEq] at e
      obtain ⟨rfl, _⟩ := e
      simp [e2]
    | cons x r =>
      cases x with
      | false => exact absurd hq (hp r)
      | true =>
        simp only [hq, DynArray.Res.bind_ok, Res.ok.injEq, Prod.mk.injEq] at e
        obtain ⟨rfl, _⟩ := e
        simp [e2]

theorem store_counts (s : St α) (c : List (Option α)) :
    (store s c).heap.calls = s.heap.calls ∧ (store s c).heap.moved = s.heap.moved := by
  unfold store; split <;> simp

/-- One `push_back`: the requests made, the cells copied, and the new capacity. -/
theorem push_counts (esz : Nat) {base : Nat} {s : St α} {l : List α} (h : Rep base s l) (v : α) :
    ∃ s', append esz s [v] = .ok s' ∧ Rep base s' (l ++ [v]) ∧
      (if l.length < s.vec.cap then
        s'.heap.calls = s.heap.calls ∧ s'.heap.moved = s.heap.moved ∧ s'.vec.cap = s.vec.cap
      else s'.heap.calls = s.heap.calls + 1 ∧ s'.heap.moved = s.heap.moved + s.vec.cap ∧
        s'.vec.cap = s.vec.cap + (pad esz + 1)) := by
  obtain ⟨s', e, hr⟩ := append_rep esz h [v]
  refine ⟨s', e, hr, ?_⟩
  have hfit := h.fits
  unfold append grow at e
  rw [h.size_eq] at e
  simp only [List.length_cons, List.length_nil, Nat.zero_add] at e
  by_cases hc : l.length < s.vec.cap
  · rw [if_pos hc]
    rw [show ensureTotalCapacity s (l.length + 1) (pad esz) = .ok (s, true) by
      simp [ensureTotalCapacity, show ¬ s.vec.cap < l.length + 1 by omega]] at e
    obtain ⟨c, g1, g2, g3⟩ := h.cs
    obtain ⟨c', f1, _, _⟩ := DynArray.writeAll_effect c l.length [some v] (by simp; omega)
    simp only [DynArray.Res.bind_ok, putAll, cells_setSize, g1, DynArray.Res.ofOption_some,
      List.map_cons, List.map_nil, f1, Res.ok.injEq] at e
    subst e
    rw [(store_counts _ _).1, (store_counts _ _).2, store_vec]
    exact ⟨rfl, rfl, rfl⟩
  · rw [if_neg hc]
    obtain ⟨s1, e1, e2, e3, _⟩ := reserve_rep h (l.length + 1 + pad esz) (by omega)
    rw [show ensureTotalCapacity s (l.length + 1) (pad esz) = .ok (s1, true) by
      simp [ensureTotalCapacity, show s.vec.cap < l.length + 1 by omega, e1]] at e
    have hcnt := reserve_counts h e1
    obtain ⟨c, g1, g2, g3⟩ := e2.cs
    obtain ⟨c', f1, _, _⟩ := DynArray.writeAll_effect c l.length [some v] (by simp; omega)
    simp only [DynArray.Res.bind_ok, putAll, cells_setSize, g1, DynArray.Res.ofOption_some,
      List.map_cons, List.map_nil, f1, Res.ok.injEq] at e
    subst e
    rw [(store_counts _ _).1, (store_counts _ _).2, store_vec]
    have hmin : min (l.length + 1 + pad esz) s.vec.cap = s.vec.cap := Nat.min_eq_right (by omega)
    rw [hmin] at hcnt
    refine ⟨hcnt.1, hcnt.2, ?_⟩
    simp only [setSize, e3]
    omega

/-- The number of blocks of `pad + 1` cells that `n` elements need. -/
def rounds (esz n : Nat) : Nat := (n + pad esz) / (pad esz + 1)

theorem push_run (esz : Nat) (l0 : List α) (k : Nat) {base : Nat} {s : St α} {pre : List α} (h : Rep base s pre)
    (hk : s.vec.cap = k * (pad esz + 1)) (hk2 : k = rounds esz pre.length) :
    ∃ s', runAll esz s (l0.map .pushBack) = .ok s' ∧ Rep base s' (pre ++ l0) ∧
      s'.vec.cap = rounds esz (pre.length + l0.length) * (pad esz + 1) ∧
      s'.heap.calls + k = s.heap.calls + rounds esz (pre.length + l0.length) ∧
      2 * s'.heap.moved + (pad esz + 1) * (k * (k - 1)) =
        2 * s.heap.moved + (pad esz + 1) *
          (rounds esz (pre.length + l0.length) * (rounds esz (pre.length + l0.length) - 1)) := by
  induction l0 generalizing k s pre with
  | nil => subst hk2; exact ⟨s, rfl, by simpa using h, hk, by simp, by simp⟩
  | cons v r ih =>
    obtain ⟨s1, e1, e2, e3⟩ := push_counts esz h v
    have hdiv : pre.length < s.vec.cap ∨ pre.length = s.vec.cap := by have := h.fits; omega
    rcases hdiv with hd | hd
    · rw [if_pos hd] at e3
      have hr : rounds esz (pre ++ [v]).length = k := by
        rw [hk2]; unfold rounds
        rw [List.length_append, List.length_singleton]
        rw [hk, hk2] at hd
        unfold rounds at hd
        have hP : 0 < pad esz + 1 := by omega
        have h1 := Nat.div_add_mod (pre.length + pad esz) (pad esz + 1)
        have h2 := Nat.mod_lt (pre.length + pad esz) hP
        apply Nat.le_antisymm
        · rw [Nat.div_le_iff_le_mul_add_pred hP]
          have : pre.length + 1 ≤ (pre.length + pad esz) / (pad esz + 1) * (pad esz + 1) := hd
          rw [Nat.mul_comm] at this
          omega
        · exact Nat.div_le_div_right (by omega)
      obtain ⟨s', f1, f2, f3, f4, f5⟩ := ih k e2 (by rw [e3.2.2, hk]) hr.symm
      rw [e3.1] at f4
      rw [e3.2.1] at f5
      have hlen : (pre ++ [v]).length + r.length = pre.length + (v :: r).length := by simp; omega
      rw [hlen] at f3 f4 f5
      exact ⟨s', by simp [runAll, Op.run, e1, f1], by simpa using f2, f3, f4, f5⟩
    · rw [if_neg (by omega)] at e3
      have hr : rounds esz (pre ++ [v]).length = k + 1 := by
        unfold rounds
        rw [List.length_append, List.length_singleton, hd, hk,
          show k * (pad esz + 1) + 1 + pad esz = (k + 1) * (pad esz + 1) by rw [Nat.add_mul]; omega]
        exact Nat.mul_div_cancel _ (by omega)
      obtain ⟨s', f1, f2, f3, f4, f5⟩ := ih (k + 1) e2 (by rw [e3.2.2, hk, Nat.add_mul]; omega) hr.symm
      rw [e3.1] at f4
      rw [e3.2.1, hk] at f5
      have hlen : (pre ++ [v]).length + r.length = pre.length + (v :: r).length := by simp; omega
      rw [hlen] at f3 f4 f5
      refine ⟨s', by simp [runAll, Op.run, e1, f1], by simpa using f2, f3, by omega, ?_⟩
      have hkk : (k + 1) * (k + 1 - 1) = k * (k - 1) + 2 * k := by
        cases k with
        | zero => rfl
        | succ k => simp only [Nat.add_sub_cancel]; rw [Nat.mul_comm 2, ← Nat.mul_add, Nat.mul_comm]
      rw [hkk, Nat.mul_add] at f5
      have : (pad esz + 1) * (2 * k) = 2 * (k * (pad esz + 1)) := by
        rw [Nat.mul_comm k, Nat.mul_left_comm]
      omega

/-- The slack takes more than 32 bytes, and by no more than an element. -/
theorem pad_bytes (esz : Nat) (h : 0 < esz) : 32 < pad esz * esz ∧ pad esz * esz ≤ 32 + esz := by
  unfold pad
  have h1 := Nat.div_add_mod (32 + esz) esz
  have h2 := Nat.mod_lt (32 + esz) h
  rw [Nat.mul_comm] at h1
  omega

/-- C72: what appending `n` elements one at a time costs, for every `n`: the capacity grows by a *fixed*
number of cells each time, `pad + 1`, so the allocator is asked once per `pad + 1` elements and the number of
cells copied is quadratic. -/
theorem push_back_cost (esz : Nat) (h : Heap α) (hg : Grants h) (l : List α) :
    ∃ s, runAll esz (fresh h) (l.map .pushBack) = .ok s ∧ Holds s l ∧
      capacity s = rounds esz l.length * (pad esz + 1) ∧
      s.heap.calls = h.calls + rounds esz l.length ∧
      2 * s.heap.moved = 2 * h.moved + (pad esz + 1) * (rounds esz l.length * (rounds esz l.length - 1)) := by
  have hr : rounds esz 0 = 0 := by unfold rounds; exact Nat.div_eq_of_lt (by omega)
  obtain ⟨s, e1, e2, e3, e4, e5⟩ := push_run esz l 0 (fresh_rep h hg) (by simp [fresh]) (by simp [hr])
  refine ⟨s, e1, by simpa using e2.holds, by simpa [capacity] using e3, by simpa [fresh] using e4, by simpa [fresh] using e5⟩

/-- **Violation.** C72: `push_back` is not amortised constant time: whatever bound per element is chosen,
some number of `push_back`s on an empty vector copies more cells than that bound per element. -/
theorem push_back_not_amortised (esz : Nat) (h : Heap α) (hg : Grants h) (C : Nat) :
    ∃ n, 0 < n ∧ ∀ l : List α, l.length = n →
      ∃ s, runAll esz (fresh h) (l.map .pushBack) = .ok s ∧ h.moved + C * n < s.heap.moved := by
  refine ⟨(2 * C + 2) * (pad esz + 1), by simp, fun l hl => ?_⟩
  obtain ⟨s, e1, _, _, _, e5⟩ := push_back_cost esz h hg l
  refine ⟨s, e1, ?_⟩
  have hr : rounds esz l.length = 2 * C + 2 := by
    unfold rounds
    rw [hl, Nat.div_eq_iff (by omega)]
    rw [Nat.mul_comm (2 * C + 2)]
    constructor <;> omega
  rw [hr] at e5
  have h1 : (pad esz + 1) * ((2 * C + 2) * (2 * C + 2 - 1)) =
      2 * (C * ((2 * C + 2) * (pad esz + 1))) + (2 * C + 2) * (pad esz + 1) := by
    rw [show 2 * C + 2 - 1 = 2 * C + 1 by omega, Nat.mul_add (2 * C + 2), Nat.mul_one, Nat.mul_add]
    have : (pad esz + 1) * ((2 * C + 2) * (2 * C)) = 2 * (C * ((2 * C + 2) * (pad esz + 1))) := by
      rw [Nat.mul_comm (pad esz + 1), Nat.mul_comm (2 * C + 2) (2 * C), Nat.mul_assoc, Nat.mul_assoc 2]
    rw [this, Nat.mul_comm (pad esz + 1)]
  have h2 : 0 < (2 * C + 2) * (pad esz + 1) := by simp
  omega

example : Grants (⟨[], [], 0, 0⟩ : Heap Nat) := by simp [Grants]
example : (runAll 4 (fresh (⟨[], [], 0, 0⟩ : Heap Nat)) ((List.range 25).map .pushBack)).bind
    (fun s => .ok (s.heap.calls, s.heap.moved, capacity s)) = .ok (3, 30, 30) := by decide +kernel

/-! ## Allocation failure -/

/-- **Violation.** C72: if the allocator refuses, `reserve` (and with it `resize` and range insertion)
reports failure, but the vector has already lost its contents: it is then empty, no element can be read, it
claims the capacity it did not get, and its old block stays allocated with nothing referring to it. -/
theorem reserve_failure_loses (s : St α) (b : Nat) (c : List (Option α)) (r : List Bool)
    (hh : s.vec.handle = some b) (hc : cells s = some c) (hp : s.heap.plan = false :: r) (n : Nat) :
    ∃ s', reserve s n = .ok (s', false) ∧ size s' = 0 ∧ (∀ i, index s' i = .ub) ∧ capacity s' = n ∧
      live s'.heap = live s.heap ∧ s'.heap.blocks[b]? = some (some c) ∧ s'.vec.handle = none := by
  have hb := cells_some hh hc
  refine ⟨⟨{ s.heap with plan := r, calls := s.heap.calls + 1 }, { s.vec with cap := n, handle := none }⟩,
    ?_, by simp [size], ?_, rfl, rfl, hb, rfl⟩
  · simp [reserve, hh, Heap.reallocate, hb, hp]
  · intro i; simp [index, cells, rd]

/-- **Violation.** C72: and the next append that fits the capacity the vector claims is undefined behaviour,
with no further request to the allocator. -/
theorem append_after_failure (esz : Nat) (s : St α) (hh : s.vec.handle = none) (src : List α) (hne : src ≠ [])
    (hfit : src.length ≤ capacity s) : append esz s src = .ub := by
  have hf : ¬ s.vec.cap < src.length := by simp only [capacity] at hfit; omega
  have hs : size s = 0 := by simp [size, hh]
  have hl : 0 < src.length := List.length_pos_iff.mpr hne
  simp only [append, grow, hs, Nat.zero_add, ensureTotalCapacity, gt_iff_lt, hf, if_false,
    DynArray.Res.bind_ok, putAll, cells_setSize, cells_none hh, DynArray.Res.ofOption_some]
  rw [DynArray.writeAll_overrun [] 0 (src.map some) (by simpa using hl) (by simpa using hne)]
  rfl

/-- **Violation.** C72: a `push_back`/`append` that has to grow ignores the allocator's refusal: it is
undefined behaviour in every such state. -/
theorem append_failure_ub (esz : Nat) (s : St α) (c : List (Option α)) (r : List Bool)
    (hc : cells s = some c) (hp : s.heap.plan = false :: r) (src : List α) (hne : src ≠ [])
    (hfull : capacity s < size s + src.length) : append esz s src = .ub := by
  have hfull' : s.vec.cap < size s + src.length := hfull
  have hl : 0 < src.length := List.length_pos_iff.mpr hne
  have key : ∃ s1, reserve s (size s + src.length + pad esz) = .ok (s1, false) ∧ s1.vec.handle = none := by
    cases hh : s.vec.handle with
    | none =>
      exact ⟨_, by simp only [reserve, hh, Heap.allocate, hp]; rfl, rfl⟩
    | some b =>
      obtain ⟨s1, e1, _, _, _, _, _, e2⟩ := reserve_failure_loses s b c r hh hc hp (size s + src.length + pad esz)
      exact ⟨s1, e1, e2⟩
  obtain ⟨s1, e1, e2⟩ := key
  simp only [append, grow, ensureTotalCapacity, gt_iff_lt, hfull', if_true, e1, DynArray.Res.bind_ok, putAll,
    cells_setSize, cells_none e2, DynArray.Res.ofOption_some]
  rw [DynArray.writeAll_overrun [] _ (src.map some) (by simp; omega) (by simpa using hne)]
  rfl

/-- A vector of two elements, full, whose next request is refused. -/
def exFull : St Nat := ⟨⟨[some [some 4, some 5]], [false], 1, 0⟩, ⟨some 0, 2, 2⟩⟩

example : exFull.vec.handle = some 0 ∧ cells exFull = some [some 4, some 5] ∧
    capacity exFull < size exFull + 1 := by decide
example : append 1 exFull [6] = .ub := append_failure_ub 1 exFull _ [] rfl rfl [6] (by simp) (by decide)

/-! ## `reserve` below the current size -/

/-- **Violation.** C72: `reserve(n)` with `n` smaller than the size, which the standard ignores, cuts the
block: the vector still reports its old size, but the elements from `n` on can no longer be accessed. -/
theorem reserve_below_cuts {base : Nat} {s : St α} {l : List α} (h : Rep base s l) (n : Nat) (hn : n < l.length) :
    ∃ s', reserve s n = .ok (s', true) ∧ size s' = l.length ∧
      (∀ i, i < n → index s' i = .ok l[i]?) ∧ ∀ i, n ≤ i → index s' i = .ub := by
  have hp : ∀ r, s.heap.plan ≠ false :: r := by
    intro r hr; have := h.grants false (by rw [hr]; simp); simp at this
  obtain ⟨c, e1, e2, e3⟩ := h.cs
  have hf := h.fits
  cases hh : s.vec.handle with
  | none =>
    rw [cells_none hh] at e1
    simp only [Option.some.injEq] at e1; subst e1
    simp only [List.length_nil] at e2
    omega
  | some b =>
    have hb := cells_some hh e1
    have ha : s.heap.reallocate b n = .ok ({ s.heap with plan := s.heap.plan.tail, calls := s.heap.calls + 1, moved := s.heap.moved + min n c.length, blocks := s.heap.blocks.set b none ++ [some (c.take n ++ List.replicate (n - c.length) none)] }, some s.heap.blocks.length) := by
      unfold Heap.reallocate
      rw [hb]
      cases hq : s.heap.plan with
      | nil => simp
      | cons x r =>
        cases x with
        | false => exact absurd hq (hp r)
        | true => simp
    refine ⟨_, by simp only [reserve, hh, ha, DynArray.Res.bind_ok, Option.isSome_some]; rfl, ?_, ?_, ?_⟩
    · simp [size, h.used]
    · intro i hi
      simp only [index, cells]
      simp only [List.length_set, Nat.le_refl, List.getElem?_append_right, Nat.sub_self,
        List.getElem?_cons_zero, DynArray.Res.ofOption_some, DynArray.Res.bind_ok, rd]
      rw [List.getElem?_append_left (by simp; omega), List.getElem?_take_of_lt hi, e3 i (by omega)]
      rfl
    · intro i hi
      simp only [index, cells]
      simp only [List.length_set, Nat.le_refl, List.getElem?_append_right, Nat.sub_self,
        List.getElem?_cons_zero, DynArray.Res.ofOption_some, DynArray.Res.bind_ok, rd]
      rw [List.getElem?_eq_none (by simp; omega)]
      rfl

example : (runAll 1 (fresh (⟨[], [], 0, 0⟩ : Heap Nat)) [.append [1, 2, 3], .reserve 2]).bind
    (fun s => .ok (size s, index s 1, index s 2)) = .ok (3, .ok (some 2), .ub) := by decide +kernel

/-! ## References and iterators into the vector -/

/-- C72: appending one of the vector's own elements works while the vector has room.  Missing: the case
where it has to grow (next theorem). -/
theorem push_back_alias_partial (esz : Nat) {base : Nat} {s : St α} {l : List α} (h : Rep base s l) (i : Nat)
    (hi : i < l.length) (hroom : l.length < capacity s) :
    ∃ s', pushBackAlias esz s i = .ok s' ∧ Holds s' (l ++ [l[i]]) := by
  obtain ⟨c, e1, e2, e3⟩ := h.cs
  have hc : ¬ s.vec.cap < l.length + 1 := by simp only [capacity] at hroom; omega
  obtain ⟨s', f1, f2⟩ := putAll_rep h [l[i]] (l ++ [l[i]]) l.length (by simp only [capacity] at hroom; simp; omega) (by simp)
    (fun j hj => ⟨hj, List.getElem?_append_left hj⟩)
    (fun j hj => by rw [List.getElem?_append_right (by omega)]; congr 1; omega)
  refine ⟨s', ?_, f2.holds⟩
  unfold pushBackAlias grow
  rw [h.size_eq]
  have hcs : cells { setSize s (l.length + 1) with vec := s.vec } = some c := e1
  simp only [ensureTotalCapacity, gt_iff_lt, hc, if_false, DynArray.Res.bind_ok, hcs,
    DynArray.Res.ofOption_some, rd, e3 i hi]
  simp only [List.length_append, List.length_singleton, List.map_cons, List.map_nil] at f1
  rw [List.getElem?_eq_getElem hi]
  exact f1

/-- **Violation.** C72: and when it has to grow, the element is read from the block that was just given up:
undefined, for every vector, every element and every pattern of allocator answers that grants the growth. -/
theorem push_back_alias_dangles (esz : Nat) {base : Nat} {s : St α} {l : List α} (h : Rep base s l) (i : Nat)
    (hi : i < l.length) (hfull : capacity s = l.length) : pushBackAlias esz s i = .ub := by
  have hp : ∀ r, s.heap.plan ≠ false :: r := by
    intro r hr; have := h.grants false (by rw [hr]; simp); simp at this
  obtain ⟨c, e1, e2, e3⟩ := h.cs
  have hc : s.vec.cap < l.length + 1 := by simp only [capacity] at hfull; omega
  cases hh : s.vec.handle with
  | none =>
    rw [cells_none hh] at e1
    simp only [Option.some.injEq] at e1; subst e1
    simp only [List.length_nil] at e2
    have := h.fits; omega
  | some b =>
    have hb := cells_some hh e1
    have hlt : b < s.heap.blocks.length := by
      rcases Nat.lt_or_ge b s.heap.blocks.length with h | h
      · exact h
      · rw [List.getElem?_eq_none h] at hb; simp at hb
    have ha : s.heap.reallocate b (l.length + 1 + pad esz) = .ok ({ s.heap with plan := s.heap.plan.tail, calls := s.heap.calls + 1, moved := s.heap.moved + min (l.length + 1 + pad esz) c.length, blocks := s.heap.blocks.set b none ++ [some (c.take (l.length + 1 + pad esz) ++ List.replicate (l.length + 1 + pad esz - c.length) none)] }, some s.heap.blocks.length) := by
      unfold Heap.reallocate
      rw [hb]
      cases hq : s.heap.plan with
      | nil => simp
      | cons x r =>
        cases x with
        | false => exact absurd hq (hp r)
        | true => simp
    unfold pushBackAlias grow
    rw [h.size_eq]
    simp only [ensureTotalCapacity, gt_iff_lt, hc, if_true, reserve, hh, ha, DynArray.Res.bind_ok]
    simp [cells, hh, setSize, List.getElem?_append_left, hlt, DynArray.Res.bind, Res.ofOption]

/-- **Violation.** C72: `insert` returns the iterator it was given.  When the vector had to grow for it, that
iterator refers to a block that has been given up: neither it nor any other iterator made before is usable. -/
theorem insert_returns_dangling (esz : Nat) {base : Nat} {s : St α} {l : List α} (h : Rep base s l) (pos : Nat)
    (v : α) (hpos : pos ≤ l.length) (b : Nat) (hh : s.vec.handle = some b) (hfull : capacity s = l.length) :
    ∃ s', insert esz s pos v = .ok (s', some b, pos) ∧ Holds s' (l.take pos ++ v :: l.drop pos) ∧
      s'.heap.blocks[b]? = some none ∧ s'.vec.handle ≠ some b := by
  obtain ⟨s', e, hr⟩ := insert_rep esz h pos v hpos
  rw [hh] at e
  refine ⟨s', e, hr.holds, ?_⟩
  have hp : ∀ r, s.heap.plan ≠ false :: r := by
    intro r hr; have := h.grants false (by rw [hr]; simp); simp at this
  obtain ⟨c, e1, e2, e3⟩ := h.cs
  have hc : s.vec.cap < l.length + 1 := by simp only [capacity] at hfull; omega
  have hb := cells_some hh e1
  have hlt : b < s.heap.blocks.length := by
    rcases Nat.lt_or_ge b s.heap.blocks.length with h | h
    · exact h
    · rw [List.getElem?_eq_none h] at hb; simp at hb
  have ha : s.heap.reallocate b (l.length + 1 + pad esz) = .ok ({ s.heap with plan := s.heap.plan.tail, calls := s.heap.calls + 1, moved := s.heap.moved + min (l.length + 1 + pad esz) c.length, blocks := s.heap.blocks.set b none ++ [some (c.take (l.length + 1 + pad esz) ++ List.replicate (l.length + 1 + pad esz - c.length) none)] }, some s.heap.blocks.length) := by
    unfold Heap.reallocate
    rw [hb]
    cases hq : s.heap.plan with
    | nil => simp
    | cons x r =>
      cases x with
      | false => exact absurd hq (hp r)
      | true => simp
  unfold insert grow at e
  rw [h.size_eq] at e
  simp only [ensureTotalCapacity, gt_iff_lt, hc, if_true, reserve, hh, ha, DynArray.Res.bind_ok,
    cells_setSize] at e
  rw [show cells (⟨{ s.heap with plan := s.heap.plan.tail, calls := s.heap.calls + 1, moved := s.heap.moved + min (l.length + 1 + pad esz) c.length, blocks := s.heap.blocks.set b none ++ [some (c.take (l.length + 1 + pad esz) ++ List.replicate (l.length + 1 + pad esz - c.length) none)] }, { s.vec with cap := l.length + 1 + pad esz, handle := some s.heap.blocks.length }⟩ : St α) =
    some (c.take (l.length + 1 + pad esz) ++ List.replicate (l.length + 1 + pad esz - c.length) none) by simp [cells]] at e
  simp only [DynArray.Res.ofOption_some, DynArray.Res.bind_ok] at e
  cases hq : Algorithm.copyBackward (c.take (l.length + 1 + pad esz) ++ List.replicate (l.length + 1 + pad esz - c.length) none) pos l.length (l.length + 1) with
  | none => rw [hq] at e; simp [Res.ofOption, DynArray.Res.bind] at e
  | some q =>
    rw [hq] at e
    simp only [DynArray.Res.ofOption_some, DynArray.Res.bind_ok] at e
    cases hw : wr q.1 pos (some v) with
    | none => rw [hw] at e; simp [Res.ofOption, DynArray.Res.bind] at e
    | some c' =>
      rw [hw] at e
      simp only [DynArray.Res.ofOption_some, DynArray.Res.bind_ok, Res.ok.injEq, Prod.mk.injEq] at e
      obtain ⟨rfl, _⟩ := e
      refine ⟨?_, ?_⟩
      · simp only [store, setSize]
        rw [List.getElem?_set_ne (by omega), List.getElem?_append_left (by simpa using hlt),
          List.getElem?_set_self hlt]
      · rw [store_vec]
        simp only [setSize, ne_eq, Option.some.injEq]
        omega

example : ∃ s : St Nat, Rep 0 s [1, 2] ∧ s.vec.handle = some 0 ∧ capacity s = 2 :=
  ⟨⟨⟨[some [some 1, some 2]], [], 1, 0⟩, ⟨some 0, 2, 2⟩⟩,
    ⟨by simp [Grants], ⟨[some 1, some 2], by simp [cells], rfl, by
      intro i hi; simp only [List.length_cons, List.length_nil] at hi
      match i, hi with
      | 0, _ => rfl
      | 1, _ => rfl⟩, rfl, by simp, by simp [live]⟩, rfl, rfl⟩

/-! ## Copies and destruction -/

/-- **Violation.** C72: a copy of a vector is not a value of its own.  Assigning to the copy (without
growing) changes what the original holds, for every original and every replacement of the same length. -/
theorem copy_shares_elements {base : Nat} {s : St α} {l : List α} (h : Rep base s l) (src : List α)
    (hl : src.length = l.length) :
    ∃ s', assign ⟨s.heap, copy s⟩ src = .ok s' ∧ Holds ⟨s'.heap, s.vec⟩ src := by
  have hf := h.fits
  have hrun : assign ⟨s.heap, copy s⟩ src = putAll (setSize s src.length) 0 (src.map some) := by
    simp [assign, ensureTotalSize, ensureTotalCapacity, copy, show ¬ s.vec.cap < src.length by omega]
  obtain ⟨s', f1, f2⟩ := putAll_rep h src src 0 (by omega) (by simp) (by simp) (by simp)
  refine ⟨s', by rw [hrun, f1], ?_⟩
  have hv : s'.vec = s.vec := by
    obtain ⟨c, e1, e2, e3⟩ := h.cs
    obtain ⟨c', g1, _, _⟩ := DynArray.writeAll_effect c 0 (src.map some) (by simp; omega)
    simp only [putAll, cells_setSize, e1, DynArray.Res.ofOption_some, DynArray.Res.bind_ok, g1, Res.ok.injEq] at f1
    subst f1
    rw [store_vec, setSize]
    have := h.used
    rw [hl, ← this]
  rw [← hv]
  exact f2.holds

/-- **Violation.** C72: and once a full copy grows, the original is left with a block that was given up: none
of its elements can be accessed any more, though it still reports its old size. -/
theorem copy_growth_invalidates_original (esz : Nat) {base : Nat} {s : St α} {l : List α} (h : Rep base s l)
    (hne : l ≠ []) (hfull : capacity s = l.length) (v : α) :
    ∃ s', insert esz ⟨s.heap, copy s⟩ l.length v = .ok (s', s.vec.handle, l.length) ∧
      size (⟨s'.heap, s.vec⟩ : St α) = l.length ∧ ∀ i, index (⟨s'.heap, s.vec⟩ : St α) i = .ub := by
  have hlen : 0 < l.length := List.length_pos_iff.mpr hne
  cases hh : s.vec.handle with
  | none =>
    obtain ⟨c, e1, e2, e3⟩ := h.cs
    rw [cells_none hh] at e1
    simp only [Option.some.injEq] at e1; subst e1
    simp only [List.length_nil] at e2
    have := h.fits; omega
  | some b =>
    obtain ⟨s', e1, _, e3, _⟩ := insert_returns_dangling esz h l.length v (by omega) b hh hfull
    refine ⟨s', e1, ?_, ?_⟩
    · simp [size, hh, h.used]
    · intro i
      simp [index, cells, hh, e3, DynArray.Res.bind, Res.ofOption]

/-- A program that creates `k` vectors one after the other, appends one element to each and lets it go out of
scope. -/
def createAndDestroy (esz : Nat) (v : α) (h : Heap α) : Nat → Res (Heap α)
  | 0 => .ok h
  | k + 1 => (append esz (fresh h) [v]).bind fun s => createAndDestroy esz v (destroy s) k

/-- **Violation.** C72: a growable vector never gives its block back: every vector that ever held an element
leaks it, so `k` short-lived vectors leave `k` blocks allocated. -/
theorem vectors_leak (esz : Nat) (v : α) (h : Heap α) (hg : Grants h) (k : Nat) :
    ∃ h', createAndDestroy esz v h k = .ok h' ∧ live h' = live h + k := by
  induction k generalizing h with
  | zero => exact ⟨h, rfl, by simp⟩
  | succ k ih =>
    obtain ⟨s, e1, e2⟩ := append_rep esz (fresh_rep h hg) [v]
    obtain ⟨h', e3, e4⟩ := ih s.heap e2.grants
    refine ⟨h', by simp [createAndDestroy, e1, destroy, e3], ?_⟩
    have hne : s.vec.handle ≠ none := by
      intro hn
      obtain ⟨c, c1, c2, _⟩ := e2.cs
      rw [cells_none hn] at c1
      simp only [Option.some.injEq] at c1; subst c1
      have := e2.fits
      simp only [List.length_nil] at c2
      simp at this; omega
    rw [e4, e2.live, if_neg hne]; omega

example : createAndDestroy 4 7 (⟨[], [], 0, 0⟩ : Heap Nat) 3 =
    .ok ⟨[some (some 7 :: List.replicate 9 none), some (some 7 :: List.replicate 9 none), some (some 7 :: List.replicate 9 none)], [], 3, 0⟩ := by
  decide +kernel

/-! ## Construction -/

/-- **Violation.** C72: a null-terminated string over a growable allocator cannot even be default
constructed: the terminator is written through the invalid handle. -/
theorem terminated_construction_ub (zero : α) (h : Heap α) : freshTerminated zero h = .ub := rfl

/-- **Violation.** C72: nor can a growable vector be made from a non-empty initializer list: the values are
copied through the invalid handle, whatever the allocator would grant. -/
theorem initializer_list_ub (h : Heap α) (l : List α) (hne : l ≠ []) : ofList h l = .ub := by
  cases l with
  | nil => exact absurd rfl hne
  | cons x r => rfl

example : ([1] : List Nat) ≠ [] := by simp

end Verif.Growable
