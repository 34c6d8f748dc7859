import Verif.Algorithm.Props
/-!
# Property theorems for the writing algorithms (C04)

Each theorem gives the contents of *every* cell of the final memory, so "writes nothing else" is included.
-/
namespace Verif.Algorithm
open Verif

variable {α : Type u}

/-- Close a cell-by-cell equation between memories updated with `set`. -/
local macro "cells" : tactic => `(tactic| (
  simp only [List.getElem?_set, List.length_set]
  repeat' split
  all_goals first
    | rfl
    | omega
    | (congr 1; omega)
    | (subst_vars; simp_all; done)
    | grind))

/-- C04: `fill_n` sets exactly `[first, first+count)`. -/
theorem fill_n_effect (m : List α) (first count : Nat) (v : α) (h : first + count ≤ m.length) :
    ∃ m', fillN m first count v = some (m', first + count) ∧ m'.length = m.length ∧
      ∀ j, m'[j]? = if first ≤ j ∧ j < first + count then some v else m[j]? := by
  induction count generalizing m first with
  | zero => exact ⟨m, rfl, rfl, by grind⟩
  | succ c ih =>
    obtain ⟨m', h1, h2, h3⟩ := ih (m.set first v) (first + 1) (by simp; omega)
    refine ⟨m', ?_, by simpa using h2, ?_⟩
    · simp only [fillN, wr_lt (show first < m.length by omega), h1]; congr 2; omega
    · intro j; rw [h3]; grind

example : (fillN [1, 2, 3, 4] 1 2 9) = some ([1, 9, 9, 4], 3) := by decide

/-- C04: `fill` sets exactly `[first, last)`. -/
theorem fill_effect (m : List α) (first last : Nat) (v : α) (h1 : first ≤ last) (h : last ≤ m.length) :
    ∃ m', fill m first last v = some m' ∧ m'.length = m.length ∧
      ∀ j, m'[j]? = if first ≤ j ∧ j < last then some v else m[j]? := by
  fun_induction fill m first last v with
  | case1 => exact ⟨_, rfl, rfl, by grind⟩
  | case2 m first hne hlt ih =>
    obtain ⟨m', h1, h2, h3⟩ := ih (by omega) (by simpa using h)
    refine ⟨m', h1, by simpa using h2, ?_⟩
    intro j; rw [h3]; grind
  | case3 => omega

example : fill [1, 2, 3, 4] 1 3 9 = some [1, 9, 9, 4] := by decide +kernel

/-- C04: `copy` is a faithful copy unless the destination starts strictly inside the source, and writes
exactly the destination cells.  The destination may overlap the source from below. -/
theorem copy_effect (m : List α) (first last d : Nat) (h1 : first ≤ last) (h2 : last ≤ m.length)
    (h3 : d + (last - first) ≤ m.length) (hov : d ≤ first ∨ last ≤ d) :
    ∃ m', copy m first last d = some (m', d + (last - first)) ∧ m'.length = m.length ∧
      ∀ j, m'[j]? = if d ≤ j ∧ j < d + (last - first) then m[first + (j - d)]? else m[j]? := by
  fun_induction copy m first last d with
  | case1 => exact ⟨_, by simp, rfl, by grind⟩
  | case2 m first d hne hlt hd ih =>
    obtain ⟨m', e1, e2, e3⟩ := ih (by clear ih; omega) (by simpa using h2) (by clear ih; simp; omega)
      (by clear ih; omega)
    clear ih
    refine ⟨m', by rw [e1]; congr 2; omega, by simpa using e2, ?_⟩
    intro j; rw [e3]; clear e1 e2 e3
    cells
  | case3 => omega
  | case4 => omega

example : copy [1, 2, 3, 4, 5] 2 5 1 = some ([1, 3, 4, 5, 5], 4) := by decide +kernel

/-- C04: `copy_n` has the same effect on `count` cells. -/
theorem copy_n_effect (m : List α) (first count d : Nat) (h2 : first + count ≤ m.length)
    (h3 : d + count ≤ m.length) (hov : d ≤ first ∨ first + count ≤ d) :
    ∃ m', copyN m first count d = some (m', d + count) ∧ m'.length = m.length ∧
      ∀ j, m'[j]? = if d ≤ j ∧ j < d + count then m[first + (j - d)]? else m[j]? := by
  induction count generalizing m first d with
  | zero => exact ⟨m, rfl, rfl, by grind⟩
  | succ c ih =>
    obtain ⟨m', e1, e2, e3⟩ := ih (m.set d (m[first]'(by omega))) (first + 1) (d + 1) (by simp; omega)
      (by simp; omega) (by omega)
    refine ⟨m', ?_, by simpa using e2, ?_⟩
    · simp only [copyN, rd_lt (show first < m.length by omega), wr_lt (show d < m.length by omega), e1]
      congr 2; omega
    · intro j; rw [e3]; clear e1 e2 e3 ih
      cells

example : copyN [1, 2, 3, 0, 0] 0 2 3 = some ([1, 2, 3, 1, 2], 5) := by decide

/-- C04: `copy_backward`/`move_backward` copy faithfully whenever the destination *ends* outside the interior of
the source - in particular when it overlaps from above - and write exactly the destination cells. -/
theorem copy_backward_effect (m : List α) (first last d : Nat) (h1 : first ≤ last) (h2 : last ≤ m.length)
    (h3 : last - first ≤ d) (h4 : d ≤ m.length) (hov : last ≤ d ∨ d ≤ first) :
    ∃ m', copyBackward m first last d = some (m', d - (last - first)) ∧ m'.length = m.length ∧
      ∀ j, m'[j]? = if d - (last - first) ≤ j ∧ j < d then m[last - (d - j)]? else m[j]? := by
  induction hn : last - first generalizing m last d with
  | zero =>
    have : first = last := by omega
    subst this
    refine ⟨m, by unfold copyBackward; simp, rfl, by grind⟩
  | succ n ih =>
    obtain ⟨l, rfl⟩ : ∃ l, last = l + 1 := ⟨last - 1, by omega⟩
    obtain ⟨e, rfl⟩ : ∃ e, d = e + 1 := ⟨d - 1, by omega⟩
    obtain ⟨m', e1, e2, e3⟩ := ih (m.set e (m[l]'(by omega))) l e (by omega) (by simp; omega) (by omega)
      (by simp; omega) (by omega) (by omega)
    refine ⟨m', ?_, by simpa using e2, ?_⟩
    · unfold copyBackward
      rw [if_neg (by omega)]
      simp only [rd_lt (show l < m.length by omega), wr_lt (show e < m.length by omega), e1]
      congr 2; omega
    · intro j; rw [e3]; clear e1 e2 e3 ih
      cells

example : copyBackward [1, 2, 3, 0, 0] 0 3 4 = some ([1, 1, 2, 3, 0], 1) := by decide +kernel

theorem iterSwap_lt {m : List α} {a b : Nat} (ha : a < m.length) (hb : b < m.length) :
    iterSwap m a b = some ((m.set a m[b]).set b m[a]) := by
  unfold iterSwap
  rw [rd_lt ha, rd_lt hb]
  simp only [wr_lt ha]
  rw [wr_lt (by simpa using hb)]

/-- C04: `reverse` reverses the range in place and touches nothing else. -/
theorem reverse_effect (m : List α) (first last : Nat) (h1 : first ≤ last) (h2 : last ≤ m.length) :
    ∃ m', reverse m first last = some m' ∧ m'.length = m.length ∧
      ∀ j, m'[j]? = if first ≤ j ∧ j < last then m[first + (last - 1 - j)]? else m[j]? := by
  fun_induction reverse m first last with
  | case1 => exact ⟨_, rfl, rfl, by grind⟩
  | case2 => omega
  | case3 m l hne =>
    refine ⟨_, rfl, rfl, ?_⟩
    intro j
    split
    · congr 1; omega
    · rfl
  | case4 m first l hne2 hsw hne =>
    rw [iterSwap_lt (by omega) (by omega)] at hsw
    cases hsw
  | case5 m first l hne2 m1 hsw hne ih =>
    have hf : first < m.length := by clear ih hsw; clear m1; omega
    have hl : l < m.length := by clear ih hsw; clear m1; omega
    rw [iterSwap_lt hf hl] at hsw
    have hm1 := Option.some.inj hsw
    subst hm1
    obtain ⟨m', e1, e2, e3⟩ := ih (by omega) (by simp; omega)
    clear ih
    refine ⟨m', e1, by simpa using e2, ?_⟩
    intro j; rw [e3]; clear e1 e2 e3
    cells

/-- C04: list form of `reverse` on a whole buffer. -/
theorem reverse_list (l : List α) : reverse l 0 l.length = some l.reverse := by
  obtain ⟨m', e1, e2, e3⟩ := reverse_effect l 0 l.length (by omega) (by omega)
  rw [e1]; congr 1
  apply List.ext_getElem?
  intro j; rw [e3]
  by_cases hj : j < l.length
  · simp [hj]
  · simp [hj]

/-- C04: reversing a range twice restores the memory. -/
theorem reverse_reverse (m : List α) (first last : Nat) (h1 : first ≤ last) (h2 : last ≤ m.length) :
    (reverse m first last).bind (fun m' => reverse m' first last) = some m := by
  obtain ⟨m', e1, e2, e3⟩ := reverse_effect m first last h1 h2
  obtain ⟨m'', f1, f2, f3⟩ := reverse_effect m' first last h1 (by omega)
  rw [e1]; simp only [Option.bind_some, f1]; congr 1
  apply List.ext_getElem?
  intro j; rw [f3]
  split
  · rw [e3, if_pos (by omega)]; congr 1; omega
  · rw [e3, if_neg (by assumption)]

example : reverse [1, 2, 3, 4, 5] 1 4 = some [1, 4, 3, 2, 5] := by decide +kernel

end Verif.Algorithm
