import Verif.Heap.PriorityQueue
/-!
# C123: a callback of `emplace_with_notify` that uses the queue itself

`src/estd/internal/priority_queue.h:148-156`: the new element is the last of the container when the callback gets it, and is
moved to its place only afterwards.  The callback may change the element, then push others, or look at or remove the top.
-/
namespace Verif.PriorityQueue.Reentrant
open Verif Verif.Heap Verif.Heap.Spec Verif.Algorithm Verif.PriorityQueue

variable {α : Type u}

/-- what a callback does with the queue -/
inductive Act (α : Type u) where
  | push (w : α)
  | pop
  deriving DecidableEq, Repr

/-- what the callback does, one call after the other: `push`, priority_queue.h:99-110, `pop`, 125-129; with what `top()` said
before each `pop` -/
def acts (comp : α → α → Bool) (cap : Nat) : List (Act α) → List α → Option (List α × List α)
  | [], c => some (c, [])
  | .push w :: as, c => (push comp cap c w).bind fun c' => acts comp cap as c'
  | .pop :: as, c => (top c).bind fun t => (pop comp c).bind fun c' => (acts comp cap as c').map fun r => (r.1, t :: r.2)

/-- `emplace_with_notify(f, v)`, priority_queue.h:148-156, where `f` leaves `f v` in the element and then does `as`:
`c.emplace_back`, the callback, and `push_heap(c.begin(), c.end())` of what is there by then.  The second component is what
the callback took. -/
def notify (comp : α → α → Bool) (cap : Nat) (c : List α) (v : α) (f : α → α) (as : List (Act α)) : Option (List α × List α) :=
  if c.length < cap then
    (acts comp cap as (c ++ [f v])).bind fun r => (pushHeap comp r.1 0 r.1.length).map fun c' => (c', r.2)
  else none

/-! ## Specification -/

/-- how many elements a callback may add and must find, starting from `n` -/
def Spec.Fits (cap : Nat) : List (Act α) → Nat → Prop
  | [], n => 0 < n
  | .push _ :: as, n => n < cap ∧ Spec.Fits cap as (n + 1)
  | .pop :: as, n => 0 < n ∧ Spec.Fits cap as (n - 1)

/-- what the callback adds -/
def Spec.added : List (Act α) → List α
  | [] => []
  | .push w :: as => w :: Spec.added as
  | .pop :: as => Spec.added as

/-! ## Proofs -/

theorem inv_append {comp : α → α → Bool} (c : List α) (v : α) (hi : Inv comp c) (hv : ∀ x ∈ c, comp x v = false) :
    Inv comp (c ++ [v]) := by
  intro i x y h0 h1 hx hy
  simp only [Nat.zero_add, List.length_append, List.length_singleton] at h1 hx hy
  have hp := parent_lt (k := 2) h0
  rw [List.getElem?_append_left (by omega)] at hx
  by_cases h : i < c.length
  · rw [List.getElem?_append_left h] at hy
    exact hi i x y h0 h (by simpa using hx) (by simpa using hy)
  · have : i = c.length := by omega
    subst this
    simp at hy
    subst hy
    exact hv x (List.mem_of_getElem? hx)

theorem acts_spec {comp : α → α → Bool} (hs : StrictWeak comp) (cap : Nat) :
    ∀ (as : List (Act α)) (c : List α), Inv comp c → Spec.Fits cap as c.length →
      ∃ c' out, acts comp cap as c = some (c', out) ∧ Inv comp c' ∧ (out ++ c').Perm (Spec.added as ++ c) ∧ 0 < c'.length := by
  intro as
  induction as with
  | nil => intro c hi h; exact ⟨c, [], rfl, hi, by simp [Spec.added], h⟩
  | cons a as ih =>
    intro c hi h
    cases a with
    | push w =>
      obtain ⟨c1, e1, e2, e3⟩ := push_spec hs cap c w hi h.1
      obtain ⟨c', out, a1, a2, a3, a4⟩ := ih c1 e2 (by rw [e3.length_eq]; exact h.2)
      refine ⟨c', out, by simp [acts, e1, a1], a2, a3.trans ?_, a4⟩
      show (Spec.added as ++ c1).Perm (w :: Spec.added as ++ c)
      exact (e3.append_left _).trans (by simpa using List.perm_middle)
    | pop =>
      have hne : c ≠ [] := by have := h.1; intro h; simp [h] at this
      obtain ⟨t, c1, e0, e1, e2, e3, -⟩ := pop_spec hs c hi hne
      have hl := e3.length_eq
      simp only [List.length_cons] at hl
      obtain ⟨c', out, a1, a2, a3, a4⟩ := ih c1 e2 (by have := h.2; rw [hl] at this; simpa using this)
      refine ⟨c', t :: out, by simp [acts, e0, e1, a1], a2, ?_, a4⟩
      show (t :: (out ++ c')).Perm (Spec.added as ++ c)
      exact (a3.cons t).trans (List.perm_middle.symm.trans (e3.symm.append_left _))

/-- **A callback that uses the queue (partial).**  If the new element comes before none of those held (so that it stays the
last), the callback may push and pop as it likes, as long as there is room and the queue does not become empty: afterwards
what the callback took and what is held are together what was held, the new element and what the callback added, and `top()`
is again an element that comes after no other.  Missing: a new element that comes before others (`notify_push_loses_order`). -/
theorem notify_partial {comp : α → α → Bool} (hs : StrictWeak comp) (cap : Nat) (c : List α) (v : α) (f : α → α) (as : List (Act α))
    (hi : Inv comp c) (hc : c.length < cap) (hv : ∀ x ∈ c, comp x (f v) = false) (hf : Spec.Fits cap as (c.length + 1)) :
    ∃ c' out, notify comp cap c v f as = some (c', out) ∧ Inv comp c' ∧ (out ++ c').Perm (Spec.added as ++ (f v :: c)) ∧
      ∃ t, top c' = some t ∧ t ∈ c' ∧ ∀ x ∈ c', comp t x = false := by
  obtain ⟨c1, out, e1, e2, e3, e4⟩ := acts_spec hs cap as (c ++ [f v]) (inv_append c (f v) hi hv) (by simpa using hf)
  obtain ⟨c', a1, a2, a3⟩ := push_heap_spec hs c1 0 c1.length e4 (Nat.le_refl _)
    (fun i x y h0 h1 hx hy => e2 i x y h0 (by omega) hx hy)
  have hp : c'.Perm c1 := rearranged_perm a3 (by simp)
  have hi' : Inv comp c' := by unfold Inv; rw [hp.length_eq]; simpa using a2
  refine ⟨c', out, by simp [notify, hc, e1, a1], hi', ?_, top_extremal hs c' hi' ?_⟩
  · refine (hp.append_left out).trans (e3.trans ?_)
    exact List.Perm.append_left _ List.perm_append_comm
  · intro h; rw [h] at hp; have := hp.length_eq; simp at this; omega

example : notify (fun a b : Nat => decide (a < b)) 8 [9, 7, 8] 4 (· + 1) [.push 20, .pop, .push 3] = some ([9, 7, 8, 5, 3], [20]) := by
  decide +kernel

theorem iterSwap_eq {m m1 : List α} {a b : Nat} {x y : α} (ha : rd m a = some x) (hb : rd m b = some y)
    (h : iterSwap m a b = some m1) : m1 = (m.set a y).set b x := by
  have hal : a < m.length := (List.getElem?_eq_some_iff.mp ha).1
  have hbl : b < m.length := (List.getElem?_eq_some_iff.mp hb).1
  unfold iterSwap at h
  rw [ha, hb] at h
  simpa [wr, hal, hbl, eq_comm] using h

theorem pushHeap_loop {comp : α → α → Bool} {m m' : List α} (hl : 0 < m.length) (h : pushHeap comp m 0 m.length = some m') :
    ∃ cur, upLoop comp 2 0 m (m.length - 1) = some (m', cur) := by
  unfold pushHeap restoreUp at h
  rw [if_neg (by omega), Nat.sub_zero] at h
  cases e : upLoop comp 2 0 m (m.length - 1) with
  | none => rw [e] at h; simp at h
  | some r =>
    rw [e] at h
    simp only [Option.map_some, Option.some.injEq] at h
    exact ⟨r.2, by rw [← h]⟩

theorem upLoop_perm {comp : α → α → Bool} (m : List α) (k : Nat) :
    ∀ (m1 : List α) (cur : Nat), upLoop comp 2 0 m k = some (m1, cur) → m1.Perm m := by
  fun_induction upLoop comp 2 0 m k with
  | case1 m => intro m1 cur h; cases h; exact List.Perm.refl _
  | case2 => intro m1 cur h; cases h
  | case3 => intro m1 cur h; cases h
  | case4 m k h0 hk p c hc hp hcm m2 hsw ih =>
    intro m1 cur h
    have hpl := (List.getElem?_eq_some_iff.mp hp)
    have hkl := (List.getElem?_eq_some_iff.mp hc)
    refine (ih m1 cur h).trans ?_
    have hr := rearranged_swap (m := m) (f := 0) (n := m.length) (a := k) (b := (k - 1) / 2) (by omega)
      (by have := hkl.1; omega) (by have := hpl.1; omega)
    rw [iterSwap_eq hc hp hsw, ← hpl.2, ← hkl.2]
    exact rearranged_perm hr rfl
  | case5 => intro m1 cur h; cases h; exact List.Perm.refl _
  | case6 => intro m1 cur h; cases h

theorem upLoop_some {comp : α → α → Bool} (m : List α) (k : Nat) (h : k < m.length) : ∃ r, upLoop comp 2 0 m k = some r := by
  fun_induction upLoop comp 2 0 m k with
  | case1 m => exact ⟨_, rfl⟩
  | case2 => omega
  | case3 m k h0 hk p c hc hp hcm hsw =>
    have hpl := (List.getElem?_eq_some_iff.mp hp).1
    have hkl := (List.getElem?_eq_some_iff.mp hc).1
    unfold iterSwap at hsw
    rw [hc, hp] at hsw
    simp only [Nat.zero_add] at hpl hkl
    simp [wr, hpl, hkl] at hsw
  | case4 m k h0 hk p c hc hp hcm m2 hsw ih =>
    refine ih ?_
    rw [iterSwap_eq hc hp hsw]
    simp only [List.length_set]
    omega
  | case5 => exact ⟨_, rfl⟩
  | case6 m k h0 hk x =>
    have hpl : (k - 1) / 2 < m.length := by omega
    exact absurd (x _ _ (rd_lt (by omega : 0 + (k - 1) / 2 < m.length)) (rd_lt (by omega : 0 + k < m.length))) id

theorem pushHeap_some {comp : α → α → Bool} (m : List α) (hl : 0 < m.length) : ∃ m', pushHeap comp m 0 m.length = some m' := by
  obtain ⟨r, e⟩ := upLoop_some (comp := comp) m (m.length - 1) (by omega)
  unfold pushHeap restoreUp
  rw [if_neg (by omega), Nat.sub_zero, e]
  exact ⟨_, rfl⟩

/-- the way up from `cur` leaves alone the cells between `cur` and its parent -/
theorem upLoop_between {comp : α → α → Bool} (k f : Nat) (m : List α) (cur : Nat) :
    ∀ (m' : List α) (r : Nat), upLoop comp k f m cur = some (m', r) →
      ∀ j, (cur - 1) / k < j → j ≠ cur → m'[f + j]? = m[f + j]? := by
  fun_induction upLoop comp k f m cur with
  | case1 m => intro m' r h j _ _; cases h; rfl
  | case2 => intro m' r h; cases h
  | case3 => intro m' r h; cases h
  | case4 m cur h0 hk p c hp hc hcm m1 hsw ih =>
    intro m' r h j hj hne
    have hpar : (cur - 1) / k < cur := parent_lt (by omega)
    have hgrand : ((cur - 1) / k - 1) / k ≤ (cur - 1) / k := Nat.le_trans (Nat.div_le_self _ _) (Nat.sub_le _ _)
    rw [ih m' r h j (by omega) (by omega)]
    have hm1 := iterSwap_eq hp hc hsw
    rw [hm1, List.getElem?_set_ne (by omega), List.getElem?_set_ne (by omega)]
  | case5 => intro m' r h j _ _; cases h; rfl
  | case6 => intro m' r h; cases h

theorem pushHeap_second_last {comp : α → α → Bool} (m m' : List α) (n : Nat) (hn : 0 < n) (hl : m.length = n + 2)
    (h : pushHeap comp m 0 m.length = some m') : m'[n]? = m[n]? := by
  obtain ⟨cur, e⟩ := pushHeap_loop (by omega) h
  have := upLoop_between 2 0 m (m.length - 1) m' cur e n (by omega) (by omega)
  simpa using this

/-- **Violation.**  A callback that pushes while its own element has still to be moved up: whatever queue of at least one
element, whatever new element that comes before all of them, and whatever element the callback pushes that it comes before
too, the new element stays where it was put, at the end but one: `top()` is another element, which the new one comes before. -/
theorem notify_push_loses_order {comp : α → α → Bool} (cap : Nat) (c : List α) (v : α) (f : α → α) (w : α)
    (hne : c ≠ []) (hc : c.length + 1 < cap) (hv : ∀ x ∈ c, comp x (f v) = true) (hw : comp w (f v) = true) :
    ∃ c', notify comp cap c v f [.push w] = some (c', []) ∧ c'.Perm (w :: f v :: c) ∧ c'[c.length]? = some (f v) ∧
      ∃ t, top c' = some t ∧ comp t (f v) = true := by
  have hpos : 0 < c.length := List.length_pos_iff.mpr hne
  have perm_push : ∀ m m' : List α, pushHeap comp m 0 m.length = some m' → 0 < m.length → m'.Perm m := by
    intro m m' h hl
    obtain ⟨cur, e⟩ := pushHeap_loop hl h
    exact upLoop_perm m _ m' cur e
  obtain ⟨c1, e1'⟩ := pushHeap_some (comp := comp) (c ++ [f v] ++ [w]) (by simp)
  have p1 := perm_push _ _ e1' (by simp)
  have l1 : c1.length = c.length + 2 := by rw [p1.length_eq]; simp
  obtain ⟨c2, e2⟩ := pushHeap_some (comp := comp) c1 (by omega)
  have p2 := perm_push _ _ e2 (by omega)
  have g1 := pushHeap_second_last _ _ c.length hpos (by simp) e1'
  have g2 := pushHeap_second_last _ _ c.length hpos l1 e2
  have hfv : c2[c.length]? = some (f v) := by
    rw [g2, g1, List.append_assoc, List.getElem?_append_right (Nat.le_refl _)]; simp
  have hp : c2.Perm (w :: f v :: c) := by
    refine (p2.trans p1).trans ?_
    refine (List.perm_append_comm).trans ?_
    simpa using List.perm_append_comm
  refine ⟨c2, ?_, hp, hfv, ?_⟩
  · simp only [notify, acts, push]
    rw [if_pos (by omega), if_pos (by simp; omega), show (c ++ [f v]).length + 1 = (c ++ [f v] ++ [w]).length by simp, e1']
    simp [e2]
  have l2 : c2.length = c.length + 2 := by rw [p2.length_eq, l1]
  have hz : (0 : Nat) < c2.length := by omega
  refine ⟨c2[0], rd_lt hz, ?_⟩
  -- the cells other than the one of the new element hold what the new element comes before
  have hsplit : c2 = c2.take c.length ++ f v :: c2.drop (c.length + 1) := by
    have hlt : c.length < c2.length := by omega
    have hg : c2[c.length] = f v := by
      have := hfv; rw [List.getElem?_eq_getElem hlt] at this; simpa using this
    rw [← hg, List.getElem_cons_drop, List.take_append_drop]
  have hrest : (c2.take c.length ++ c2.drop (c.length + 1)).Perm (w :: c) := by
    have h1 : (f v :: (c2.take c.length ++ c2.drop (c.length + 1))).Perm c2 := by
      conv => rhs; rw [hsplit]
      exact List.perm_middle.symm
    have h2 : (w :: f v :: c).Perm (f v :: w :: c) := List.Perm.swap _ _ _
    exact (List.perm_cons (f v)).mp (h1.trans (hp.trans h2))
  have hmem : c2[0] ∈ c2.take c.length := by
    have : c2[0] = (c2.take c.length)[0]'(by simp; omega) := by simp
    rw [this]; exact List.getElem_mem _
  have hm := hrest.mem_iff.mp (List.mem_append_left _ hmem)
  rcases List.mem_cons.mp hm with e | hm
  · rw [e]; exact hw
  · exact hv _ hm

/-- 9 is in the queue, but `top()` says 5 -/
example : notify (fun a b : Nat => decide (a < b)) 8 [5, 4] 9 id [.push 1] = some ([5, 4, 9, 1], []) := by decide +kernel

end Verif.PriorityQueue.Reentrant
