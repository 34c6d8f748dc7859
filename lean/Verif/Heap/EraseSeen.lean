import Verif.Heap.Reader

/-!
# A priority queue that an interrupt handler looks at while an element is erased (C119)

`src/estd/internal/priority_queue.h:165-182`, `erase(reference v)`, as in `Verif.Heap.Reader`: the main program is interrupted
between any two stores.
-/
namespace Verif.Heap.Reader
open Verif Verif.Algorithm Verif.Heap Verif.Heap.Spec

universe u
variable {α : Type u}

/-! ## Model -/

/-- the stores of `heap::make`, algorithm/heap.h:163-174, for two children: those of `restore_down(i)` for `i` down to the
root -/
def makeStores (mix : Option (α → α → α)) (comp : α → α → Bool) (n : Nat) (m : List α) : Nat → Option (List (Nat × α))
  | 0 => downStores mix comp 2 n m 0
  | i + 1 =>
    match downStores mix comp 2 n m (i + 1) with
    | none => none
    | some l => (makeStores mix comp n (fill m l) i).map (l ++ ·)

/-- the stores of `erase(v)`, priority_queue.h:165-182, `v` the element at `i`: the last element over it, the size
(dynamic_array.h:586-603), then `make_heap`; a single element is undefined (the heap is made of none) -/
def eraseStores (mix : Option (α → α → α)) (comp : α → α → Bool) (q : Q α) (i : Nat) : Option (List (Store α)) :=
  if i < q.size ∧ 2 ≤ q.size then
    match rd q.cells (q.size - 1) with
    | none => none
    | some y => (makeStores mix comp (q.size - 1) (q.cells.set i y) ((q.size - 1 - 1) / 2)).map fun l =>
        .cell i y :: .size (q.size - 1) :: l.map fun w => .cell w.1 w.2
  else none

/-- a whole `erase`, priority_queue.h:165-182 -/
def erase (comp : α → α → Bool) (q : Q α) (i : Nat) : Option (Q α) :=
  if i < q.size ∧ 2 ≤ q.size then
    match rd q.cells (q.size - 1) with
    | none => none
    | some y => (makeHeap comp (q.cells.set i y) 0 (q.size - 1)).map fun m => ⟨m, q.size - 1⟩
  else none

/-! ## Specification -/

/-- the queues a program can make by pushing, popping and erasing -/
inductive Spec.Made (comp : α → α → Bool) : Q α → Prop
  | empty (m : List α) : Made comp ⟨m, 0⟩
  | push {q q' : Q α} (v : α) : Made comp q → push comp q v = some q' → Made comp q'
  | pop {q q' : Q α} : Made comp q → 0 < q.size → pop comp q = some q' → Made comp q'
  | erase {q q' : Q α} (i : Nat) : Made comp q → erase comp q i = some q' → Made comp q'

/-! ## The stores are the call -/

theorem make_whole (mix : Option (α → α → α)) (comp : α → α → Bool) (n : Nat) : ∀ (i : Nat) (m : List α),
    (makeStores mix comp n m i).map (fill m) = makeLoop comp 2 0 n m i := by
  intro i
  induction i with
  | zero =>
    intro m
    unfold makeStores makeLoop
    rw [down_whole mix comp 2 n (n - 0) 0 rfl m]
    cases restoreDown comp 2 0 n m 0 <;> rfl
  | succ i ih =>
    intro m
    unfold makeStores makeLoop
    have h := down_whole mix comp 2 n (n - (i + 1)) (i + 1) rfl m
    cases hd : downStores mix comp 2 n m (i + 1) with
    | none => rw [hd] at h; rw [← h]; rfl
    | some l =>
      rw [hd] at h
      rw [← h]
      simp only [Option.map_some]
      rw [← ih (fill m l), Option.map_map]
      congr 1
      funext l'
      simp [fill_append]

/-- All the stores of an erasure together are the erasure. -/
theorem erase_whole (mix : Option (α → α → α)) (comp : α → α → Bool) (q : Q α) (i : Nat) :
    (eraseStores mix comp q i).map (play q) = erase comp q i := by
  unfold eraseStores erase
  split
  · rename_i h
    cases rd q.cells (q.size - 1) with
    | none => rfl
    | some y =>
      dsimp only
      unfold makeHeap make
      rw [if_neg (by omega), Nat.sub_zero, ← make_whole mix, Option.map_map, Option.map_map]
      congr 1
      funext l
      simp only [Function.comp, play]
      rw [play_cells]
  · rfl

/-! ## The first element stays -/

/-- the first element is `t` and none of the first `n` belongs before it -/
def Top (comp : α → α → Bool) (t : α) (n : Nat) (m : List α) : Prop :=
  m[0]? = some t ∧ ∀ i y, i < n → m[i]? = some y → comp t y = false

theorem Top.swap {comp : α → α → Bool} {t : α} {n : Nat} {m : List α} (h : Top comp t n m) (mix : Option (α → α → α)) {a b : Nat}
    {x y : α} (ha : 0 < a) (hb : 0 < b) (han : a < n) (hbn : b < n) (hx : m[a]? = some x) (hy : m[b]? = some y) (hab : a ≠ b) :
    Top comp t n (fill m (swapStores mix a b x y)) := by
  have hf : fill m (swapStores mix a b x y) = (m.set a y).set b x := by
    have := iterSwap_fill mix (show rd m a = some x from hx) (show rd m b = some y from hy) hab
    have h2 := iterSwap_fill none (show rd m a = some x from hx) (show rd m b = some y from hy) hab
    rw [this] at h2
    exact Option.some.inj h2
  rw [hf]
  refine ⟨?_, ?_⟩
  · rw [List.getElem?_set_ne (by omega), List.getElem?_set_ne (by omega)]; exact h.1
  · intro i z hi hz
    by_cases h1 : i = b
    · subst h1
      rw [List.getElem?_set_self (by simp; exact (List.getElem?_eq_some_iff.mp hy).1)] at hz
      cases hz
      exact h.2 a x han hx
    · rw [List.getElem?_set_ne (fun e => h1 e.symm)] at hz
      by_cases h2 : i = a
      · subst h2
        rw [List.getElem?_set_self ((List.getElem?_eq_some_iff.mp hx).1)] at hz
        cases hz
        exact h.2 b y hbn hy
      · rw [List.getElem?_set_ne (fun e => h2 e.symm)] at hz
        exact h.2 i z hi hz

theorem down_top {comp : α → α → Bool} {t : α} (mix : Option (α → α → α)) (n : Nat) : ∀ (d cur : Nat), n - cur = d → ∀ (m : List α)
    (l : List (Nat × α)), Top comp t n m → downStores mix comp 2 n m cur = some l →
    (∀ w ∈ l, w.1 ≠ 0) ∧ Top comp t n (fill m l) := by
  intro d
  induction d using Nat.strongRecOn with
  | _ d ih =>
    intro cur hd m l ht h
    unfold downStores at h
    rw [dif_neg (by omega)] at h
    by_cases hl : n ≤ cur * 2 + 1
    · rw [dif_pos hl] at h
      cases h
      exact ⟨by simp, ht⟩
    rw [dif_neg hl] at h
    split at h
    · cases h
    · rename_i ch hc
      have hr := maxElement_range hc (by omega)
      cases hx : rd m cur with
      | none => rw [hx] at h; cases h
      | some x =>
        cases hy : rd m ch with
        | none => rw [hx, hy] at h; cases h
        | some y =>
          rw [hx, hy] at h
          dsimp only at h
          split at h
          · rename_i hxy
            have hcur : 0 < cur := by
              rcases Nat.eq_zero_or_pos cur with h0 | h0
              · subst h0
                have e1 := ht.1
                rw [show m[0]? = some x from hx] at e1
                cases e1
                rw [ht.2 ch y (by omega) hy] at hxy
                cases hxy
              · exact h0
            cases hd2 : downStores mix comp 2 n (fill m (swapStores mix ch cur y x)) ch with
            | none => rw [hd2] at h; cases h
            | some l' =>
              rw [hd2] at h
              cases h
              obtain ⟨i1, i2⟩ := ih (n - ch) (by omega) ch rfl _ l'
                (ht.swap mix (by omega) hcur (by omega) (by omega) hy hx (by omega)) hd2
              refine ⟨?_, by rw [fill_append]; exact i2⟩
              intro w hw
              rcases List.mem_append.mp hw with hw | hw
              · have : w.1 = ch ∨ w.1 = cur := by
                  cases mix <;> simp only [swapStores, List.mem_cons, List.not_mem_nil, or_false] at hw <;>
                    rcases hw with rfl | rfl | rfl <;> simp
                omega
              · exact i1 w hw
          · cases h
            exact ⟨by simp, ht⟩

theorem make_top {comp : α → α → Bool} {t : α} (mix : Option (α → α → α)) (n : Nat) : ∀ (i : Nat) (m : List α)
    (l : List (Nat × α)), Top comp t n m → makeStores mix comp n m i = some l → ∀ w ∈ l, w.1 ≠ 0 := by
  intro i
  induction i with
  | zero => intro m l ht h; exact (down_top mix n (n - 0) 0 rfl m l ht h).1
  | succ i ih =>
    intro m l ht h
    unfold makeStores at h
    cases hd : downStores mix comp 2 n m (i + 1) with
    | none => rw [hd] at h; cases h
    | some l1 =>
      rw [hd] at h
      dsimp only at h
      cases hm : makeStores mix comp n (fill m l1) i with
      | none => rw [hm] at h; cases h
      | some l2 =>
        rw [hm] at h
        cases h
        obtain ⟨e1, e2⟩ := down_top mix n (n - (i + 1)) (i + 1) rfl m l1 ht hd
        intro w hw
        rcases List.mem_append.mp hw with hw | hw
        · exact e1 w hw
        · exact ih _ l2 e2 hm w hw

theorem fill_first (l : List (Nat × α)) : ∀ m : List α, (∀ w ∈ l, w.1 ≠ 0) → (fill m l)[0]? = m[0]? := by
  induction l with
  | nil => intro m _; rfl
  | cons w l ih =>
    intro m h
    rw [fill, ih _ (fun x hx => h x (by simp [hx])), List.getElem?_set_ne (h w (by simp))]

/-! ## Queues that are made are heaps -/

theorem Made.inv {comp : α → α → Bool} (hs : StrictWeak comp) {q : Q α} (h : Spec.Made comp q) :
    q.size ≤ q.cells.length ∧ IsHeap comp 2 0 q.size q.cells := by
  induction h with
  | empty m => exact ⟨by simp, fun i x y _ hi => by simp at hi⟩
  | push v _ hp ih => exact run_inv hs [.push v] _ _ ih.1 ih.2 (by simp [run, hp])
  | pop _ _ hp ih => exact run_inv hs [.pop] _ _ ih.1 ih.2 (by simp [run, hp])
  | @erase q q' i _ he ih =>
    unfold erase at he
    split at he
    · rename_i hi
      cases hy : rd q.cells (q.size - 1) with
      | none => rw [hy] at he; cases he
      | some y =>
        rw [hy] at he
        dsimp only at he
        obtain ⟨m', e1, e2, e3⟩ := make_heap_spec hs (q.cells.set i y) 0 (q.size - 1) 2 (by omega) (by omega) (by
          have := ih.1; simp; omega)
        rw [e1] at he
        cases he
        refine ⟨?_, by simpa using e2⟩
        have := e3.length
        simp only [List.length_set] at this
        have := ih.1
        dsimp only
        omega
    · cases he

/-! ## What a handler sees -/

/-- **C119.** While an element other than the one in front is erased, a handler is shown the top element all the time, which is
the top before and after the call, and the size from before or after. -/
theorem erase_seen {mix : Option (α → α → α)} {comp : α → α → Bool} (hs : StrictWeak comp) {q q' : Q α} {i : Nat} {l : List (Store α)}
    (hq : Spec.Made comp q) (hi : 0 < i) (hl : eraseStores mix comp q i = some l) (h : erase comp q i = some q') (j : Nat) :
    Spec.peek (Spec.during q l j) = Spec.peek q ∧ Spec.peek q' = Spec.peek q ∧
    ((Spec.during q l j).size = q.size ∨ (Spec.during q l j).size = q'.size) := by
  have hinv := Made.inv hs hq
  have hw := erase_whole mix comp q i
  rw [hl, h, Option.map_some, Option.some.injEq] at hw
  unfold eraseStores at hl
  split at hl
  · rename_i hsz
    cases hy : rd q.cells (q.size - 1) with
    | none => rw [hy] at hl; cases hl
    | some y =>
      rw [hy] at hl
      dsimp only at hl
      cases hm : makeStores mix comp (q.size - 1) (q.cells.set i y) ((q.size - 1 - 1) / 2) with
      | none => rw [hm] at hl; cases hl
      | some ws =>
        rw [hm] at hl
        cases hl
        have hlt : 0 < q.cells.length := by have := hinv.1; omega
        have hroot : ∀ k z, k < q.size → q.cells[k]? = some z → comp q.cells[0] z = false := by
          intro k z hk hz
          exact heap_root_extremal hs (f := 0) (by have := hinv.1; omega) hinv.2 k hk _ z (by simp [hlt]) (by simpa using hz)
        have ht : Top comp q.cells[0] (q.size - 1) (q.cells.set i y) := by
          refine ⟨by rw [List.getElem?_set_ne (by omega)]; simp [hlt], ?_⟩
          intro k z hk hz
          by_cases hki : k = i
          · subst hki
            rw [List.getElem?_set_self (by have := hinv.1; omega)] at hz
            cases hz
            exact hroot _ _ (by omega) hy
          · rw [List.getElem?_set_ne (fun e => hki e.symm)] at hz
            exact hroot _ _ (by omega) hz
        have hne := make_top mix (q.size - 1) _ _ ws ht hm
        have key : ∀ j, (Spec.during q (.cell i y :: .size (q.size - 1) :: ws.map fun w => Store.cell w.1 w.2) j).cells[0]? =
            q.cells[0]? ∧ ((Spec.during q (.cell i y :: .size (q.size - 1) :: ws.map fun w => Store.cell w.1 w.2) j).size = q.size ∨
            (Spec.during q (.cell i y :: .size (q.size - 1) :: ws.map fun w => Store.cell w.1 w.2) j).size = q.size - 1) := by
          intro j
          rcases j with _ | _ | j
          · exact ⟨rfl, .inl rfl⟩
          · exact ⟨by simp only [Spec.during, List.take_succ_cons, List.take_zero, play]; exact List.getElem?_set_ne (by omega), .inl rfl⟩
          · simp only [Spec.during, List.take_succ_cons, play, ← List.map_take]
            rw [play_cells]
            refine ⟨?_, .inr rfl⟩
            dsimp only
            rw [fill_first _ _ (fun w hw => hne w (List.mem_of_mem_take hw)), List.getElem?_set_ne (by omega)]
        have peek_eq : ∀ p : Q α, p.cells[0]? = q.cells[0]? → (p.size = q.size ∨ p.size = q.size - 1) → Spec.peek p = Spec.peek q := by
          intro p h1 h2
          unfold Spec.peek
          rw [if_neg (by omega), if_neg (by omega), h1]
        have hend := key (ws.length + 2)
        have hdur : Spec.during q (.cell i y :: .size (q.size - 1) :: ws.map fun w => Store.cell w.1 w.2) (ws.length + 2) = q' := by
          rw [← hw]
          unfold Spec.during
          rw [List.take_of_length_le (by simp)]
        have hsize : q'.size = q.size - 1 := by
          rw [← hw]; simp only [play]; rw [play_cells]
        rw [hdur] at hend
        exact ⟨peek_eq _ (key j).1 (key j).2, peek_eq _ hend.1 hend.2, by rw [hsize]; exact (key j).2⟩
  · cases hl

/-- **Violation.** While the element in front is erased, a handler is shown the last element of the heap as the top, from the first
store on. -/
theorem erase_top_shows_last {mix : Option (α → α → α)} {comp : α → α → Bool} {q : Q α} {l : List (Store α)}
    (hl : eraseStores mix comp q 0 = some l) (hc : 0 < q.cells.length) :
    Spec.peek (Spec.during q l 1) = q.cells[q.size - 1]? := by
  unfold eraseStores at hl
  split at hl
  · rename_i hsz
    cases hy : rd q.cells (q.size - 1) with
    | none => rw [hy] at hl; cases hl
    | some y =>
      rw [hy] at hl
      dsimp only at hl
      cases hm : makeStores mix comp (q.size - 1) (q.cells.set 0 y) ((q.size - 1 - 1) / 2) with
      | none => rw [hm] at hl; cases hl
      | some ws =>
        rw [hm] at hl
        cases hl
        simp only [Spec.during, List.take_succ_cons, List.take_zero, play, Spec.peek]
        rw [if_neg (by omega), List.getElem?_set_self hc]
        exact hy.symm
  · cases hl

/-- erasing 9 from 12, 9, 10, 3: a handler is shown 12 throughout; erasing 12, it is shown 3 although 10 comes next -/
example : Spec.Made lt exQ ∧ (∃ l, eraseStores none lt exQ 1 = some l ∧ (erase lt exQ 1).map (·.cells) = some [12, 3, 10, 3, 77]) ∧
    (∃ l, eraseStores none lt exQ 0 = some l ∧ (erase lt exQ 0).map (·.cells) = some [10, 9, 3, 3, 77] ∧
      Spec.peek (Spec.during exQ l 1) = some 3) := by
  refine ⟨?_, ⟨[.cell 1 3, .size 3], by decide +kernel, by decide +kernel⟩,
    ⟨[.cell 0 3, .size 3, .cell 2 3, .cell 0 10], by decide +kernel, by decide +kernel, by decide +kernel⟩⟩
  have h1 : Spec.Made lt ⟨[12, 77, 77, 77, 77], 1⟩ := .push 12 (.empty [77, 77, 77, 77, 77]) (by decide +kernel)
  have h2 : Spec.Made lt ⟨[12, 9, 77, 77, 77], 2⟩ := .push 9 h1 (by decide +kernel)
  have h3 : Spec.Made lt ⟨[12, 9, 10, 77, 77], 3⟩ := .push 10 h2 (by decide +kernel)
  exact .push 3 h3 (by decide +kernel)

end Verif.Heap.Reader
