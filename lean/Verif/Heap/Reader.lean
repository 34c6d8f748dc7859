import Verif.Heap.PriorityQueue

/-!
# A priority queue that an interrupt handler looks at while it is edited (C119)

`src/estd/internal/priority_queue.h` takes no lock.  The main program pushes and pops; an interrupt handler calls `size`,
`empty` and `top` between any two stores of such a call.  One core, stores are not reordered, an element is stored with one
store.  Elements are those of a fixed-capacity vector with its size in a member (as in `Verif.DynArray.Handler`).
-/
namespace Verif.Heap.Reader
open Verif Verif.Algorithm Verif.Heap Verif.Heap.Spec

universe u
variable {α : Type u}

/-! ## Model -/

/-- the vector `c` of a queue, priority_queue.h:44: the memory of its elements and the stored size -/
structure Q (α : Type u) where
  cells : List α
  size : Nat
  deriving DecidableEq, Repr

/-- a store to an element or to the size -/
inductive Store (α : Type u) where
  | cell (i : Nat) (x : α)
  | size (n : Nat)
  deriving DecidableEq, Repr

/-- making stores to elements, priority_queue.h:44 -/
def fill (m : List α) : List (Nat × α) → List α
  | [] => m
  | w :: ws => fill (m.set w.1 w.2) ws

/-- making stores, priority_queue.h:44 -/
def play (q : Q α) : List (Store α) → Q α
  | [] => q
  | .cell i x :: ws => play { q with cells := q.cells.set i x } ws
  | .size n :: ws => play { q with size := n } ws

/-- the stores of `swap` of two different elements holding `x` and `y`, utility.h:182-191; with `mix` those of `xor_swap`,
utility.h:195-201, which integers use (`mix` is the exclusive or; what the second and third operator compute is simplified
to the value they leave) -/
def swapStores (mix : Option (α → α → α)) (a b : Nat) (x y : α) : List (Nat × α) :=
  match mix with
  | none => [(a, y), (b, x)]
  | some f => [(a, f x y), (b, x), (a, y)]

/-- the stores of the loop of `restore_up`, algorithm/heap.h:66-85 with `k` children and `first_` = 0, after those of
`upLoop` -/
def upStores (mix : Option (α → α → α)) (comp : α → α → Bool) (k : Nat) (m : List α) (cur : Nat) :
    Option (List (Nat × α)) :=
  if _h0 : cur = 0 then some []
  else if k = 0 then none
  else
    match rd m ((cur - 1) / k), rd m cur with
    | some p, some c =>
      if comp p c then
        (upStores mix comp k (fill m (swapStores mix cur ((cur - 1) / k) c p)) ((cur - 1) / k)).map
          (swapStores mix cur ((cur - 1) / k) c p ++ ·)
      else some []
    | _, _ => none
termination_by cur
decreasing_by
  have := Nat.div_le_self (cur - 1) k
  omega

/-- the stores of `restore_down`, algorithm/heap.h:96-125 with `first_` = 0, after those of `restoreDown` -/
def downStores (mix : Option (α → α → α)) (comp : α → α → Bool) (k n : Nat) (m : List α) (cur : Nat) :
    Option (List (Nat × α)) :=
  if hk : k = 0 then none
  else if hl : n ≤ cur * k + 1 then some []
  else
    match hc : maxElement comp m (cur * k + 1) (min (cur * k + 1 + k) n) with
    | none => none
    | some ch =>
      match rd m cur, rd m ch with
      | some x, some y =>
        if comp x y then
          (downStores mix comp k n (fill m (swapStores mix ch cur y x)) ch).map (swapStores mix ch cur y x ++ ·)
        else some []
      | _, _ => none
termination_by n - cur
decreasing_by
  have hr := maxElement_range hc (by omega)
  have : cur ≤ cur * k := Nat.le_mul_of_pos_right cur (by omega)
  omega

/-- the stores of `push`, priority_queue.h:99-110: the size (dynamic_array.h:435), the element (dynamic_array.h:475), then
`push_heap`, algorithm/heap.h:191-196; a full vector is undefined -/
def pushStores (mix : Option (α → α → α)) (comp : α → α → Bool) (q : Q α) (v : α) : Option (List (Store α)) :=
  if q.size < q.cells.length then
    (upStores mix comp 2 (q.cells.set q.size v) q.size).map fun l =>
      .size (q.size + 1) :: .cell q.size v :: l.map fun w => .cell w.1 w.2
  else none

/-- the stores of `pop`, priority_queue.h:125-129: `pop_heap` (algorithm/heap.h:135-139), then the size
(dynamic_array.h:586-603); for at least two elements -/
def popStores (mix : Option (α → α → α)) (comp : α → α → Bool) (q : Q α) : Option (List (Store α)) :=
  match rd q.cells 0, rd q.cells (q.size - 1) with
  | some x, some y =>
    (downStores mix comp 2 (q.size - 1) (fill q.cells (swapStores mix 0 (q.size - 1) x y)) 0).map fun l =>
      ((swapStores mix 0 (q.size - 1) x y ++ l).map fun w => .cell w.1 w.2) ++ [.size (q.size - 1)]
  | _, _ => none

/-- a whole `push`, priority_queue.h:99-110 -/
def push (comp : α → α → Bool) (q : Q α) (v : α) : Option (Q α) :=
  if q.size < q.cells.length then
    (pushHeap comp (q.cells.set q.size v) 0 (q.size + 1)).map fun m => ⟨m, q.size + 1⟩
  else none

/-- a whole `pop`, priority_queue.h:125-129 -/
def pop (comp : α → α → Bool) (q : Q α) : Option (Q α) :=
  (popHeap comp q.cells 0 q.size).map fun m => ⟨m, q.size - 1⟩

/-- calls of the main program -/
inductive Op (α : Type u) where
  | push (v : α)
  | pop

/-- the main program on its own, priority_queue.h:99-129 -/
def run (comp : α → α → Bool) (q : Q α) : List (Op α) → Option (Q α)
  | [] => some q
  | .push v :: os => (push comp q v).bind fun q' => run comp q' os
  | .pop :: os => (pop comp q).bind fun q' => run comp q' os

/-! ## Specification -/

/-- what a handler learns that asks `empty()` and, if there is something, `top()`, priority_queue.h:87-97 -/
def Spec.peek (q : Q α) : Option α := if q.size = 0 then none else q.cells[0]?

/-- the queue as a handler finds it after `j` of the stores -/
def Spec.during (q : Q α) (l : List (Store α)) (j : Nat) : Q α := play q (l.take j)

/-- a queue some calls lead to -/
def Spec.Reach (comp : α → α → Bool) (q : Q α) : Prop := ∃ m ops, run comp ⟨m, 0⟩ ops = some q

/-! ## The stores are the calls -/

theorem fill_append (m : List α) (a b : List (Nat × α)) : fill m (a ++ b) = fill (fill m a) b := by
  induction a generalizing m with
  | nil => rfl
  | cons w ws ih => exact ih _

theorem fill_length (m : List α) (l : List (Nat × α)) : (fill m l).length = m.length := by
  induction l generalizing m with
  | nil => rfl
  | cons w ws ih => rw [fill, ih, List.length_set]

theorem play_append (q : Q α) (a b : List (Store α)) : play q (a ++ b) = play (play q a) b := by
  induction a generalizing q with
  | nil => rfl
  | cons w ws ih => cases w <;> exact ih _

theorem play_cells (q : Q α) (l : List (Nat × α)) :
    play q (l.map fun w => .cell w.1 w.2) = ⟨fill q.cells l, q.size⟩ := by
  induction l generalizing q with
  | nil => rfl
  | cons w ws ih => rw [List.map_cons, play, ih]; rfl

theorem iterSwap_fill (mix : Option (α → α → α)) {m : List α} {a b : Nat} {x y : α} (hx : rd m a = some x)
    (hy : rd m b = some y) (hab : a ≠ b) : iterSwap m a b = some (fill m (swapStores mix a b x y)) := by
  have ha : a < m.length := (List.getElem?_eq_some_iff.mp hx).1
  have hb : b < m.length := (List.getElem?_eq_some_iff.mp hy).1
  unfold iterSwap
  rw [hx, hy]
  dsimp only
  rw [wr_lt ha]
  dsimp only
  rw [wr_lt (by simpa using hb)]
  cases mix with
  | none => rfl
  | some f =>
    simp only [swapStores, fill]
    congr 1
    apply List.ext_getElem?
    intro i
    by_cases h1 : a = i
    · subst h1
      rw [List.getElem?_set_ne (Ne.symm hab), List.getElem?_set_self ha, List.getElem?_set_self (by simpa using ha)]
    · by_cases h2 : b = i
      · subst h2
        rw [List.getElem?_set_self (by simpa using hb), List.getElem?_set_ne h1, List.getElem?_set_self (by simpa using hb)]
      · simp [List.getElem?_set_ne, h1, h2]

theorem up_whole (mix : Option (α → α → α)) (comp : α → α → Bool) (k : Nat) (cur : Nat) :
    ∀ m : List α, (upStores mix comp k m cur).map (fill m) = (upLoop comp k 0 m cur).map (·.1) := by
  induction cur using Nat.strongRecOn with
  | _ cur ih =>
    intro m
    unfold upStores upLoop
    by_cases h0 : cur = 0
    · rw [dif_pos h0, dif_pos h0]; rfl
    rw [dif_neg h0, dif_neg h0]
    by_cases hk : k = 0
    · rw [if_pos hk, if_pos hk]; rfl
    rw [if_neg hk, if_neg hk]
    simp only [Nat.zero_add]
    have hlt : (cur - 1) / k < cur := parent_lt (by omega)
    cases hp : rd m ((cur - 1) / k) with
    | none => rfl
    | some p =>
      cases hc : rd m cur with
      | none => rfl
      | some c =>
        dsimp only
        split
        · rw [iterSwap_fill mix hc hp (by omega)]
          dsimp only
          rw [← ih _ hlt, Option.map_map]
          congr 1
          funext l
          simp [fill_append]
        · rfl

theorem restoreDown_some {comp : α → α → Bool} {k n : Nat} {m : List α} {cur : Nat} (hk : ¬ k = 0)
    (hl : ¬ n ≤ cur * k + 1) {ch : Nat} (hc : maxElement comp m (cur * k + 1) (min (cur * k + 1 + k) n) = some ch) :
    restoreDown comp k 0 n m cur = match rd m cur, rd m ch with
      | some x, some y =>
        if comp x y then
          match iterSwap m ch cur with
          | none => none
          | some m' => restoreDown comp k 0 n m' ch
        else some m
      | _, _ => none := by
  rw [restoreDown, dif_neg hk, dif_neg hl]
  simp only [Nat.zero_add]
  split
  · rename_i h
    simp only [Nat.zero_add] at h
    rw [hc] at h; cases h
  · rename_i ch' h
    simp only [Nat.zero_add] at h
    rw [hc] at h
    injection h with h
    subst h
    rfl

theorem restoreDown_none {comp : α → α → Bool} {k n : Nat} {m : List α} {cur : Nat} (hk : ¬ k = 0)
    (hl : ¬ n ≤ cur * k + 1) (hc : maxElement comp m (cur * k + 1) (min (cur * k + 1 + k) n) = none) :
    restoreDown comp k 0 n m cur = none := by
  rw [restoreDown, dif_neg hk, dif_neg hl]
  split
  · rfl
  · rename_i ch' h
    simp only [Nat.zero_add] at h
    rw [hc] at h; cases h

theorem down_whole (mix : Option (α → α → α)) (comp : α → α → Bool) (k n : Nat) (d : Nat) :
    ∀ (cur : Nat), n - cur = d → ∀ m : List α,
      (downStores mix comp k n m cur).map (fill m) = restoreDown comp k 0 n m cur := by
  induction d using Nat.strongRecOn with
  | _ d ih =>
    intro cur hd m
    unfold downStores
    by_cases hk : k = 0
    · rw [dif_pos hk, restoreDown, dif_pos hk]; rfl
    rw [dif_neg hk]
    by_cases hl : n ≤ cur * k + 1
    · rw [dif_pos hl, restoreDown, dif_neg hk, dif_pos hl]; rfl
    rw [dif_neg hl]
    have hle : cur ≤ cur * k := Nat.le_mul_of_pos_right cur (by omega)
    split
    · rename_i hc
      rw [restoreDown_none hk hl hc]; rfl
    · rename_i ch hc
      have hr := maxElement_range hc (by omega)
      rw [restoreDown_some hk hl hc]
      cases hx : rd m cur with
      | none => rfl
      | some x =>
        cases hy : rd m ch with
        | none => rfl
        | some y =>
          dsimp only
          split
          · rw [iterSwap_fill mix hy hx (by omega)]
            dsimp only
            rw [← ih (n - ch) (by omega) ch rfl, Option.map_map]
            congr 1
            funext l
            simp [fill_append]
          · rfl

/-- All the stores of a push together are the push. -/
theorem push_whole (mix : Option (α → α → α)) (comp : α → α → Bool) (q : Q α) (v : α) :
    (pushStores mix comp q v).map (play q) = push comp q v := by
  unfold pushStores push
  split
  · have h := up_whole mix comp 2 q.size (q.cells.set q.size v)
    rw [pushHeap, restoreUp, if_neg (by omega)]
    simp only [Nat.sub_zero, Nat.add_sub_cancel]
    cases hu : upLoop comp 2 0 (q.cells.set q.size v) q.size with
    | none =>
      rw [hu] at h
      cases hs : upStores mix comp 2 (q.cells.set q.size v) q.size with
      | none => rfl
      | some l => rw [hs] at h; cases h
    | some r =>
      rw [hu] at h
      cases hs : upStores mix comp 2 (q.cells.set q.size v) q.size with
      | none => rw [hs] at h; cases h
      | some l =>
        rw [hs] at h
        simp only [Option.map_some] at h ⊢
        injection h with h
        simp only [play, play_cells, h]
  · rfl

/-- All the stores of a pop together are the pop. -/
theorem pop_whole (mix : Option (α → α → α)) (comp : α → α → Bool) (q : Q α) (h2 : 1 < q.size) :
    (popStores mix comp q).map (play q) = pop comp q := by
  unfold popStores pop popHeap Heap.pop
  rw [if_neg (by omega)]
  simp only [Nat.sub_zero, Nat.zero_add]
  cases hx : rd q.cells 0 with
  | none => simp [iterSwap, hx]
  | some x =>
    cases hy : rd q.cells (q.size - 1) with
    | none => simp [iterSwap, hy]
    | some y =>
      rw [iterSwap_fill mix hx hy (by omega)]
      dsimp only
      rw [← down_whole mix comp 2 (q.size - 1) _ 0 rfl, Option.map_map, Option.map_map]
      congr 1
      funext l
      simp [play_append, play_cells, fill_append, play]

/-! ## The first element -/

theorem swap_away (mix : Option (α → α → α)) {a b : Nat} (ha : a ≠ 0) (hb : b ≠ 0) (x y : α) :
    ∀ w ∈ swapStores mix a b x y, w.1 ≠ 0 := by
  intro w hw
  cases mix <;> simp only [swapStores, List.mem_cons, List.not_mem_nil, or_false] at hw
  · rcases hw with rfl | rfl <;> assumption
  · rcases hw with rfl | rfl | rfl <;> assumption

theorem fill_away (l : List (Nat × α)) (h : ∀ w ∈ l, w.1 ≠ 0) : ∀ m : List α, (fill m l)[0]? = m[0]? := by
  induction l with
  | nil => intro m; rfl
  | cons w ws ih =>
    intro m
    rw [fill, ih (fun u hu => h u (List.mem_cons_of_mem _ hu)), List.getElem?_set_ne (h w List.mem_cons_self)]

/-- swapping something with the first element changes the first element once -/
theorem swap_first (mix : Option (α → α → α)) {m : List α} {a : Nat} (ha : a ≠ 0) (x y : α) (j : Nat) :
    (fill m ((swapStores mix a 0 x y).take j))[0]? = m[0]? ∨
      (fill m ((swapStores mix a 0 x y).take j))[0]? = (fill m (swapStores mix a 0 x y))[0]? := by
  cases mix with
  | none =>
    match j with
    | 0 => exact Or.inl rfl
    | 1 => left; simp [swapStores, fill, ha]
    | j + 2 => right; simp [swapStores]
  | some f =>
    match j with
    | 0 => exact Or.inl rfl
    | 1 => left; simp [swapStores, fill, ha]
    | 2 => right; simp [swapStores, fill, List.getElem?_set, ha]
    | j + 3 => right; simp [swapStores]

theorem take_append_cases (a b : List (Nat × α)) (j : Nat) :
    (a ++ b).take j = a.take j ∨ ∃ i, (a ++ b).take j = a ++ b.take i := by
  by_cases h : j ≤ a.length
  · left; rw [List.take_append_of_le_length h]
  · right
    refine ⟨j - a.length, ?_⟩
    rw [List.take_append, List.take_of_length_le (by omega)]

/-- bubbling up changes the first element at most once -/
theorem up_first (mix : Option (α → α → α)) (comp : α → α → Bool) (k : Nat) (cur : Nat) :
    ∀ (m : List α) (l : List (Nat × α)), upStores mix comp k m cur = some l → ∀ j,
      (fill m (l.take j))[0]? = m[0]? ∨ (fill m (l.take j))[0]? = (fill m l)[0]? := by
  induction cur using Nat.strongRecOn with
  | _ cur ih =>
    intro m l hl j
    unfold upStores at hl
    by_cases h0 : cur = 0
    · rw [dif_pos h0] at hl; injection hl with hl; subst hl; left; simp [fill]
    rw [dif_neg h0] at hl
    by_cases hk : k = 0
    · rw [if_pos hk] at hl; cases hl
    rw [if_neg hk] at hl
    have hlt : (cur - 1) / k < cur := parent_lt (by omega)
    cases hp : rd m ((cur - 1) / k) with
    | none => rw [hp] at hl; cases hl
    | some p =>
      cases hc : rd m cur with
      | none => rw [hp, hc] at hl; cases hl
      | some c =>
        rw [hp, hc] at hl
        dsimp only at hl
        split at hl
        · cases hr : upStores mix comp k (fill m (swapStores mix cur ((cur - 1) / k) c p)) ((cur - 1) / k) with
          | none => rw [hr] at hl; cases hl
          | some l' =>
            rw [hr] at hl
            simp only [Option.map_some] at hl
            injection hl with hl
            subst hl
            by_cases hz : (cur - 1) / k = 0
            · rw [hz] at hr ⊢
              unfold upStores at hr
              rw [dif_pos rfl] at hr
              injection hr with hr
              subst hr
              rw [List.append_nil]
              exact swap_first mix h0 c p j
            · have hs : (fill m (swapStores mix cur ((cur - 1) / k) c p))[0]? = m[0]? :=
                fill_away _ (swap_away mix h0 hz c p) m
              rcases take_append_cases (swapStores mix cur ((cur - 1) / k) c p) l' j with h | ⟨i, h⟩
              · rw [h]
                left
                exact fill_away _ (fun w hw => swap_away mix h0 hz c p w (List.mem_of_mem_take hw)) m
              · rw [h, fill_append, fill_append]
                rcases ih _ hlt _ _ hr i with h | h
                · left; rw [h, hs]
                · right; exact h
        · injection hl with hl; subst hl; left; simp [fill]

theorem down_away (mix : Option (α → α → α)) (comp : α → α → Bool) (k n : Nat) (d : Nat) :
    ∀ (cur : Nat), n - cur = d → cur ≠ 0 → ∀ (m : List α) (l : List (Nat × α)),
      downStores mix comp k n m cur = some l → ∀ w ∈ l, w.1 ≠ 0 := by
  induction d using Nat.strongRecOn with
  | _ d ih =>
    intro cur hd h0 m l hl w hw
    unfold downStores at hl
    by_cases hk : k = 0
    · rw [dif_pos hk] at hl; cases hl
    rw [dif_neg hk] at hl
    by_cases hn : n ≤ cur * k + 1
    · rw [dif_pos hn] at hl; injection hl with hl; subst hl; cases hw
    rw [dif_neg hn] at hl
    have hle : cur ≤ cur * k := Nat.le_mul_of_pos_right cur (by omega)
    split at hl
    · cases hl
    · rename_i ch hc
      have hr := maxElement_range hc (by omega)
      split at hl
      · rename_i x y _ _
        split at hl
        · cases hr' : downStores mix comp k n (fill m (swapStores mix ch cur y x)) ch with
          | none => rw [hr'] at hl; cases hl
          | some l' =>
            rw [hr'] at hl
            simp only [Option.map_some] at hl
            injection hl with hl
            subst hl
            rcases List.mem_append.mp hw with hw | hw
            · exact swap_away mix (by omega) h0 y x w hw
            · exact ih (n - ch) (by omega) ch rfl (by omega) _ _ hr' w hw
        · injection hl with hl; subst hl; cases hw
      · cases hl

/-- pushing down changes the first element at most once -/
theorem down_first (mix : Option (α → α → α)) (comp : α → α → Bool) (k n : Nat) (m : List α) (l : List (Nat × α))
    (hl : downStores mix comp k n m 0 = some l) (j : Nat) :
    (fill m (l.take j))[0]? = m[0]? ∨ (fill m (l.take j))[0]? = (fill m l)[0]? := by
  unfold downStores at hl
  by_cases hk : k = 0
  · rw [dif_pos hk] at hl; cases hl
  rw [dif_neg hk] at hl
  by_cases hn : n ≤ 0 * k + 1
  · rw [dif_pos hn] at hl; injection hl with hl; subst hl; left; simp [fill]
  rw [dif_neg hn] at hl
  split at hl
  · cases hl
  · rename_i ch hc
    have hr := maxElement_range hc (by omega)
    split at hl
    · rename_i x y _ _
      split at hl
      · cases hr' : downStores mix comp k n (fill m (swapStores mix ch 0 y x)) ch with
        | none => rw [hr'] at hl; cases hl
        | some l' =>
          rw [hr'] at hl
          simp only [Option.map_some] at hl
          injection hl with hl
          subst hl
          have haw := down_away mix comp k n _ ch rfl (by omega) _ _ hr'
          rcases take_append_cases (swapStores mix ch 0 y x) l' j with h | ⟨i, h⟩
          · rw [h, fill_append, fill_away l' haw]
            exact swap_first mix (by omega) y x j
          · right
            rw [h, fill_append, fill_append, fill_away l' haw,
              fill_away _ (fun w hw => haw w (List.mem_of_mem_take hw))]
      · injection hl with hl; subst hl; left; simp [fill]
    · cases hl

/-! ## Pushing -/

theorem during_push {mix : Option (α → α → α)} {comp : α → α → Bool} {q : Q α} {v : α} {l : List (Store α)}
    (hl : pushStores mix comp q v = some l) : ∃ u, upStores mix comp 2 (q.cells.set q.size v) q.size = some u ∧
      play q l = ⟨fill (q.cells.set q.size v) u, q.size + 1⟩ ∧
      ∀ j, Spec.during q l j = (if j = 0 then q else if j = 1 then ⟨q.cells, q.size + 1⟩ else
        ⟨fill (q.cells.set q.size v) (u.take (j - 2)), q.size + 1⟩) := by
  unfold pushStores at hl
  split at hl
  · cases hu : upStores mix comp 2 (q.cells.set q.size v) q.size with
    | none => rw [hu] at hl; cases hl
    | some u =>
      rw [hu] at hl
      simp only [Option.map_some] at hl
      injection hl with hl
      subst hl
      refine ⟨u, rfl, by simp [play, play_cells], ?_⟩
      intro j
      match j with
      | 0 => simp [Spec.during, play]
      | 1 => simp [Spec.during, play]
      | j + 2 =>
        simp only [Spec.during, List.take_succ_cons, play, ← List.map_take, play_cells]
        simp
  · cases hl

/-- **C119.** While something is pushed into a queue that is not empty, a handler is shown the top element from before the push
or the one from after it, and the size from before or after. -/
theorem push_seen {mix : Option (α → α → α)} {comp : α → α → Bool} {q q' : Q α} {v : α} {l : List (Store α)}
    (hl : pushStores mix comp q v = some l) (h : push comp q v = some q') (h0 : 0 < q.size) (j : Nat) :
    (Spec.peek (Spec.during q l j) = Spec.peek q ∨ Spec.peek (Spec.during q l j) = Spec.peek q') ∧
    ((Spec.during q l j).size = q.size ∨ (Spec.during q l j).size = q'.size) := by
  have hw := push_whole mix comp q v
  rw [hl, h] at hw
  injection hw with hw
  obtain ⟨u, hu, e1, e2⟩ := during_push hl
  rw [← hw, e1, e2 j]
  have hc : (q.cells.set q.size v)[0]? = q.cells[0]? := List.getElem?_set_ne (by omega)
  match j with
  | 0 => exact ⟨Or.inl rfl, Or.inl rfl⟩
  | 1 =>
    refine ⟨Or.inl ?_, Or.inr rfl⟩
    simp [Spec.peek, show q.size ≠ 0 by omega]
  | j + 2 =>
    refine ⟨?_, Or.inr (by simp)⟩
    simp only [Nat.add_sub_cancel, show j + 2 ≠ 0 by omega, show j + 2 ≠ 1 by omega, if_false, Spec.peek,
      show q.size + 1 ≠ 0 by omega, show q.size ≠ 0 by omega]
    rw [← hc]
    exact up_first mix comp 2 q.size _ _ hu j

/-- **Violation.** While the first element is pushed into an empty queue, a handler is told that there is one before it is
stored: it is shown whatever the memory held. -/
theorem push_first_garbage {mix : Option (α → α → α)} {comp : α → α → Bool} {m : List α} {v : α} {l : List (Store α)}
    (hl : pushStores mix comp ⟨m, 0⟩ v = some l) :
    Spec.peek (Spec.during ⟨m, 0⟩ l 1) = m[0]? ∧ Spec.peek (Spec.during ⟨m, 0⟩ l 2) = some v := by
  have hlen : 0 < m.length := by
    unfold pushStores at hl
    split at hl
    · assumption
    · cases hl
  obtain ⟨u, -, -, e2⟩ := during_push hl
  rw [e2, e2]
  simp [Spec.peek, fill, List.getElem?_set_self hlen]

/-! ## Popping -/

theorem during_pop {mix : Option (α → α → α)} {comp : α → α → Bool} {q : Q α} {l : List (Store α)}
    (hl : popStores mix comp q = some l) : ∃ x y d, q.cells[0]? = some x ∧ q.cells[q.size - 1]? = some y ∧
      downStores mix comp 2 (q.size - 1) (fill q.cells (swapStores mix 0 (q.size - 1) x y)) 0 = some d ∧
      play q l = ⟨fill q.cells (swapStores mix 0 (q.size - 1) x y ++ d), q.size - 1⟩ ∧
      ∀ j, Spec.during q l j = ⟨fill q.cells ((swapStores mix 0 (q.size - 1) x y ++ d).take j), q.size⟩ ∨
        Spec.during q l j = play q l := by
  unfold popStores at hl
  cases hx : rd q.cells 0 with
  | none => rw [hx] at hl; cases hl
  | some x =>
    cases hy : rd q.cells (q.size - 1) with
    | none => rw [hx, hy] at hl; cases hl
    | some y =>
      rw [hx, hy] at hl
      dsimp only at hl
      cases hd : downStores mix comp 2 (q.size - 1) (fill q.cells (swapStores mix 0 (q.size - 1) x y)) 0 with
      | none => rw [hd] at hl; cases hl
      | some d =>
        rw [hd] at hl
        simp only [Option.map_some] at hl
        injection hl with hl
        subst hl
        refine ⟨x, y, d, hx, hy, hd, by simp only [play_append, play_cells, play], ?_⟩
        intro j
        by_cases hj : j ≤ ((swapStores mix 0 (q.size - 1) x y ++ d).map fun w => Store.cell w.1 w.2).length
        · left
          rw [Spec.during, List.take_append_of_le_length hj, ← List.map_take, play_cells]
        · right
          rw [Spec.during, List.take_of_length_le]
          rw [List.length_append]
          simp only [List.length_singleton]
          omega

/-- the first element while the root and the last element are swapped -/
theorem swap_root (mix : Option (α → α → α)) {m : List α} {b : Nat} (hb : b ≠ 0) (hm : 0 < m.length) (x y : α) (j : Nat) :
    (fill m ((swapStores mix 0 b x y).take j))[0]? = m[0]? ∨
      (fill m ((swapStores mix 0 b x y).take j))[0]? = some y ∨
      ∃ f, mix = some f ∧ (fill m ((swapStores mix 0 b x y).take j))[0]? = some (f x y) := by
  cases mix with
  | none =>
    match j with
    | 0 => exact Or.inl rfl
    | 1 => right; left; simp [swapStores, fill, hm]
    | j + 2 => right; left; simp [swapStores, fill, List.getElem?_set, hb, hm]
  | some f =>
    match j with
    | 0 => exact Or.inl rfl
    | 1 => right; right; exact ⟨f, rfl, by simp [swapStores, fill, hm]⟩
    | 2 => right; right; exact ⟨f, rfl, by simp [swapStores, fill, List.getElem?_set, hb, hm]⟩
    | j + 3 => right; left; simp [swapStores, fill, hm]

theorem swap_root_whole (mix : Option (α → α → α)) {m : List α} {b : Nat} (hb : b ≠ 0) (hm : 0 < m.length) (x y : α) :
    (fill m (swapStores mix 0 b x y))[0]? = some y := by
  cases mix with
  | none => simp [swapStores, fill, List.getElem?_set, hb, hm]
  | some f => simp [swapStores, fill, hm]

theorem peek_after (q : Q α) (h : 1 < q.size) (m : List α) :
    Spec.peek (⟨m, q.size - 1⟩ : Q α) = m[0]? := by
  rw [Spec.peek, if_neg (by dsimp only; omega)]

theorem peek_before (q : Q α) (h : 1 < q.size) (m : List α) : Spec.peek (⟨m, q.size⟩ : Q α) = m[0]? := by
  rw [Spec.peek, if_neg (by dsimp only; omega)]

/-- **C119.** While a queue of at least two is popped, a handler is shown the top element from before or from after, or,
in between, the last element of the heap or (when elements are swapped with exclusive or) that mixed with the top; the
size is that from before or after. -/
theorem pop_seen_partial {mix : Option (α → α → α)} {comp : α → α → Bool} {q q' : Q α} {l : List (Store α)} (h2 : 1 < q.size)
    (hl : popStores mix comp q = some l) (h : pop comp q = some q') (j : Nat) :
    (Spec.peek (Spec.during q l j) = Spec.peek q ∨ Spec.peek (Spec.during q l j) = Spec.peek q' ∨
      Spec.peek (Spec.during q l j) = q.cells[q.size - 1]? ∨
      ∃ f x y, mix = some f ∧ q.cells[0]? = some x ∧ q.cells[q.size - 1]? = some y ∧
        Spec.peek (Spec.during q l j) = some (f x y)) ∧
    ((Spec.during q l j).size = q.size ∨ (Spec.during q l j).size = q'.size) := by
  have hw := pop_whole mix comp q h2
  rw [hl, h] at hw
  injection hw with hw
  obtain ⟨x, y, d, hx, hy, hd, e1, e2⟩ := during_pop hl
  have hm : 0 < q.cells.length := (List.getElem?_eq_some_iff.mp hx).1
  rcases e2 j with e | e
  · rw [← hw, e, e1]
    refine ⟨?_, Or.inl rfl⟩
    rw [peek_before q h2, peek_after q h2, hx, hy, show q = ⟨q.cells, q.size⟩ from rfl, peek_before q h2]
    dsimp only
    rw [hx]
    rcases take_append_cases (swapStores mix 0 (q.size - 1) x y) d j with h | ⟨i, h⟩
    · rw [h]
      rcases swap_root mix (show q.size - 1 ≠ 0 by omega) hm x y j with h | h | ⟨f, hf, h⟩
      · left; rw [h, hx]
      · right; right; left; exact h
      · right; right; right; exact ⟨f, x, y, hf, rfl, rfl, h⟩
    · rw [h, fill_append, fill_append]
      rcases down_first mix comp 2 _ _ _ hd i with h | h
      · right; right; left
        rw [h]
        exact swap_root_whole mix (by omega) hm x y
      · right; left; exact h
  · rw [e, ← hw]
    exact ⟨Or.inr (Or.inl rfl), Or.inr rfl⟩

/-- **C119.** While a queue of two is popped, and elements are not swapped with exclusive or, a handler is shown the top element
from before or from after. -/
theorem pop_two_seen {comp : α → α → Bool} {q q' : Q α} {l : List (Store α)} (h2 : q.size = 2)
    (hl : popStores none comp q = some l) (h : pop comp q = some q') (j : Nat) :
    Spec.peek (Spec.during q l j) = Spec.peek q ∨ Spec.peek (Spec.during q l j) = Spec.peek q' := by
  rcases (pop_seen_partial (by omega) hl h j).1 with h' | h' | h' | ⟨f, _, _, hf, _⟩
  · exact Or.inl h'
  · exact Or.inr h'
  · right
    have hw := pop_whole none comp q (by omega)
    rw [hl, h] at hw
    injection hw with hw
    obtain ⟨x, y, d, hx, hy, hd, e1, -⟩ := during_pop hl
    have hm : 0 < q.cells.length := (List.getElem?_eq_some_iff.mp hx).1
    unfold downStores at hd
    rw [dif_neg (by omega), dif_pos (by omega)] at hd
    injection hd with hd
    subst hd
    rw [h', ← hw, e1, peek_after q (by omega), List.append_nil, swap_root_whole none (by omega) hm x y, hy]
  · cases hf

/-- **Violation.** The first store of a pop puts the last element of the heap in front: a handler is shown it as the top. -/
theorem pop_shows_last {comp : α → α → Bool} {q : Q α} {l : List (Store α)} (h2 : 1 < q.size)
    (hl : popStores none comp q = some l) : Spec.peek (Spec.during q l 1) = q.cells[q.size - 1]? := by
  obtain ⟨x, y, d, hx, hy, hd, e1, e2⟩ := during_pop hl
  have hm : 0 < q.cells.length := (List.getElem?_eq_some_iff.mp hx).1
  rcases e2 1 with e | e
  · rw [e, peek_before q h2, hy]
    simp [swapStores, fill, hm]
  · unfold popStores at hl
    rw [show rd q.cells 0 = some x from hx, show rd q.cells (q.size - 1) = some y from hy] at hl
    dsimp only at hl
    rw [hd] at hl
    simp only [Option.map_some] at hl
    injection hl with hl
    subst hl
    rw [Spec.during]
    simp only [swapStores, List.cons_append, List.nil_append, List.map_cons, List.take_succ_cons, List.take_zero, play]
    rw [peek_before q h2, hy]
    simp [hm]

/-- **Violation.** Where elements are swapped with exclusive or, a handler is shown the top mixed with the last element, which
need not be an element at all. -/
theorem pop_shows_mix {f : α → α → α} {comp : α → α → Bool} {q : Q α} {l : List (Store α)} {x y : α} (h2 : 1 < q.size)
    (hx : q.cells[0]? = some x) (hy : q.cells[q.size - 1]? = some y) (hl : popStores (some f) comp q = some l) :
    Spec.peek (Spec.during q l 1) = some (f x y) := by
  have hm : 0 < q.cells.length := (List.getElem?_eq_some_iff.mp hx).1
  unfold popStores at hl
  rw [show rd q.cells 0 = some x from hx, show rd q.cells (q.size - 1) = some y from hy] at hl
  dsimp only at hl
  cases hd : downStores (some f) comp 2 (q.size - 1) (fill q.cells (swapStores (some f) 0 (q.size - 1) x y)) 0 with
  | none => rw [hd] at hl; cases hl
  | some d =>
    rw [hd] at hl
    simp only [Option.map_some] at hl
    injection hl with hl
    subst hl
    rw [Spec.during]
    simp only [swapStores, List.cons_append, List.nil_append, List.map_cons, List.take_succ_cons, List.take_zero, play]
    rw [peek_before q h2]
    simp [hm]

/-! ## Reachable queues -/

theorem run_inv {comp : α → α → Bool} (hs : StrictWeak comp) (ops : List (Op α)) : ∀ q q' : Q α,
    q.size ≤ q.cells.length → IsHeap comp 2 0 q.size q.cells → run comp q ops = some q' →
    q'.size ≤ q'.cells.length ∧ IsHeap comp 2 0 q'.size q'.cells := by
  induction ops with
  | nil => intro q q' h1 h2 h; injection h with h; subst h; exact ⟨h1, h2⟩
  | cons o os ih =>
    intro q q' h1 h2 h
    cases o with
    | push v =>
      rw [run, push] at h
      split at h
      · rename_i hc
        obtain ⟨m', e1, e2, e3⟩ := push_heap_spec hs (q.cells.set q.size v) 0 (q.size + 1) (by omega) (by simp; omega) (by
          intro i x y h0 hi hx hy
          have := parent_lt (k := 2) h0
          simp only [Nat.add_sub_cancel, Nat.sub_zero] at hi
          rw [List.getElem?_set_ne (by omega)] at hx hy
          exact h2 i x y h0 hi hx hy)
        rw [e1] at h
        simp only [Option.map_some, Option.bind_some] at h
        refine ih _ _ ?_ ?_ h
        · dsimp only; rw [e3.length]; simp; omega
        · simpa using e2
      · cases h
    | pop =>
      rw [run, pop] at h
      by_cases hz : q.size = 0
      · simp [popHeap, Heap.pop, hz] at h
      · obtain ⟨m', e1, e2, e3, -⟩ := pop_heap_spec hs q.cells 0 q.size (by omega) h1 (by simpa using h2)
        rw [e1] at h
        simp only [Option.map_some, Option.bind_some] at h
        refine ih _ _ ?_ ?_ h
        · dsimp only; rw [e3.length]; omega
        · simpa using e2

theorem Reach.inv {comp : α → α → Bool} (hs : StrictWeak comp) {q : Q α} (h : Spec.Reach comp q) :
    q.size ≤ q.cells.length ∧ IsHeap comp 2 0 q.size q.cells := by
  obtain ⟨m, ops, h⟩ := h
  refine run_inv hs ops _ _ (by simp) ?_ h
  intro i x y _ hi
  simp at hi

/-- **Violation.** In every reachable queue whose last element should come out after another one that is not the top, the
handler is shown, during a pop, an element that is the top neither before nor after. -/
theorem pop_shows_neither {comp : α → α → Bool} (hs : StrictWeak comp) {q q' : Q α} {l : List (Store α)} {y z : α} {i : Nat}
    (hr : Spec.Reach comp q) (hl : popStores none comp q = some l) (h : pop comp q = some q')
    (hy : q.cells[q.size - 1]? = some y) (hi : 0 < i) (hi2 : i < q.size - 1) (hz : q.cells[i]? = some z)
    (hyz : comp y z = true) :
    Spec.peek (Spec.during q l 1) = some y ∧ Spec.peek q ≠ some y ∧ Spec.peek q' ≠ some y := by
  obtain ⟨hlen, hheap⟩ := Reach.inv hs hr
  refine ⟨by rw [pop_shows_last (by omega) hl, hy], ?_, ?_⟩
  · intro hp
    rw [Spec.peek, if_neg (by omega)] at hp
    have := heap_root_extremal hs (f := 0) (by omega) hheap i (by omega) y z hp (by simpa using hz)
    rw [this] at hyz; cases hyz
  · intro hp
    obtain ⟨m', e1, e2, e3, e4⟩ := pop_heap_spec hs q.cells 0 q.size (by omega) hlen (by simpa using hheap)
    rw [pop, e1] at h
    injection h with h
    subst h
    rw [peek_after q (by omega)] at hp
    -- z is still among the first n - 1 cells
    have hzm : z ∈ q.cells.take q.size := by
      rw [List.mem_take_iff_getElem]
      obtain ⟨hlt, rfl⟩ := List.getElem?_eq_some_iff.mp hz
      exact ⟨i, by omega, rfl⟩
    have hperm := e3.perm
    simp only [List.drop_zero, Nat.sub_zero] at hperm
    have hzm' : z ∈ m'.take q.size := hperm.symm.subset hzm
    rw [List.mem_take_iff_getElem] at hzm'
    obtain ⟨t, ht, htz⟩ := hzm'
    have hml := e3.length
    by_cases htl : t = q.size - 1
    · subst htl
      have hz0 : q.cells[0]? = some z := by
        rw [← e4, ← htz]
        exact List.getElem?_eq_getElem _
      -- then z is the old top, and some cell of the new heap holds a z or better: look at cell i of the old heap
      have hcnt : (m'.take (q.size - 1)).Perm ((q.cells.take q.size).drop 1) := by
        have h1 : m'.take q.size = m'.take (q.size - 1) ++ [z] := by
          conv => lhs; rw [show q.size = (q.size - 1) + 1 by omega]
          rw [List.take_succ, ← htz, List.getElem?_eq_getElem (by omega)]
          rfl
        have h2 : q.cells.take q.size = z :: (q.cells.take q.size).drop 1 := by
          have : (q.cells.take q.size)[0]? = some z := by rw [List.getElem?_take_of_lt (by omega)]; exact hz0
          obtain ⟨hlt0, he⟩ := List.getElem?_eq_some_iff.mp this
          conv => lhs; rw [← List.drop_zero (l := q.cells.take q.size), List.drop_eq_getElem_cons hlt0]
          rw [he]
        rw [h1, h2] at hperm
        have h3 : (z :: m'.take (q.size - 1)).Perm (z :: (q.cells.take q.size).drop 1) :=
          (List.perm_append_comm.trans hperm : ([z] ++ m'.take (q.size - 1)).Perm _)
        exact h3.cons_inv
      have hzin : z ∈ (q.cells.take q.size).drop 1 := by
        rw [List.mem_iff_getElem?]
        refine ⟨i - 1, ?_⟩
        rw [List.getElem?_drop, List.getElem?_take_of_lt (by omega), show 1 + (i - 1) = i by omega]
        exact hz
      have hzin' := hcnt.symm.subset hzin
      rw [List.mem_take_iff_getElem] at hzin'
      obtain ⟨t, ht, htz⟩ := hzin'
      have := heap_root_extremal hs (f := 0) (n := q.size - 1) (by omega) (by simpa using e2) t (by omega) y z hp (by
        rw [Nat.zero_add, ← htz]; exact List.getElem?_eq_getElem _)
      rw [this] at hyz; cases hyz
    · have := heap_root_extremal hs (f := 0) (n := q.size - 1) (by omega) (by simpa using e2) t (by omega) y z hp (by
        rw [Nat.zero_add, ← htz]; exact List.getElem?_eq_getElem _)
      rw [this] at hyz; cases hyz

/-! ## The hypotheses can be met -/

/-- the usual order -/
def lt (a b : Nat) : Bool := decide (a < b)

theorem lt_weak : StrictWeak lt :=
  ⟨by simp [lt], by simp only [lt, decide_eq_true_eq]; omega, by simp only [lt, decide_eq_false_iff_not]; omega⟩

/-- after pushing 12, 9, 10 and 3 into memory that held 77s -/
def exQ : Q Nat := ⟨[12, 9, 10, 3, 77], 4⟩

theorem exQ_reach : Spec.Reach lt exQ :=
  ⟨[77, 77, 77, 77, 77], [.push 12, .push 9, .push 10, .push 3], by decide +kernel⟩

/-- pushing 20: it rises to the front; a handler is shown 12 up to the store that puts 20 there -/
example : ∃ l, pushStores none lt exQ 20 = some l ∧ (push lt exQ 20).map (·.cells) = some [20, 12, 10, 3, 9] ∧
    l.length = 6 ∧ Spec.peek (Spec.during exQ l 5) = some 12 ∧ Spec.peek (Spec.during exQ l 6) = some 20 := by
  refine ⟨[.size 5, .cell 4 20, .cell 4 9, .cell 1 20, .cell 1 12, .cell 0 20], ?_, ?_, rfl, ?_, ?_⟩ <;> decide +kernel

/-- the same for integers, which are swapped with exclusive or -/
example : ∃ l, pushStores (some (· ^^^ ·)) lt exQ 20 = some l ∧ l.length = 8 ∧
    Spec.peek (Spec.during exQ l 6) = some 12 ∧ Spec.peek (Spec.during exQ l 7) = some 20 := by
  refine ⟨[.size 5, .cell 4 20, .cell 4 29, .cell 1 20, .cell 4 9, .cell 1 24, .cell 0 20, .cell 1 12], ?_, rfl, ?_, ?_⟩ <;>
    decide +kernel

/-- popping 12: a handler is shown 3 although 10 comes next -/
example : ∃ l, popStores none lt exQ = some l ∧ (pop lt exQ).map Spec.peek = some (some 10) ∧
    Spec.peek exQ = some 12 ∧ Spec.peek (Spec.during exQ l 1) = some 3 ∧ exQ.cells[exQ.size - 1]? = some 3 ∧
    exQ.cells[2]? = some 10 ∧ lt 3 10 = true := by
  refine ⟨[.cell 0 3, .cell 3 12, .cell 2 3, .cell 0 10, .size 3], ?_, ?_, rfl, ?_, rfl, rfl, rfl⟩ <;> decide +kernel

/-- two elements: 9, then 4 -/
example : ∃ l, popStores none lt ⟨[9, 4], 2⟩ = some l ∧ l.length = 3 ∧
    Spec.peek (Spec.during (⟨[9, 4], 2⟩ : Q Nat) l 1) = some 4 ∧ (pop lt ⟨[9, 4], 2⟩).map Spec.peek = some (some 4) := by
  refine ⟨[.cell 0 4, .cell 1 9, .size 1], ?_, rfl, ?_, ?_⟩ <;> decide +kernel

/-- with integers a handler is shown 15, which nobody pushed -/
example : ∃ l, popStores (some (· ^^^ ·)) lt exQ = some l ∧ Spec.peek (Spec.during exQ l 1) = some 15 := by
  refine ⟨[.cell 0 15, .cell 3 12, .cell 0 3, .cell 2 9, .cell 0 10, .cell 2 3, .size 3], ?_, ?_⟩ <;> decide +kernel

/-- the first push: a handler is shown 77 -/
example : ∃ l, pushStores none lt ⟨[77, 77], 0⟩ 5 = some l ∧
    Spec.peek (Spec.during (⟨[77, 77], 0⟩ : Q Nat) l 1) = some 77 := by
  refine ⟨[.size 1, .cell 0 5], ?_, ?_⟩ <;> decide +kernel

end Verif.Heap.Reader
