import Verif.Utility.Model
/-!
# C69: `swap`, `exchange` and `pair`
-/
namespace Verif.Utility
open Verif Verif.Algorithm

/-- the two objects have traded values and nothing else changed -/
structure Spec.Swapped {α : Type u} (m m' : List α) (a b : Nat) : Prop where
  length : m'.length = m.length
  first : m'[a]? = m[b]?
  second : m'[b]? = m[a]?
  others : ∀ j, j ≠ a → j ≠ b → m'[j]? = m[j]?

theorem xorAssign_eq (t : Ty) (a b : BitVec t.bits) : xorAssign t a b = a ^^^ b := by
  have hb : t.bits ≤ max 32 t.bits := Nat.le_max_right _ _
  apply BitVec.eq_of_getLsbD_eq
  intro i hi
  unfold xorAssign
  have h1 : i < max 32 t.bits := by omega
  split
  · simp only [BitVec.getLsbD_setWidth, hi, decide_true, Bool.true_and, BitVec.getLsbD_xor, BitVec.getLsbD_signExtend,
      h1, if_true]
  · simp [BitVec.getLsbD_setWidth, hi, h1]

theorem xorStep_eq (t : Ty) {m : List (BitVec t.bits)} {a b : Nat} (ha : a < m.length) (hb : b < m.length) :
    xorStep t m a b = some (m.set a (m[a] ^^^ m[b])) := by
  simp [xorStep, rd_lt ha, rd_lt hb, wr_lt ha, xorAssign_eq]

theorem xorSwap_distinct (t : Ty) {m : List (BitVec t.bits)} {a b : Nat} (ha : a < m.length) (hb : b < m.length)
    (hab : a ≠ b) : xorSwap t m a b = some ((m.set a m[b]).set b m[a]) := by
  unfold xorSwap
  rw [xorStep_eq t ha hb]
  simp only
  rw [xorStep_eq t (by simpa using hb) (by simpa using ha)]
  simp only
  rw [xorStep_eq t (by simpa using ha) (by simpa using hb)]
  congr 1
  apply List.ext_getElem?
  intro j
  simp only [List.getElem?_set, List.getElem_set, List.length_set]
  by_cases h1 : a = j
  · subst h1
    simp [hab, Ne.symm hab, ha]
    have e : m[b] ^^^ (m[a] ^^^ m[b]) = m[a] := by
      rw [BitVec.xor_comm m[a], ← BitVec.xor_assoc, BitVec.xor_self, BitVec.zero_xor]
    rw [e, BitVec.xor_comm m[a], BitVec.xor_assoc, BitVec.xor_self, BitVec.xor_zero]
  · by_cases h2 : b = j
    · subst h2
      simp [hab, hb]
      rw [BitVec.xor_comm m[a], ← BitVec.xor_assoc, BitVec.xor_self, BitVec.zero_xor]
    · simp [h1, h2]

theorem xorSwap_self (t : Ty) {m : List (BitVec t.bits)} {a : Nat} (ha : a < m.length) :
    xorSwap t m a a = some (m.set a 0) := by
  unfold xorSwap
  rw [xorStep_eq t ha ha]
  simp only
  rw [xorStep_eq t (by simpa using ha) (by simpa using ha)]
  simp only
  rw [xorStep_eq t (by simpa using ha) (by simpa using ha)]
  simp

theorem genericSwap_eq {α : Type u} {m : List α} {a b : Nat} (ha : a < m.length) (hb : b < m.length) :
    genericSwap m a b = some ((m.set a m[b]).set b m[a]) := by
  simp [genericSwap, rd_lt ha, rd_lt hb, wr_lt ha, wr_lt (m := m.set a m[b]) (i := b) (by simpa using hb)]

/-- C69: the generic `swap` is right for every type and every two objects, the same one included -/
theorem generic_swap_spec {α : Type u} (m : List α) (a b : Nat) (ha : a < m.length) (hb : b < m.length) :
    ∃ m', genericSwap m a b = some m' ∧ Spec.Swapped m m' a b := by
  refine ⟨_, genericSwap_eq ha hb, by simp, ?_, ?_, ?_⟩
  · by_cases h : b = a
    · subst h; simp [ha]
    · rw [List.getElem?_set_ne h, List.getElem?_set_self ha, List.getElem?_eq_getElem hb]
  · rw [List.getElem?_set_self (by simpa using hb), List.getElem?_eq_getElem ha]
  · intro j h1 h2
    rw [List.getElem?_set_ne (Ne.symm h2), List.getElem?_set_ne (Ne.symm h1)]

/-- C69: `swap` of two different objects trades their values, for every integer type -/
theorem swap_distinct_partial (t : Ty) (m : List (BitVec t.bits)) (a b : Nat) (ha : a < m.length)
    (hb : b < m.length) (hab : a ≠ b) : ∃ m', swap t m a b = some m' ∧ Spec.Swapped m m' a b := by
  obtain ⟨m', h1, h2⟩ := generic_swap_spec m a b ha hb
  refine ⟨m', ?_, h2⟩
  unfold swap
  split
  · rw [xorSwap_distinct t ha hb hab, ← genericSwap_eq ha hb, h1]
  · exact h1

example : swap .short [0x1234#16, 0xfedc#16] 0 1 = some [0xfedc#16, 0x1234#16] := by rfl

/-- C69: **Violation.** swapping an object with itself sets it to zero, for each type swapped with exclusive-or -/
theorem swap_self_zeroes (t : Ty) (ht : t.xorSwapped = true) (m : List (BitVec t.bits)) (a : Nat)
    (ha : a < m.length) : swap t m a a = some (m.set a 0) := by
  simp only [swap, ht, if_true]
  exact xorSwap_self t ha

example : swap .int [7#32, 9#32] 1 1 = some [7#32, 0#32] := by rfl
example : swap .schar [7#8, 9#8] 1 1 = some [7#8, 9#8] := by rfl

/-- C69: exactly when `swap` does what it should -/
theorem swap_correct_iff (t : Ty) (m : List (BitVec t.bits)) (a b : Nat) (ha : a < m.length) (hb : b < m.length) :
    (∃ m', swap t m a b = some m' ∧ Spec.Swapped m m' a b) ↔
      a ≠ b ∨ t ∈ [Ty.schar, Ty.llong, Ty.ullong] ∨ m[a] = 0 := by
  by_cases hab : a = b
  · subst hab
    cases ht : t.xorSwapped
    · have : t ∈ [Ty.schar, Ty.llong, Ty.ullong] := by cases t <;> simp_all [Ty.xorSwapped]
      simp only [this, true_or, or_true, iff_true]
      obtain ⟨m', h1, h2⟩ := generic_swap_spec m a a ha ha
      exact ⟨m', by simp [swap, ht, h1], h2⟩
    · have : t ∉ [Ty.schar, Ty.llong, Ty.ullong] := by cases t <;> simp_all [Ty.xorSwapped]
      rw [swap_self_zeroes t ht m a ha]
      simp only [this, ne_eq, not_true_eq_false, false_or]
      constructor
      · rintro ⟨m', h1, h2⟩
        cases h1
        have := h2.first
        rw [List.getElem?_set_self ha, List.getElem?_eq_getElem ha] at this
        exact (Option.some.inj this).symm
      · intro h
        exact ⟨_, rfl, by simp, by simp [ha, h], by simp [ha, h],
          fun j h1 _ => List.getElem?_set_ne (Ne.symm h1)⟩
  · exact ⟨fun _ => .inl hab, fun _ => swap_distinct_partial t m a b ha hb hab⟩

theorem swap_eq_iterSwap (t : Ty) (m : List (BitVec t.bits)) (a b : Nat) (hab : a ≠ b) :
    swap t m a b = iterSwap m a b := by
  by_cases ha : a < m.length
  · by_cases hb : b < m.length
    · have e : iterSwap m a b = some ((m.set a m[b]).set b m[a]) := iterSwap_lt ha hb
      rw [e]
      unfold swap
      split
      · exact xorSwap_distinct t ha hb hab
      · exact genericSwap_eq ha hb
    · have hn : m[b]? = none := List.getElem?_eq_none (by omega)
      simp [swap, xorSwap, xorStep, genericSwap, iterSwap, rd, hn]
      cases m[a]? <;> exact fun _ => rfl
  · have hn : m[a]? = none := List.getElem?_eq_none (by omega)
    simp [swap, xorSwap, xorStep, genericSwap, iterSwap, rd, hn]

/-! ## What this means for the algorithms -/

/-- C69: `reverse` never swaps a cell with itself: over integers it is the `reverse` of C04 -/
theorem reverse_int_unaffected (t : Ty) (m : List (BitVec t.bits)) (first last : Nat) :
    reverseInt t m first last = reverse m first last := by
  induction last generalizing m first with
  | zero => rw [reverseInt.eq_def, reverse.eq_def]
  | succ l ih =>
    rw [reverseInt.eq_def, reverse.eq_def]
    by_cases h1 : first = l + 1
    · rw [if_pos h1, if_pos h1]
    · rw [if_neg h1, if_neg h1]
      by_cases h2 : first = l
      · simp [h2]
      · simp only [h2, if_false]
        rw [swap_eq_iterSwap t m first l h2]
        cases iterSwap m first l with
        | none => rfl
        | some m' => exact ih m' (first + 1)

/-- C69: bubbling up swaps an element with its parent only, which is another cell -/
theorem restore_up_unaffected (t : Ty) (comp : BitVec t.bits → BitVec t.bits → Bool) (k f : Nat)
    (m : List (BitVec t.bits)) (cur : Nat) :
    upLoopInt t comp k f m cur = Heap.upLoop comp k f m cur := by
  fun_induction upLoopInt t comp k f m cur with
  | case1 => rw [Heap.upLoop]; simp
  | case2 => rw [Heap.upLoop]; simp_all
  | case3 m cur h0 hk p c h1 h2 hc h3 =>
    have := Nat.div_le_self (cur - 1) k
    rw [swap_eq_iterSwap t m _ _ (by omega)] at h3
    rw [Heap.upLoop]; simp [h0, hk, h1, h2, hc, h3]
  | case4 m cur h0 hk p c h1 h2 hc m' h3 ih =>
    have := Nat.div_le_self (cur - 1) k
    rw [swap_eq_iterSwap t m _ _ (by omega)] at h3
    rw [Heap.upLoop]; simp [h0, hk, h1, h2, hc, h3, ih]
  | case5 m cur h0 hk p c h1 h2 hc => rw [Heap.upLoop]; simp [h0, hk, h1, h2, hc]
  | case6 m cur h0 hk h => rw [Heap.upLoop]; simp only [h0, hk, dite_false, if_false]

theorem restoreDown_step {α : Type u} (comp : α → α → Bool) (k f n : Nat) (m : List α) (cur : Nat) :
    Heap.restoreDown comp k f n m cur =
      if k = 0 then none
      else if n ≤ cur * k + 1 then some m
      else (maxElement comp m (f + (cur * k + 1)) (min (f + (cur * k + 1) + k) (f + n))).bind fun ch =>
        match rd m (f + cur), rd m ch with
        | some x, some y =>
          if comp x y then
            match iterSwap m ch (f + cur) with
            | none => none
            | some m' => Heap.restoreDown comp k f n m' (ch - f)
          else some m
        | _, _ => none := by
  rw [Heap.restoreDown]
  split
  · simp [*]
  · rename_i hk
    split
    · rfl
    · split <;> rename_i hc <;> rw [hc] <;> rfl

theorem restoreDownInt_step (t : Ty) (comp : BitVec t.bits → BitVec t.bits → Bool) (k f n : Nat)
    (m : List (BitVec t.bits)) (cur : Nat) :
    restoreDownInt t comp k f n m cur =
      if k = 0 then none
      else if n ≤ cur * k + 1 then some m
      else (maxElement comp m (f + (cur * k + 1)) (min (f + (cur * k + 1) + k) (f + n))).bind fun ch =>
        match rd m (f + cur), rd m ch with
        | some x, some y =>
          if comp x y then
            match swap t m ch (f + cur) with
            | none => none
            | some m' => restoreDownInt t comp k f n m' (ch - f)
          else some m
        | _, _ => none := by
  rw [restoreDownInt]
  split
  · simp [*]
  · rename_i hk
    split
    · rfl
    · split <;> rename_i hc <;> rw [hc] <;> rfl

/-- C69: pushing down swaps an element with one of its children only, which is another cell -/
theorem restore_down_unaffected (t : Ty) (comp : BitVec t.bits → BitVec t.bits → Bool) (k f n : Nat)
    (m : List (BitVec t.bits)) (cur : Nat) :
    restoreDownInt t comp k f n m cur = Heap.restoreDown comp k f n m cur := by
  induction hd : n - cur using Nat.strongRecOn generalizing m cur with
  | ind d ih =>
    rw [restoreDownInt_step, restoreDown_step]
    by_cases hk : k = 0
    · simp [hk]
    · rw [if_neg hk, if_neg hk]
      by_cases hl : n ≤ cur * k + 1
      · rw [if_pos hl, if_pos hl]
      · rw [if_neg hl, if_neg hl]
        cases hc : maxElement comp m (f + (cur * k + 1)) (min (f + (cur * k + 1) + k) (f + n)) with
        | none => rfl
        | some ch =>
          have hr := Heap.maxElement_range hc (by omega)
          have hcur : cur ≤ cur * k := Nat.le_mul_of_pos_right cur (by omega)
          simp only [Option.bind_some]
          rw [swap_eq_iterSwap t m ch (f + cur) (by omega)]
          cases rd m (f + cur) with
          | none => rfl
          | some x =>
            cases rd m ch with
            | none => rfl
            | some y =>
              simp only
              cases iterSwap m ch (f + cur) with
              | none => rfl
              | some m' => simp only [ih (n - (ch - f)) (by omega) m' (ch - f) rfl]

/-- C06/C69: popping a heap of two or more integers does what C06 says -/
theorem pop_heap_int_partial (t : Ty) {comp : BitVec t.bits → BitVec t.bits → Bool} (hs : StrictWeak comp)
    (m : List (BitVec t.bits)) (first last : Nat) (h1 : first + 2 ≤ last) (h2 : last ≤ m.length)
    (h : Heap.Spec.IsHeap comp 2 first (last - first) m) :
    ∃ m', popHeapInt t comp m first last = some m' ∧ Heap.Spec.IsHeap comp 2 first (last - 1 - first) m' ∧
      Heap.Spec.Rearranged first (last - first) m m' ∧ m'[last - 1]? = m[first]? := by
  obtain ⟨m', e, r⟩ := Heap.pop_heap_spec hs m first last (by omega) h2 h
  refine ⟨m', ?_, r⟩
  rw [← e]
  unfold popHeapInt popInt Heap.popHeap Heap.pop
  rw [if_neg (by omega), if_neg (by omega), swap_eq_iterSwap t m _ _ (by omega)]
  cases iterSwap m first (first + (last - first - 1)) with
  | none => rfl
  | some m1 => exact restore_down_unaffected t comp 2 first _ m1 0

example : (popHeapInt .int (fun a b => a.slt b) [9#32, 5#32, 7#32] 0 3).map (·.map BitVec.toNat) =
    some [7, 5, 9] := by decide +kernel

/-- C06/C69: **Violation.** popping a heap of one integer swaps it with itself: the cell the popped element should be
in holds zero -/
theorem pop_heap_single_zeroes (t : Ty) (ht : t.xorSwapped = true) (comp : BitVec t.bits → BitVec t.bits → Bool)
    (m : List (BitVec t.bits)) (first : Nat) (h : first < m.length) :
    popHeapInt t comp m first (first + 1) = some (m.set first 0) := by
  unfold popHeapInt popInt
  rw [if_neg (by omega), show first + (first + 1 - first - 1) = first by omega,
    swap_self_zeroes t ht m first h]
  simp only
  rw [restoreDownInt_step]
  simp

example : (popHeapInt .int (fun a b => a.slt b) [42#32] 0 1).map (·.map BitVec.toNat) = some [0] := by decide +kernel

/-- C07/C69: a container that drops the last cell after `pop_heap`, as a priority queue does, is not affected: every
other cell is as with a correct swap -/
theorem pop_heap_int_other_cells (t : Ty) (comp : BitVec t.bits → BitVec t.bits → Bool)
    (m : List (BitVec t.bits)) (first last : Nat) (h1 : first < last) (h2 : last ≤ m.length) :
    (popHeapInt t comp m first last).map (fun m' => m'.eraseIdx (last - 1)) =
      (Heap.popHeap comp m first last).map (fun m' => m'.eraseIdx (last - 1)) := by
  by_cases h : first + 2 ≤ last
  · congr 1
    unfold popHeapInt popInt Heap.popHeap Heap.pop
    rw [if_neg (by omega), if_neg (by omega), swap_eq_iterSwap t m _ _ (by omega)]
    cases iterSwap m first (first + (last - first - 1)) with
    | none => rfl
    | some m1 => exact restore_down_unaffected t comp 2 first _ m1 0
  · have hl : last = first + 1 := by omega
    subst hl
    unfold popHeapInt popInt Heap.popHeap Heap.pop
    rw [if_neg (by omega), if_neg (by omega), show first + (first + 1 - first - 1) = first by omega]
    rw [iterSwap_lt (show first < m.length by omega) (show first < m.length by omega)]
    have e : ∃ v, swap t m first first = some (m.set first v) := by
      cases ht : t.xorSwapped
      · refine ⟨m[first], ?_⟩
        simp only [swap, ht]
        rw [if_neg (by simp), genericSwap_eq (by omega) (by omega)]
        simp
      · exact ⟨0, swap_self_zeroes t ht m first (by omega)⟩
    obtain ⟨v, e⟩ := e
    rw [e]
    simp only
    rw [restoreDownInt_step, restoreDown_step]
    simp [List.eraseIdx_set_eq]

/-! ## `exchange` -/

/-- C69: `exchange` answers the old value and stores the new one; an rvalue source is left moved-from, an lvalue
source keeps its value -/
theorem exchange_spec {α : Type u} (moved : α → α) (rv : Bool) (m : List α) (obj src : Nat)
    (ho : obj < m.length) (hs : src < m.length) (hne : obj ≠ src) :
    ∃ m', exchange moved rv m obj src = some (m[obj], m') ∧ m'.length = m.length ∧ m'[obj]? = some m[src] ∧
      m'[src]? = some (if rv then moved m[src] else m[src]) ∧ ∀ j, j ≠ obj → j ≠ src → m'[j]? = m[j]? := by
  have hs' : src < (m.set obj (moved m[obj])).length := by simpa using hs
  have e : exchange moved rv m obj src =
      some (m[obj], if rv then (m.set obj m[src]).set src (moved m[src]) else m.set obj m[src]) := by
    unfold exchange
    rw [rd_lt ho]
    simp only [wr_lt ho]
    rw [rd_lt hs']
    simp only [List.getElem_set_ne hne]
    rw [wr_lt (by simpa using ho)]
    simp only [List.set_set]
    split
    · rw [wr_lt (by simpa using hs)]
    · rfl
  refine ⟨_, e, ?_, ?_, ?_, ?_⟩
  · split <;> simp
  · split
    · rw [List.getElem?_set_ne (Ne.symm hne), List.getElem?_set_self ho]
    · rw [List.getElem?_set_self ho]
  · split
    · rw [List.getElem?_set_self (by simpa using hs)]
    · rw [List.getElem?_set_ne hne, List.getElem?_eq_getElem hs]
  · intro j h1 h2
    split
    · rw [List.getElem?_set_ne (Ne.symm h2), List.getElem?_set_ne (Ne.symm h1)]
    · rw [List.getElem?_set_ne (Ne.symm h1)]

example : exchange (fun _ => 0) true [3, 8] 0 1 = some (3, [8, 0]) := by decide +kernel

/-- C69: an object exchanged with itself answers its value, and is left moved-from -/
theorem exchange_self {α : Type u} (moved : α → α) (m : List α) (obj : Nat) (ho : obj < m.length) :
    exchange moved false m obj obj = some (m[obj], m.set obj (moved m[obj])) := by
  unfold exchange
  rw [rd_lt ho]
  simp only [wr_lt ho]
  rw [rd_lt (by simpa using ho)]
  simp [wr, ho]

example : exchange (fun _ => 0) false [3, 8] 0 0 = some (3, [0, 8]) := by decide +kernel

/-! ## Pairs -/

/-- C69: swapping two different pairs trades both members -/
theorem pair_swap_partial (t1 t2 : Ty) (m1 : List (BitVec t1.bits)) (m2 : List (BitVec t2.bits)) (i j : Nat)
    (hij : i ≠ j) (h1 : i < m1.length) (h2 : j < m1.length) (h3 : i < m2.length) (h4 : j < m2.length) :
    ∃ m1' m2', pairSwap t1 t2 m1 m2 i j = some (m1', m2') ∧ Spec.Swapped m1 m1' i j ∧ Spec.Swapped m2 m2' i j := by
  obtain ⟨m1', e1, s1⟩ := swap_distinct_partial t1 m1 i j h1 h2 hij
  obtain ⟨m2', e2, s2⟩ := swap_distinct_partial t2 m2 i j h3 h4 hij
  exact ⟨m1', m2', by simp [pairSwap, e1, e2], s1, s2⟩

/-- C69: **Violation.** a pair swapped with itself loses both members -/
theorem pair_swap_self_zeroes (t1 t2 : Ty) (k1 : t1.xorSwapped = true) (k2 : t2.xorSwapped = true)
    (m1 : List (BitVec t1.bits)) (m2 : List (BitVec t2.bits)) (i : Nat) (h1 : i < m1.length) (h2 : i < m2.length) :
    pairSwap t1 t2 m1 m2 i i = some (m1.set i 0, m2.set i 0) := by
  simp [pairSwap, swap_self_zeroes t1 k1 m1 i h1, swap_self_zeroes t2 k2 m2 i h2]

/-- what a component type must provide: `==` an equivalence test, `!=` its negation, `>` the converse of `<`, and `<`
a strict weak order -/
structure Spec.Regular {α : Type u} (A : Ops α) : Prop where
  eq : ∀ a b, A.eq a b = true ↔ a = b
  ne : ∀ a b, A.ne a b = !A.eq a b
  gt : ∀ a b, A.gt a b = A.lt b a
  lt : StrictWeak A.lt

/-- lexicographic order: the first members decide, the second members when the first are equivalent -/
def Spec.LexLt {α : Type u} {β : Type v} (lt1 : α → α → Bool) (lt2 : β → β → Bool) (l r : α × β) : Prop :=
  lt1 l.1 r.1 = true ∨ (lt1 l.1 r.1 = false ∧ lt1 r.1 l.1 = false ∧ lt2 l.2 r.2 = true)

section
variable {α : Type u} {β : Type v} {A : Ops α} {B : Ops β}

/-- C69: `<` of pairs is the lexicographic order -/
theorem pair_lt_iff (hA : Spec.Regular A) (l r : α × β) :
    pairLt A B l r = true ↔ Spec.LexLt A.lt B.lt l r := by
  unfold pairLt Spec.LexLt
  rw [hA.gt]
  cases h1 : A.lt l.1 r.1 <;> cases h2 : A.lt r.1 l.1 <;> simp

/-- C69: `>` is `<` the other way round -/
theorem pair_gt_eq (hA : Spec.Regular A) (hB : Spec.Regular B) (l r : α × β) :
    pairGt A B l r = pairLt A B r l := by
  unfold pairGt pairLt
  rw [hA.gt, hA.gt, hB.gt]

/-- C69: pairs of ordered components are ordered -/
theorem pair_lt_strictWeak (hA : Spec.Regular A) (hB : Spec.Regular B) : StrictWeak (pairLt A B) := by
  have key : ∀ l r, pairLt A B l r =
      (A.lt l.1 r.1 || (!A.lt r.1 l.1 && B.lt l.2 r.2)) := by
    intro l r
    unfold pairLt; rw [hA.gt]
    cases A.lt l.1 r.1 <;> cases A.lt r.1 l.1 <;> simp
  refine ⟨?_, ?_, ?_⟩
  · intro a; simp [key, hA.lt.irrefl, hB.lt.irrefl]
  · intro a b c h1 h2
    rw [key] at *
    have t1 := hA.lt.trans a.1 b.1 c.1
    have n1 := hA.lt.negTrans c.1 b.1 a.1
    have n2 := hA.lt.negTrans a.1 c.1 b.1
    have n3 := hA.lt.negTrans b.1 a.1 c.1
    have t2 := hB.lt.trans a.2 b.2 c.2
    have as1 := @StrictWeak.asymm _ _ hA.lt a.1 b.1
    have as2 := @StrictWeak.asymm _ _ hA.lt b.1 c.1
    grind
  · intro a b c h1 h2
    rw [key] at *
    have t1 := hA.lt.negTrans a.1 b.1 c.1
    have n1 := hA.lt.negTrans c.1 b.1 a.1
    have n2 := hA.lt.negTrans a.1 c.1 b.1
    have n3 := hA.lt.negTrans b.1 a.1 c.1
    have n4 := hA.lt.trans c.1 b.1 a.1
    have n5 := hA.lt.negTrans c.1 a.1 b.1
    have n6 := hA.lt.negTrans b.1 c.1 a.1
    have t2 := hB.lt.negTrans a.2 b.2 c.2
    grind

/-- C69: `==` means both members equal; `!=` is its negation -/
theorem pair_eq_iff (hA : Spec.Regular A) (hB : Spec.Regular B) (l r : α × β) :
    (pairEq A B l r = true ↔ l = r) ∧ pairNe A B l r = !pairEq A B l r := by
  constructor
  · simp [pairEq, hA.eq, hB.eq, Prod.ext_iff]
  · simp [pairNe, pairEq, hA.ne, hB.ne]

/-- integers as components -/
def intOps : Ops Int := ⟨fun a b => a == b, fun a b => a != b, fun a b => decide (a < b), fun a b => decide (a > b)⟩

theorem intOps_regular : Spec.Regular intOps := by
  refine ⟨by simp [intOps], by intro a b; rfl, by intro a b; rfl, strictWeak_intLt⟩

example : pairLt intOps intOps (1, 9) (2, 0) = true ∧ pairLt intOps intOps (2, 0) (2, 0) = false ∧
    pairGt intOps intOps (2, 1) (2, 0) = true := by decide +kernel

/-- an order with an unordered element, as `NaN` is for floating point: `none` -/
def nanOps : Ops (Option Int) where
  eq a b := match a, b with | some x, some y => x == y | _, _ => false
  ne a b := match a, b with | some x, some y => x != y | _, _ => true
  lt a b := match a, b with | some x, some y => decide (x < y) | _, _ => false
  gt a b := match a, b with | some x, some y => decide (x > y) | _, _ => false

/-- C69: without an ordered first component the pairs are not ordered: three pairs, each below the next, in a circle -/
theorem pair_lt_nan_cycle : pairLt nanOps nanOps (some 1, some 1) (none, some 2) = true ∧
    pairLt nanOps nanOps (none, some 2) (some 0, some 3) = true ∧
    pairLt nanOps nanOps (some 0, some 3) (some 1, some 1) = true := by decide +kernel

/-- C69: a pair made from two values holds them, `get` and assignment through `get` reach the right member -/
theorem pair_get_set (x y v : α) (e e' : Elem) :
    getElem (x, y) .first = x ∧ getElem (x, y) .second = y ∧
      getElem (setElem (x, y) e v) e = v ∧ (e ≠ e' → getElem (setElem (x, y) e v) e' = getElem (x, y) e') := by
  cases e <;> cases e' <;> simp [getElem, setElem]

/-- C69: **Violation.** a pair constructed from rvalues copies them: the sources keep their values instead of being
moved from (and a type that can only be moved cannot be put into a pair this way) -/
theorem pair_construct_copies (rv1 rv2 : Bool) (x : α) (y : β) :
    (pairConstruct rv1 rv2 x y).1 = (x, y) ∧ (pairConstruct rv1 rv2 x y).2.1 = x ∧
      (pairConstruct rv1 rv2 x y).2.2 = y := ⟨rfl, rfl, rfl⟩

end

end Verif.Utility
