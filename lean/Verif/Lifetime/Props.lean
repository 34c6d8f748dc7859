import Verif.Lifetime.Spec

/-!
# C74: the elements a fixed-capacity vector constructs are destroyed once, and its elements are objects
-/
namespace Verif.Lifetime
open DynArray (Res) 
open Spec
variable {α : Type u}

/-! ## Storage without objects: `layer1::vector` -/

/-- the cells of a vector holding `l` in raw memory of `cap` cells -/
def rawCells (cap : Nat) (l : List α) : List (Option (Obj α)) :=
  l.map (fun x => some (.val x)) ++ List.replicate (cap - l.length) none

theorem rawCells_length {cap : Nat} {l : List α} (h : l.length ≤ cap) : (rawCells cap l).length = cap := by
  simp [rawCells]; omega

theorem rawCells_get {cap : Nat} {l : List α} (j : Nat) :
    (rawCells cap l)[j]? = if h : j < l.length then some (some (.val l[j])) else if j < cap then some none else none := by
  unfold rawCells
  by_cases h : j < l.length
  · rw [List.getElem?_append_left (by simpa using h)]; simp [h]
  · rw [List.getElem?_append_right (by simp; omega)]
    simp only [List.length_map, List.getElem?_replicate, h, dite_false]
    by_cases h2 : j < cap
    · rw [if_pos (by omega), if_pos h2]
    · rw [if_neg (by omega), if_neg h2]

/-- the state of a vector in raw memory after a history fit for it -/
def RawInv (cap : Nat) (s : St α) (l : List α) : Prop :=
  s.slots = rawCells cap l ∧ s.size = l.length ∧ l.length ≤ cap ∧ s.born = s.died + l.length

theorem raw_build {cap : Nat} {s : St α} {l : List α} (h : RawInv cap s l) (v : α) (hc : l.length < cap) :
    ∃ s', ((grow s 1).bind fun s' => construct s' s.size (.val v)) = .ok s' ∧ RawInv cap s' (l ++ [v]) ∧ s'.died = s.died := by
  obtain ⟨h1, h2, h3, h4⟩ := h
  have hl : s.slots.length = cap := by rw [h1]; exact rawCells_length h3
  refine ⟨{ s with slots := s.slots.set s.size (some (.val v)), size := s.size + 1, born := s.born + 1 }, ?_, ?_, rfl⟩
  · unfold grow
    rw [if_pos (by omega)]
    simp only [Res.bind, construct]
    rw [if_pos (by omega)]
  · refine ⟨?_, by simp [h2], by simp; omega, by simp; omega⟩
    simp only
    apply List.ext_getElem?
    intro j
    rw [List.getElem?_set, h1, h2, rawCells_get, rawCells_get, rawCells_length h3]
    by_cases hj : l.length = j
    · subst hj; simp [hc]
    · rw [if_neg hj]
      by_cases h' : j < l.length
      · rw [dif_pos h', dif_pos (by simp; omega), List.getElem_append_left h']
      · rw [dif_neg h', dif_neg (by simp; omega)]

theorem raw_pop {cap : Nat} {s : St α} {l : List α} (h : RawInv cap s l) (hl : l.length ≠ 0) :
    ∃ s', pop s = .ok s' ∧ RawInv cap s' l.dropLast ∧ s'.died = s.died + 1 := by
  obtain ⟨h1, h2, h3, h4⟩ := h
  refine ⟨{ s with slots := s.slots.set (l.length - 1) none, size := l.length - 1, died := s.died + 1 }, ?_, ?_, rfl⟩
  · unfold pop
    rw [if_neg (by omega)]
    unfold destroy
    rw [h2, h1, rawCells_get, dif_pos (by omega)]
    rfl
  · refine ⟨?_, by simp, by simp; omega, by simp; omega⟩
    simp only
    apply List.ext_getElem?
    intro j
    rw [List.getElem?_set, h1, rawCells_get, rawCells_get, rawCells_length h3]
    have hd : l.dropLast.length = l.length - 1 := List.length_dropLast
    by_cases hj : l.length - 1 = j
    · subst hj; rw [if_pos rfl, if_pos (by omega), dif_neg (by omega)]
    · rw [if_neg hj]
      by_cases h' : j < l.length - 1
      · rw [dif_pos (by omega), dif_pos (by omega), List.getElem_dropLast]
      · rw [dif_neg (by omega), dif_neg (by omega)]

theorem raw_step {cap : Nat} {s : St α} {l l' : List α} (b : Bool) {o : Op α} (h : RawInv cap s l) (hf : Op.ends l.length o)
    (ha : apply cap l o = some l') : ∃ s', step b s o = .ok s' ∧ RawInv cap s' l' := by
  cases o with
  | pushCopy v => exact hf.elim
  | pushMove v =>
    simp only [apply] at ha
    split at ha
    · cases ha; obtain ⟨s', e, i, -⟩ := raw_build h v (by assumption); exact ⟨s', e, i⟩
    · cases ha
  | emplace v =>
    simp only [apply] at ha
    split at ha
    · cases ha; obtain ⟨s', e, i, -⟩ := raw_build h v (by assumption); exact ⟨s', e, i⟩
    · cases ha
  | pop =>
    simp only [apply] at ha
    split at ha
    · cases ha
    · cases ha; obtain ⟨s', e, i, -⟩ := raw_pop h (by assumption); exact ⟨s', e, i⟩
  | insertMove i v =>
    have hi : i = l.length := hf
    subst hi
    simp only [apply] at ha
    split at ha
    · rename_i hc
      cases ha
      obtain ⟨s', e, inv, -⟩ := raw_build h v hc.2
      refine ⟨s', ?_, by simpa using inv⟩
      have h2 := h.2.1
      simp only [step, insertMove]
      rw [if_neg (by omega), show s.size - l.length = 0 by omega, ← h2]
      rw [← e]
      cases grow s 1 <;> rfl
    · cases ha
  | insertRange i vs => exact hf.elim
  | erase i => exact hf.elim
  | resize n =>
    have hi : n = l.length := hf
    subst hi
    simp only [apply, Nat.le_refl, if_true] at ha
    cases ha
    refine ⟨s, ?_, by simpa using h⟩
    obtain ⟨h1, h2, h3, h4⟩ := h
    simp only [step, resize]
    rw [if_pos (by rw [h1, rawCells_length h3]; exact h3), ← h2]

theorem raw_run {cap : Nat} (b : Bool) (ops : List (Op α)) :
    ∀ (s : St α) (l : List α), RawInv cap s l → Legal Op.ends cap l ops →
      ∃ s' l', run b s ops = .ok s' ∧ applyAll cap l ops = some l' ∧ RawInv cap s' l' := by
  induction ops with
  | nil => intro s l h _; exact ⟨s, l, rfl, rfl, h⟩
  | cons o os ih =>
    intro s l h hL
    obtain ⟨hf, l1, ha, hL⟩ := hL
    obtain ⟨s1, e1, h1⟩ := raw_step b h hf ha
    obtain ⟨s', l', e2, e3, h2⟩ := ih s1 l1 h1 hL
    exact ⟨s', l', by simp [run, e1, e2], by simp [applyAll, ha, e3], h2⟩

theorem rawInv_init (cap : Nat) : RawInv cap (raw cap : St α) [] := by
  refine ⟨by simp [raw, rawCells], rfl, by simp, rfl⟩

/-- **C74, for the operations fit for raw memory.**  However long a history of moving `push_back`s, `emplace_back`s,
`pop_back`s and insertions at the end of a `layer1::vector`, it never touches a cell without an object as if there were one,
the vector's elements are objects with the values of the sequence, there is no object in any other cell, and every element
ever constructed has been destroyed exactly once or is still in the vector. -/
theorem raw_history_partial (cap : Nat) (b : Bool) (ops : List (Op α)) (hL : Legal Op.ends cap [] ops) :
    ∃ s l, run b (raw cap) ops = .ok s ∧ applyAll cap [] ops = some l ∧ Holds s l ∧ NoLeak s ∧
      ∀ i, l.length ≤ i → i < cap → s.slots[i]? = some none := by
  obtain ⟨s, l, e1, e2, h1, h2, h3, h4⟩ := raw_run b ops (raw cap) [] (rawInv_init cap) hL
  refine ⟨s, l, e1, e2, ⟨h2, ?_⟩, by unfold NoLeak; omega, ?_⟩
  · intro i hi; rw [h1, rawCells_get, dif_pos hi]
  · intro i hi hc; rw [h1, rawCells_get, dif_neg (by omega), if_pos hc]

/-- **C74, the end of it.**  After such a history nothing has leaked at the end of the vector if and only if it was
emptied: its destructor destroys nothing. -/
theorem raw_end (cap : Nat) (b : Bool) (ops : List (Op α)) (hL : Legal Op.ends cap [] ops) :
    ∃ s l s', run b (raw cap) ops = .ok s ∧ applyAll cap [] ops = some l ∧ finishRaw s = .ok s' ∧
      s'.born = s'.died + l.length := by
  obtain ⟨s, l, e1, e2, h1, h2, h3, h4⟩ := raw_run b ops (raw cap) [] (rawInv_init cap) hL
  exact ⟨s, l, s, e1, e2, rfl, h4⟩

/-- a history fit for raw memory -/
def rawOps : List (Op Nat) := [.emplace 7, .pushMove 8, .pop, .insertMove 1 9, .emplace 4]

example : Legal Op.ends 3 [] rawOps := by
  simp [rawOps, Legal, Op.ends, apply]

/-- **Violation.**  `push_back(const T&)` assigns to the cell past the end, where there is no object: after every history
fit for raw memory it is undefined, if there is room. -/
theorem push_copy_ub (cap : Nat) (b : Bool) (ops : List (Op α)) (l : List α) (hL : Legal Op.ends cap [] ops)
    (hl : applyAll cap [] ops = some l) (hc : l.length < cap) (v : α) :
    (run b (raw cap) ops).bind (fun s => step b s (.pushCopy v)) = .ub := by
  obtain ⟨s, l', e1, e2, h1, h2, h3, h4⟩ := raw_run b ops (raw cap) [] (rawInv_init cap) hL
  rw [hl] at e2; cases e2
  have hlen : s.slots.length = cap := by rw [h1]; exact rawCells_length h3
  rw [e1]
  simp only [Res.bind, step, pushCopy, grow]
  rw [if_pos (by omega)]
  simp only [assignAll, assign]
  rw [h1, h2, rawCells_get, dif_neg (by omega), if_pos hc]
  rfl

example : ∃ l, applyAll 3 [] (rawOps.take 3) = some l ∧ l.length < 3 := ⟨[7], rfl, by decide⟩

/-- **Violation.**  Inserting before the end a value of a type with a move assignment assigns to the cell past the end,
where there is no object: undefined after every history fit for raw memory, if there is room. -/
theorem insert_middle_ub (cap : Nat) (ops : List (Op α)) (l : List α) (hL : Legal Op.ends cap [] ops)
    (hl : applyAll cap [] ops = some l) (hc : l.length < cap) (i : Nat) (hi : i < l.length) (v : α) :
    (run true (raw cap) ops).bind (fun s => step true s (.insertMove i v)) = .ub := by
  obtain ⟨s, l', e1, e2, h1, h2, h3, h4⟩ := raw_run true ops (raw cap) [] (rawInv_init cap) hL
  rw [hl] at e2; cases e2
  have hlen : s.slots.length = cap := by rw [h1]; exact rawCells_length h3
  rw [e1]
  simp only [Res.bind, step, insertMove, grow]
  rw [if_neg (by omega), if_pos (by omega)]
  obtain ⟨k, hk⟩ : ∃ k, s.size - i = k + 1 := ⟨s.size - i - 1, by omega⟩
  rw [hk]
  simp only [shift, if_true, moveAssign, read, assign]
  rw [h1, rawCells_get, dif_pos (by omega)]
  simp only [Res.bind]
  rw [rawCells_get, dif_neg (by omega), if_pos (by omega)]

/-- what the constructing loop does with the cells -/
theorem shift_construct (i : Nat) : ∀ (k : Nat) (s : St α), i + k < s.slots.length →
    (∀ j, i ≤ j → j < i + k → ∃ o, s.slots[j]? = some (some o)) →
    ∃ s', shift moveConstruct i 1 k s = .ok s' ∧ s'.size = s.size ∧ s'.died = s.died ∧ s'.born = s.born + k ∧
      ∀ j, s'.slots[j]? = if i < j ∧ j ≤ i + k then s.slots[j - 1]? else if j = i ∧ 0 < k then some (some .moved) else s.slots[j]? := by
  intro k
  induction k with
  | zero =>
    intro s _ _
    refine ⟨s, rfl, rfl, rfl, rfl, ?_⟩
    intro j
    rw [if_neg (by omega), if_neg (by omega)]
  | succ k ih =>
    intro s hlen hlive
    obtain ⟨o, ho⟩ := hlive (i + k) (by omega) (by omega)
    let t : St α := { s with slots := (s.slots.set (i + k + 1) (some o)).set (i + k) (some .moved), born := s.born + 1 }
    have e : moveConstruct s (i + k) (i + k + 1) = .ok t := by
      simp only [moveConstruct, read, ho, Res.bind, construct]
      rw [if_pos (by omega)]
      simp only [assign]
      rw [List.getElem?_set, if_neg (by omega), ho]
    have ht : ∀ j, t.slots[j]? = if j = i + k then some (some .moved) else if j = i + k + 1 then some (some o) else s.slots[j]? := by
      intro j
      simp only [t, List.getElem?_set, List.length_set]
      by_cases h1 : i + k = j
      · rw [if_pos h1, if_pos (by omega), if_pos h1.symm]
      · rw [if_neg h1, if_neg (Ne.symm h1)]
        by_cases h2 : i + k + 1 = j
        · rw [if_pos h2, if_pos (by omega), if_pos h2.symm]
        · rw [if_neg h2, if_neg (Ne.symm h2)]
    obtain ⟨s', e1, e2, e3, e4, e5⟩ := ih t (by simp [t]; omega) (by
      intro j h1 h2
      rw [ht, if_neg (by omega), if_neg (by omega)]
      exact hlive j h1 (by omega))
    refine ⟨s', ?_, e2, e3, by rw [e4]; simp only [t]; omega, ?_⟩
    · rw [shift, e]; exact e1
    · intro j
      rw [e5]
      by_cases c1 : i < j ∧ j ≤ i + k
      · rw [if_pos c1, if_pos (by omega), ht, if_neg (by omega), if_neg (by omega)]
      · rw [if_neg c1]
        by_cases c2 : j = i + k + 1
        · subst c2
          rw [if_neg (by omega), if_pos (by omega), ht, if_neg (by omega), if_pos rfl]
          simp [ho]
        · rw [if_neg (c := i < j ∧ j ≤ i + (k + 1)) (by omega)]
          by_cases c3 : j = i
          · subst c3
            by_cases c4 : 0 < k
            · rw [if_pos ⟨rfl, c4⟩, if_pos (by omega)]
            · rw [if_neg (by omega), if_pos (by omega), ht, if_pos (by omega)]
          · rw [if_neg (by omega), if_neg (by omega), ht, if_neg (by omega), if_neg (by omega)]

/-- **Violation.**  Inserting before the end a value of a type with a move constructor but no move assignment puts the
right values in the vector, and constructs over the objects it moved from without destroying them: as many lifetimes as
there are elements from the position on are lost. -/
theorem insert_middle_leaks (cap : Nat) (ops : List (Op α)) (l : List α) (hL : Legal Op.ends cap [] ops)
    (hl : applyAll cap [] ops = some l) (hc : l.length < cap) (i : Nat) (hi : i ≤ l.length) (v : α) :
    ∃ s, (run false (raw cap) ops).bind (fun s => step false s (.insertMove i v)) = .ok s ∧
      Holds s (l.take i ++ v :: l.drop i) ∧ s.born = s.died + s.size + (l.length - i) := by
  obtain ⟨s, l', e1, e2, h1, h2, h3, h4⟩ := raw_run false ops (raw cap) [] (rawInv_init cap) hL
  rw [hl] at e2; cases e2
  have hlen : s.slots.length = cap := by rw [h1]; exact rawCells_length h3
  obtain ⟨t, f1, f2, f3, f4, f5⟩ := shift_construct i (l.length - i) { s with size := s.size + 1 } (by simp only; omega) (by
    intro j c1 c2
    simp only
    rw [h1, rawCells_get, dif_pos (by omega)]
    exact ⟨_, rfl⟩)
  simp only at f2 f3 f4 f5
  have htl : cap ≤ t.slots.length := by
    apply Nat.le_of_not_lt
    intro hlt
    have := f5 (cap - 1)
    rw [List.getElem?_eq_none (by omega)] at this
    rw [h1] at this
    simp only [rawCells_get] at this
    by_cases c : i < cap - 1 ∧ cap - 1 ≤ i + (l.length - i)
    · rw [if_pos c, dif_pos (by omega)] at this; cases this
    · rw [if_neg c] at this
      split at this
      · cases this
      · split at this
        · cases this
        · rw [if_pos (by omega)] at this; cases this
  refine ⟨{ t with slots := t.slots.set i (some (.val v)), born := t.born + 1 }, ?_, ⟨?_, ?_⟩, ?_⟩
  · rw [e1]
    simp only [Res.bind, step, insertMove, grow]
    rw [if_neg (by omega), if_pos (by omega)]
    simp only [Bool.false_eq_true, if_false]
    rw [h2] at f1 ⊢
    rw [f1]
    simp only [construct]
    rw [if_pos (by omega)]
  · simp only [f2, h2, List.length_append, List.length_cons, List.length_take, List.length_drop]; omega
  · intro j hj
    simp only [List.length_append, List.length_cons, List.length_take, List.length_drop] at hj
    simp only [List.getElem?_set]
    by_cases c : i = j
    · subst c
      rw [if_pos rfl, if_pos (by omega)]
      rw [List.getElem_append_right (by simp; omega)]
      simp [Nat.min_eq_left hi]
    · rw [if_neg c, f5]
      by_cases c2 : j < i
      · rw [if_neg (by omega), if_neg (by omega), h1, rawCells_get, dif_pos (by omega),
          List.getElem_append_left (by simp; omega)]
        simp
      · rw [if_pos (by omega), h1, rawCells_get, dif_pos (by omega), List.getElem_append_right (by simp; omega)]
        simp only [List.length_take, Nat.min_eq_left hi]
        obtain ⟨m, hm⟩ : ∃ m, j - i = m + 1 := ⟨j - i - 1, by omega⟩
        simp only [hm, List.getElem_cons_succ, List.getElem_drop]
        congr; omega
  · simp only [f3, f4, f2, h2]; omega

example : ∃ l, Legal Op.ends 4 [] rawOps ∧ applyAll 4 [] rawOps = some l ∧ l.length < 4 ∧ 1 < l.length :=
  ⟨[7, 9, 4], by simp [rawOps, Legal, Op.ends, apply], rfl, by decide, by decide⟩

/-- **Violation.**  `clear()` and a `resize` to fewer elements destroy nothing: the lifetimes of the elements that go are
lost. -/
theorem resize_leaks (cap : Nat) (b : Bool) (ops : List (Op α)) (l : List α) (hL : Legal Op.ends cap [] ops)
    (hl : applyAll cap [] ops = some l) (n : Nat) (hn : n ≤ l.length) :
    ∃ s, (run b (raw cap) ops).bind (fun s => step b s (.resize n)) = .ok s ∧ Holds s (l.take n) ∧
      s.born = s.died + s.size + (l.length - n) := by
  obtain ⟨s, l', e1, e2, h1, h2, h3, h4⟩ := raw_run b ops (raw cap) [] (rawInv_init cap) hL
  rw [hl] at e2; cases e2
  have hlen : s.slots.length = cap := by rw [h1]; exact rawCells_length h3
  refine ⟨{ s with size := n }, ?_, ⟨by simp; omega, ?_⟩, by simp only; omega⟩
  · rw [e1]; simp only [Res.bind, step, resize]; rw [if_pos (by omega)]
  · intro i hi
    simp only [List.length_take] at hi
    simp only [h1, rawCells_get, List.getElem_take]
    rw [dif_pos (by omega)]

/-- **Violation.**  `resize` to more elements constructs nothing: reading an element it added is undefined. -/
theorem resize_grow_read_ub (cap : Nat) (b : Bool) (ops : List (Op α)) (l : List α) (hL : Legal Op.ends cap [] ops)
    (hl : applyAll cap [] ops = some l) (n i : Nat) (hn : n ≤ cap) (h1 : l.length ≤ i) (h2 : i < n) :
    ∃ s, (run b (raw cap) ops).bind (fun s => step b s (.resize n)) = .ok s ∧ s.size = n ∧ read s i = .ub := by
  obtain ⟨s, l', e1, e2, g1, g2, g3, g4⟩ := raw_run b ops (raw cap) [] (rawInv_init cap) hL
  rw [hl] at e2; cases e2
  have hlen : s.slots.length = cap := by rw [g1]; exact rawCells_length g3
  refine ⟨{ s with size := n }, ?_, rfl, ?_⟩
  · rw [e1]; simp only [Res.bind, step, resize]; rw [if_pos (by omega)]
  · simp only [read, g1, rawCells_get]
    rw [dif_neg (by omega), if_pos (by omega)]

/-- **Violation.**  `erase` of the last element does not destroy it, and `erase` of any other moves bytes of objects. -/
theorem erase_leaks (cap : Nat) (b : Bool) (ops : List (Op α)) (l : List α) (hL : Legal Op.ends cap [] ops)
    (hl : applyAll cap [] ops = some l) (i : Nat) (hi : i < l.length) :
    if i + 1 = l.length then
      ∃ s, (run b (raw cap) ops).bind (fun s => step b s (.erase i)) = .ok s ∧ Holds s l.dropLast ∧ s.born = s.died + s.size + 1
    else (run b (raw cap) ops).bind (fun s => step b s (.erase i)) = .ub := by
  obtain ⟨s, l', e1, e2, h1, h2, h3, h4⟩ := raw_run b ops (raw cap) [] (rawInv_init cap) hL
  rw [hl] at e2; cases e2
  rw [e1]
  simp only [Res.bind, step, erase]
  by_cases c : i + 1 = l.length
  · rw [if_pos c, if_pos (c := i < s.size) (by omega), if_pos (by omega)]
    refine ⟨_, rfl, ⟨by simp [h2], ?_⟩, by simp only; omega⟩
    intro j hj
    simp only [List.length_dropLast] at hj
    simp only [h1, rawCells_get, List.getElem_dropLast]
    rw [dif_pos (by omega)]
  · rw [if_neg c, if_pos (c := i < s.size) (by omega), if_neg (by omega)]

/-- C74: adding more elements than there is room for ends the program; no cell outside the vector's is touched. -/
theorem full_aborts (cap : Nat) (b : Bool) (ops : List (Op α)) (l : List α) (hL : Legal Op.ends cap [] ops)
    (hl : applyAll cap [] ops = some l) (o : Op α)
    (ho : (∃ v, (o = .pushMove v ∨ o = .emplace v ∨ o = .pushCopy v ∨ ∃ i ≤ l.length, o = .insertMove i v) ∧ cap < l.length + 1) ∨
      (∃ i ≤ l.length, ∃ vs, o = .insertRange i vs ∧ cap < l.length + vs.length) ∨ ∃ n, o = .resize n ∧ cap < n) :
    (run b (raw cap) ops).bind (fun s => step b s o) = .abort := by
  obtain ⟨s, l', e1, e2, h1, h2, h3, h4⟩ := raw_run b ops (raw cap) [] (rawInv_init cap) hL
  rw [hl] at e2; cases e2
  have hlen : s.slots.length = cap := by rw [h1]; exact rawCells_length h3
  rw [e1]
  simp only [Res.bind]
  rcases ho with ⟨v, (rfl | rfl | rfl | ⟨i, hi, rfl⟩), hc⟩ | ⟨i, hi, vs, rfl, hc⟩ | ⟨n, rfl, hc⟩
  · simp only [step, pushMove, grow]; rw [if_neg (by omega)]; rfl
  · simp only [step, emplace, grow]; rw [if_neg (by omega)]; rfl
  · simp only [step, pushCopy, grow]; rw [if_neg (by omega)]; rfl
  · simp only [step, insertMove, grow]; rw [if_neg (by omega), if_neg (by omega)]; rfl
  · simp only [step, insertRange, grow]; rw [if_neg (by omega), if_neg (by omega)]; rfl
  · simp only [step, resize]; rw [if_neg (by omega)]

example : applyAll 3 [] rawOps = some [7, 9, 4] := rfl

end Verif.Lifetime
