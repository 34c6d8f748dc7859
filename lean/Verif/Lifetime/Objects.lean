import Verif.Lifetime.Props

/-!
# C74, vectors over the caller's array of objects (`layer2`, `layer3`)
-/
namespace Verif.Lifetime
open DynArray (Res)
open Spec
variable {α : Type u}

/-- the state of a vector over an array of objects after a history fit for it -/
def ObjInv (cap : Nat) (s : St α) (l : List α) : Prop :=
  (∃ xs : List α, s.slots = xs.map (fun x => some (.val x)) ∧ xs.length = cap ∧ xs.take l.length = l) ∧
    s.size = l.length ∧ l.length ≤ cap ∧ s.born = cap ∧ s.died = 0

theorem assign_live {s : St α} {xs : List α} (h : s.slots = xs.map (fun x => some (.val x))) {i : Nat} (hi : i < xs.length) (v : α) :
    assign s i (.val v) = .ok { s with slots := (xs.set i v).map (fun x => some (.val x)) } := by
  unfold assign
  rw [h, List.getElem?_map, List.getElem?_eq_getElem hi]
  simp [List.map_set]

theorem assignAll_live (vs : List α) : ∀ (s : St α) (xs : List α) (i : Nat), s.slots = xs.map (fun x => some (.val x)) →
    i + vs.length ≤ xs.length →
    assignAll s i vs = .ok { s with slots := (xs.take i ++ vs ++ xs.drop (i + vs.length)).map (fun x => some (.val x)) } := by
  induction vs with
  | nil => intro s xs i h _; simp only [assignAll, List.append_nil, List.length_nil, Nat.add_zero, List.take_append_drop, ← h]
  | cons v vs ih =>
    intro s xs i h hi
    simp only [List.length_cons] at hi
    rw [assignAll, assign_live h (by omega)]
    simp only [Res.bind]
    rw [ih _ (xs.set i v) (i + 1) rfl (by simp; omega)]
    congr 3
    rw [List.take_set, List.drop_set, if_pos (by omega)]
    have : (xs.take (i + 1)).set i v = xs.take i ++ [v] := by
      apply List.ext_getElem?
      intro j
      rw [List.getElem?_set, List.length_take]
      by_cases c : i = j
      · subst c
        rw [if_pos rfl, if_pos (by omega), List.getElem?_append_right (by simp; omega)]
        simp [Nat.min_eq_left (show i ≤ xs.length by omega)]
      · rw [if_neg c]
        by_cases c2 : j < i
        · rw [List.getElem?_append_left (by simp; omega), List.getElem?_take, List.getElem?_take, if_pos (by omega), if_pos c2]
        · rw [List.getElem?_take, if_neg (by omega), List.getElem?_eq_none (by simp; omega)]
    rw [this]
    simp [Nat.add_comm, Nat.add_left_comm]

theorem shift_copy (i d : Nat) (hd : 0 < d) : ∀ (k : Nat) (s : St α) (xs : List α), s.slots = xs.map (fun x => some (.val x)) →
    i + k + d ≤ xs.length →
    ∃ ys : List α, shift copyAssign i d k s = .ok { s with slots := ys.map (fun x => some (.val x)) } ∧ ys.length = xs.length ∧
      ∀ j, ys[j]? = if i + d ≤ j ∧ j < i + d + k then xs[j - d]? else xs[j]? := by
  intro k
  induction k with
  | zero => intro s xs h _; exact ⟨xs, by simp [shift, ← h], rfl, fun j => by rw [if_neg (by omega)]⟩
  | succ k ih =>
    intro s xs h hl
    have e : copyAssign s (i + k) (i + k + d) = .ok { s with slots := (xs.set (i + k + d) (xs[i + k]'(by omega))).map (fun x => some (.val x)) } := by
      unfold copyAssign read
      rw [h, List.getElem?_map, List.getElem?_eq_getElem (by omega)]
      exact assign_live h (by omega) _
    obtain ⟨ys, e1, e2, e3⟩ := ih { s with slots := (xs.set (i + k + d) (xs[i + k]'(by omega))).map (fun x => some (.val x)) }
      (xs.set (i + k + d) (xs[i + k]'(by omega))) rfl (by simp; omega)
    refine ⟨ys, ?_, by simpa using e2, ?_⟩
    · rw [shift, e]; exact e1
    · intro j
      rw [e3]
      by_cases c : i + d ≤ j ∧ j < i + d + k
      · rw [if_pos c, if_pos (by omega), List.getElem?_set, if_neg (by omega)]
      · rw [if_neg c, List.getElem?_set]
        by_cases c2 : i + k + d = j
        · subst c2
          rw [if_pos rfl, if_pos (by omega), if_pos (by omega), Nat.add_sub_cancel, List.getElem?_eq_getElem]
        · rw [if_neg c2, if_neg (by omega)]

theorem take_eq_get {xs l : List α} (h : xs.take l.length = l) (j : Nat) (hj : j < l.length) : xs[j]? = l[j]? := by
  have := List.getElem?_take (l := xs) (i := l.length) (j := j)
  rw [h, if_pos hj] at this
  exact this.symm

theorem obj_pushCopy {cap : Nat} {s : St α} {l : List α} (h : ObjInv cap s l) (v : α) (hc : l.length < cap) :
    ∃ s', pushCopy s v = .ok s' ∧ ObjInv cap s' (l ++ [v]) := by
  obtain ⟨⟨xs, h1, hx, ht⟩, h2, h3, h4, h5⟩ := h
  have hlen : s.slots.length = cap := by rw [h1]; simpa using hx
  refine ⟨{ s with size := s.size + 1, slots := (xs.take l.length ++ [v] ++ xs.drop (l.length + 1)).map (fun x => some (.val x)) },
    ?_, ⟨xs.take l.length ++ [v] ++ xs.drop (l.length + 1), rfl, ?_, ?_⟩, ?_, ?_, h4, h5⟩
  · unfold pushCopy grow
    rw [if_pos (by omega)]
    simp only [Res.bind]
    rw [assignAll_live [v] { s with size := s.size + 1 } xs s.size h1 (by simp; omega), h2]
    rfl
  · simp; omega
  · rw [ht, show (l ++ [v]).length = (l ++ [v]).length + 0 from rfl, List.take_left']
    rfl
  · simp [h2]
  · simp; omega

theorem obj_insertRange {cap : Nat} {s : St α} {l : List α} (h : ObjInv cap s l) (i : Nat) (vs : List α) (hi : i ≤ l.length)
    (hc : l.length + vs.length ≤ cap) :
    ∃ s', insertRange s i vs = .ok s' ∧ ObjInv cap s' (l.take i ++ vs ++ l.drop i) := by
  obtain ⟨⟨xs, h1, hx, ht⟩, h2, h3, h4, h5⟩ := h
  have hlen : s.slots.length = cap := by rw [h1]; simpa using hx
  by_cases hv : vs.length = 0
  · have : vs = [] := List.length_eq_zero_iff.mp hv
    subst this
    -- nothing to insert: the loop copies cells onto themselves
    have hself : ∀ k (t : St α), t.slots = s.slots → i + k ≤ cap → shift copyAssign i 0 k t = .ok t := by
      intro k
      induction k with
      | zero => intro t _ _; rfl
      | succ k ih =>
        intro t htt hk
        have e : copyAssign t (i + k) (i + k + 0) = .ok t := by
          unfold copyAssign read
          rw [htt, h1, List.getElem?_map, List.getElem?_eq_getElem (by omega)]
          simp only [Option.map, Res.bind, Nat.add_zero]
          rw [assign_live (htt.trans h1) (by omega)]
          rw [List.set_getElem_self, ← h1, ← htt]
        rw [shift, e]; exact ih t htt (by omega)
    refine ⟨s, ?_, ⟨xs, h1, hx, by simpa using ht⟩, by simpa using h2, by simpa using h3, h4, h5⟩
    unfold insertRange grow
    rw [if_neg (by omega), if_pos (by simp; omega)]
    simp only [Res.bind, List.length_nil, Nat.add_zero]
    rw [hself (s.size - i) s rfl (by omega)]
    rfl
  · obtain ⟨ys, e1, e2, e3⟩ := shift_copy i vs.length (by omega) (s.size - i) { s with size := s.size + vs.length } xs h1 (by omega)
    refine ⟨{ s with size := s.size + vs.length, slots := (ys.take i ++ vs ++ ys.drop (i + vs.length)).map (fun x => some (.val x)) },
      ?_, ⟨_, rfl, ?_, ?_⟩, ?_, ?_, h4, h5⟩
    · unfold insertRange grow
      rw [if_neg (by omega), if_pos (by omega)]
      simp only [Res.bind]
      rw [e1]
      simp only
      rw [assignAll_live vs _ ys i rfl (by omega)]
    · simp; omega
    · have hL : (l.take i ++ vs ++ l.drop i).length = l.length + vs.length := by simp; omega
      rw [hL]
      apply List.ext_getElem?
      intro j
      rw [List.getElem?_take]
      by_cases cj : j < l.length + vs.length
      · rw [if_pos cj]
        by_cases c1 : j < i
        · rw [List.append_assoc, List.getElem?_append_left (by simp; omega), List.append_assoc,
            List.getElem?_append_left (by simp; omega), List.getElem?_take, List.getElem?_take, if_pos c1, if_pos c1, e3,
            if_neg (by omega), take_eq_get ht j (by omega)]
        · by_cases c2 : j < i + vs.length
          · rw [List.getElem?_append_left (by simp; omega), List.getElem?_append_right (by simp; omega),
              List.getElem?_append_left (by simp; omega), List.getElem?_append_right (by simp; omega)]
            simp only [List.length_take, Nat.min_eq_left hi, Nat.min_eq_left (show i ≤ ys.length by omega)]
          · rw [List.getElem?_append_right (by simp; omega), List.getElem?_append_right (by simp; omega)]
            simp only [List.length_append, List.length_take, Nat.min_eq_left hi, Nat.min_eq_left (show i ≤ ys.length by omega),
              List.getElem?_drop]
            rw [e3, if_pos (by omega), ← take_eq_get ht _ (by omega)]
            congr 1; omega
      · rw [if_neg cj, List.getElem?_eq_none (by omega)]
    · simp; omega
    · simp; omega

theorem obj_resize {cap : Nat} {s : St α} {l : List α} (h : ObjInv cap s l) (n : Nat) (hn : n ≤ l.length) :
    ∃ s', resize s n = .ok s' ∧ ObjInv cap s' (l.take n) := by
  obtain ⟨⟨xs, h1, hx, ht⟩, h2, h3, h4, h5⟩ := h
  have hlen : s.slots.length = cap := by rw [h1]; simpa using hx
  refine ⟨{ s with size := n }, by unfold resize; rw [if_pos (by omega)], ⟨xs, h1, hx, ?_⟩, by simp; omega, by simp; omega, h4, h5⟩
  rw [List.length_take, Nat.min_eq_left hn]
  conv => rhs; rw [← ht]
  rw [List.take_take, Nat.min_eq_left hn]

theorem obj_step {cap : Nat} {s : St α} {l l' : List α} (b : Bool) {o : Op α} (h : ObjInv cap s l) (hf : Op.assigns l.length o)
    (ha : apply cap l o = some l') : ∃ s', step b s o = .ok s' ∧ ObjInv cap s' l' := by
  cases o with
  | pushCopy v =>
    simp only [apply] at ha
    split at ha
    · cases ha; exact obj_pushCopy h v (by assumption)
    · cases ha
  | pushMove v => exact hf.elim
  | emplace v => exact hf.elim
  | pop => exact hf.elim
  | insertMove i v => exact hf.elim
  | insertRange i vs =>
    simp only [apply] at ha
    split at ha
    · rename_i hc; cases ha; exact obj_insertRange h i vs hc.1 hc.2
    · cases ha
  | erase i =>
    have hi : i + 1 = l.length := hf
    simp only [apply] at ha
    rw [if_pos (by omega)] at ha
    cases ha
    obtain ⟨s', e, inv⟩ := obj_resize h (l.length - 1) (by omega)
    refine ⟨s', ?_, ?_⟩
    · have h2 := h.2.1
      rw [← e]
      simp only [step, erase, resize]
      obtain ⟨⟨xs, h1, hx, -⟩, -, h3, -⟩ := h
      have hlen : s.slots.length = cap := by rw [h1]; simpa using hx
      rw [if_pos (by omega), if_pos (by omega), if_pos (by omega), h2]
    · rw [List.eraseIdx_eq_take_drop_succ, hi, List.drop_length, List.append_nil]
      rw [show i = l.length - 1 by omega]; exact inv
  | resize n =>
    simp only [apply] at ha
    split at ha
    · cases ha; exact obj_resize h n (by assumption)
    · cases ha

theorem obj_run {cap : Nat} (b : Bool) (ops : List (Op α)) :
    ∀ (s : St α) (l : List α), ObjInv cap s l → Legal Op.assigns cap l ops →
      ∃ s' l', run b s ops = .ok s' ∧ applyAll cap l ops = some l' ∧ ObjInv cap s' l' := by
  induction ops with
  | nil => intro s l h _; exact ⟨s, l, rfl, rfl, h⟩
  | cons o os ih =>
    intro s l h hL
    obtain ⟨hf, l1, ha, hL⟩ := hL
    obtain ⟨s1, e1, h1⟩ := obj_step b h hf ha
    obtain ⟨s', l', e2, e3, h2⟩ := ih s1 l1 h1 hL
    exact ⟨s', l', by simp [run, e1, e2], by simp [applyAll, ha, e3], h2⟩

theorem objInv_init (xs : List α) : ObjInv xs.length (over xs) [] :=
  ⟨⟨xs, rfl, rfl, rfl⟩, rfl, by simp, rfl, rfl⟩

theorem objInv_holds {cap : Nat} {s : St α} {l : List α} (h : ObjInv cap s l) : Holds s l := by
  obtain ⟨⟨xs, h1, hx, ht⟩, h2, h3, h4, h5⟩ := h
  refine ⟨h2, fun i hi => ?_⟩
  rw [h1, List.getElem?_map, take_eq_get ht i hi, List.getElem?_eq_getElem hi]
  rfl

/-- **C74, for the operations fit for an array of objects.**  However long a history of copying `push_back`s, insertions of
ranges, shrinking `resize`s and `clear`s, and erasures of the last element, it only assigns to objects that are there, the
vector's elements are objects with the values of the sequence, no object is constructed or destroyed, and when the array
ends every one of its objects is destroyed exactly once. -/
theorem over_history_partial (xs : List α) (b : Bool) (ops : List (Op α)) (hL : Legal Op.assigns xs.length [] ops) :
    ∃ s l s', run b (over xs) ops = .ok s ∧ applyAll xs.length [] ops = some l ∧ Holds s l ∧ s.born = xs.length ∧
      s.died = 0 ∧ finishOver s = .ok s' ∧ s'.born = s'.died := by
  obtain ⟨s, l, e1, e2, h⟩ := obj_run b ops (over xs) [] (objInv_init xs) hL
  obtain ⟨⟨ys, h1, hx, ht⟩, h2, h3, h4, h5⟩ := id h
  refine ⟨s, l, { s with slots := s.slots.map fun _ => none, died := s.died + s.slots.length }, e1, e2, objInv_holds h, h4, h5, ?_, ?_⟩
  · unfold finishOver; rw [if_pos (by rw [h1]; simp)]
  · simp only [h4, h5, h1, List.length_map, hx, Nat.zero_add]

/-- a history fit for an array of objects -/
def overOps : List (Op Nat) := [.pushCopy 7, .pushCopy 8, .insertRange 1 [1, 2], .erase 3, .pushCopy 5, .resize 2, .insertRange 2 []]

example : Legal Op.assigns 4 [] overOps := by simp [overOps, Legal, Op.assigns, apply]
example : run true (over [0, 0, 0, 0]) overOps =
    .ok { slots := [some (.val 7), some (.val 1), some (.val 2), some (.val 5)], size := 2, born := 4, died := 0 } := by
  decide +kernel

/-- **Violation.**  `pop_back` destroys an object of the caller's array, which the array destroys again at its end: after
every history fit for an array of objects that leaves the vector not empty, `pop_back` and then the end of the array are
undefined. -/
theorem pop_destroys_twice (xs : List α) (b : Bool) (ops : List (Op α)) (l : List α) (hL : Legal Op.assigns xs.length [] ops)
    (hl : applyAll xs.length [] ops = some l) (hn : l ≠ []) :
    ∃ s, (run b (over xs) ops).bind (fun s => step b s .pop) = .ok s ∧ Holds s l.dropLast ∧ finishOver s = .ub ∧
      ∀ v, step b s (.pushCopy v) = .ub := by
  obtain ⟨s, l', e1, e2, h⟩ := obj_run b ops (over xs) [] (objInv_init xs) hL
  rw [hl] at e2; cases e2
  have hh := objInv_holds h
  obtain ⟨⟨ys, h1, hx, ht⟩, h2, h3, h4, h5⟩ := h
  have hlen : s.slots.length = xs.length := by rw [h1]; simpa using hx
  have hp := List.length_pos_iff.mpr hn
  have hg : s.slots[l.length - 1]? = some (some (Obj.val (l[l.length - 1]'(by omega)))) := hh.2 _ (by omega)
  refine ⟨{ s with slots := s.slots.set (l.length - 1) none, size := l.length - 1, died := s.died + 1 }, ?_, ⟨by simp, ?_⟩, ?_, ?_⟩
  · rw [e1]
    simp only [Res.bind, step, pop]
    rw [if_neg (by omega), h2]
    unfold destroy
    rw [hg]
  · intro i hi
    simp only [List.length_dropLast] at hi
    simp only [List.getElem?_set, List.getElem_dropLast]
    rw [if_neg (by omega)]
    exact hh.2 i (by omega)
  · unfold finishOver
    rw [if_neg]
    intro hall
    have := List.all_eq_true.mp hall none (List.mem_iff_getElem?.mpr ⟨l.length - 1, by
      rw [List.getElem?_set, if_pos rfl, if_pos (by omega)]⟩)
    cases this
  · intro v
    simp only [step, pushCopy, grow, List.length_set]
    rw [if_pos (by omega)]
    have hg : (s.slots.set (l.length - 1) none)[l.length - 1]? = some none := by
      rw [List.getElem?_set, if_pos rfl, if_pos (by omega)]
    simp only [Res.bind, assignAll, assign, hg]

/-- **Violation.**  A moving `push_back` or `emplace_back` constructs over an object of the caller's array without
destroying it: the values are right, and one more object is constructed than is ever destroyed. -/
theorem push_move_leaks (xs : List α) (b : Bool) (ops : List (Op α)) (l : List α) (hL : Legal Op.assigns xs.length [] ops)
    (hl : applyAll xs.length [] ops = some l) (hc : l.length < xs.length) (v : α) (o : Op α) (ho : o = .pushMove v ∨ o = .emplace v) :
    ∃ s s', (run b (over xs) ops).bind (fun s => step b s o) = .ok s ∧ Holds s (l ++ [v]) ∧ finishOver s = .ok s' ∧
      s'.born = s'.died + 1 := by
  obtain ⟨s, l', e1, e2, h⟩ := obj_run b ops (over xs) [] (objInv_init xs) hL
  rw [hl] at e2; cases e2
  have hh := objInv_holds h
  obtain ⟨⟨ys, h1, hx, ht⟩, h2, h3, h4, h5⟩ := h
  have hlen : s.slots.length = xs.length := by rw [h1]; simpa using hx
  let t : St α := { s with slots := s.slots.set l.length (some (.val v)), size := l.length + 1, born := s.born + 1 }
  refine ⟨t, { t with slots := t.slots.map fun _ => none, died := t.died + t.slots.length }, ?_, ⟨by simp [t], ?_⟩, ?_, ?_⟩
  · rw [e1]
    have : step b s o = .ok t := by
      rcases ho with rfl | rfl <;>
      · simp only [step, pushMove, emplace, grow]
        rw [if_pos (by omega)]
        simp only [Res.bind, construct, t]
        rw [if_pos (by omega), h2]
    exact this
  · intro i hi
    simp only [List.length_append, List.length_cons, List.length_nil] at hi
    simp only [t, List.getElem?_set]
    by_cases c : l.length = i
    · subst c; rw [if_pos rfl, if_pos (by omega), List.getElem_concat_length rfl]
    · rw [if_neg c, List.getElem_append_left (by omega)]; exact hh.2 i (by omega)
  · unfold finishOver
    rw [if_pos]
    rw [List.all_eq_true]
    intro x hxm
    rcases List.mem_or_eq_of_mem_set hxm with hm | rfl
    · rw [h1] at hm; obtain ⟨y, -, rfl⟩ := List.mem_map.mp hm; rfl
    · rfl
  · simp only [t, h4, h5, List.length_set, hlen]; omega

example : ∃ l, Legal Op.assigns 4 [] overOps ∧ applyAll 4 [] overOps = some l ∧ l ≠ [] ∧ l.length < 4 :=
  ⟨[7, 1], by simp [overOps, Legal, Op.assigns, apply], rfl, by decide, by decide⟩

end Verif.Lifetime
