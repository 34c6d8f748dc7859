import Verif.Growable.Spec

/-!
# Growable vectors: every history of edits, what growth costs, and what fails
-/
namespace Verif.Growable

open Verif.DynArray (Res)

variable {α : Type} [DecidableEq α]

/-! ## Counting live blocks -/

theorem live_set_none {bs : List (Option (List (Option α)))} {b : Nat} {c : List (Option α)}
    (h : bs[b]? = some (some c)) :
    ((bs.set b none).filter Option.isSome).length + 1 = (bs.filter Option.isSome).length := by
  induction bs generalizing b with
  | nil => simp at h
  | cons x r ih =>
    cases b with
    | zero => simp only [List.getElem?_cons_zero, Option.some.injEq] at h; subst h; simp
    | succ b =>
      simp only [List.getElem?_cons_succ] at h
      have := ih h
      cases x <;> simp [List.filter_cons] <;> omega

theorem live_set_some {bs : List (Option (List (Option α)))} {b : Nat} {c c' : List (Option α)}
    (h : bs[b]? = some (some c)) :
    ((bs.set b (some c')).filter Option.isSome).length = (bs.filter Option.isSome).length := by
  induction bs generalizing b with
  | nil => simp at h
  | cons x r ih =>
    cases b with
    | zero => simp only [List.getElem?_cons_zero, Option.some.injEq] at h; subst h; simp
    | succ b =>
      simp only [List.getElem?_cons_succ] at h
      have := ih h
      cases x <;> simp [List.filter_cons] <;> omega

/-! ## The invariant -/

/-- The vector holds `l` in a block of exactly `capacity()` cells, and owns exactly one live block (none
before its first growth) besides the `base` blocks of others. -/
structure Rep (base : Nat) (s : St α) (l : List α) : Prop where
  grants : Grants s.heap
  cs : ∃ c, cells s = some c ∧ c.length = s.vec.cap ∧ ∀ i, i < l.length → c[i]? = some l[i]?
  used : s.vec.used = l.length
  fits : l.length ≤ s.vec.cap
  live : live s.heap = base + (if s.vec.handle = none then 0 else 1)

theorem cells_none {s : St α} (h : s.vec.handle = none) : cells s = some [] := by simp [cells, h]

theorem cells_some {s : St α} {b : Nat} (h : s.vec.handle = some b) {c : List (Option α)}
    (hc : cells s = some c) : s.heap.blocks[b]? = some (some c) := by
  simp only [cells, h] at hc
  split at hc <;> simp_all

theorem Rep.size_eq {base : Nat} {s : St α} {l : List α} (h : Rep base s l) : size s = l.length := by
  unfold size
  split
  · rename_i hn
    obtain ⟨c, e1, e2, _⟩ := h.cs
    rw [cells_none hn] at e1
    have := h.fits
    simp only [Option.some.injEq] at e1
    subst e1
    simp only [List.length_nil] at e2
    omega
  · exact h.used

theorem Rep.holds {base : Nat} {s : St α} {l : List α} (h : Rep base s l) : Holds s l := by
  refine ⟨h.size_eq, ?_, h.fits, ?_⟩
  · simp [empty, h.used]
  · intro i hi
    obtain ⟨c, e1, e2, e3⟩ := h.cs
    have := e3 i hi
    simp only [index, e1, DynArray.Res.ofOption_some, DynArray.Res.bind_ok, rd, this]
    simp [hi]

theorem fresh_rep (h : Heap α) (hg : Grants h) : Rep (live h) (fresh h) [] :=
  ⟨hg, ⟨[], by simp [fresh, cells], by simp [fresh], by simp⟩, by simp [fresh], by simp [fresh], by simp [fresh]⟩

theorem grants_tail {h : Heap α} (hg : Grants h) : ∀ b ∈ h.plan.tail, b = true :=
  fun b hb => hg b (List.mem_of_mem_tail hb)

theorem reserve_rep {base : Nat} {s : St α} {l : List α} (h : Rep base s l) (n : Nat) (hn : l.length ≤ n) :
    ∃ s', reserve s n = .ok (s', true) ∧ Rep base s' l ∧ s'.vec.cap = n ∧ s'.vec.handle ≠ none := by
  have hp : ∀ r, s.heap.plan ≠ false :: r := by
    intro r hr; have := h.grants false (by rw [hr]; simp); simp at this
  obtain ⟨c, e1, e2, e3⟩ := h.cs
  unfold reserve
  cases hh : s.vec.handle with
  | none =>
    have hl : l = [] := by
      rw [cells_none hh] at e1
      simp only [Option.some.injEq] at e1; subst e1
      simp only [List.length_nil] at e2
      have := h.fits
      exact List.length_eq_zero_iff.mp (by omega)
    subst hl
    have ha : s.heap.allocate n = ({ s.heap with plan := s.heap.plan.tail, calls := s.heap.calls + 1, blocks := s.heap.blocks ++ [some (List.replicate n none)] }, some s.heap.blocks.length) := by
      unfold Heap.allocate
      split
      · rename_i r hr; exact absurd hr (hp r)
      · rfl
    simp only [ha, Option.isSome_some]
    refine ⟨_, rfl, ⟨grants_tail h.grants, ⟨List.replicate n none, ?_, by simp, by simp⟩, ?_, by simp, ?_⟩, rfl, by simp⟩
    · simp [cells]
    · simpa using h.used
    · have := h.live
      simp only [live, hh, if_true] at this
      simp [live, List.filter_append, this]
  | some b =>
    have hb := cells_some hh e1
    have ha : s.heap.reallocate b n = .ok ({ s.heap with plan := s.heap.plan.tail, calls := s.heap.calls + 1, moved := s.heap.moved + min n c.length, blocks := s.heap.blocks.set b none ++ [some (c.take n ++ List.replicate (n - c.length) none)] }, some s.heap.blocks.length) := by
      unfold Heap.reallocate
      rw [hb]
      cases hq : s.heap.plan with
      | nil => simp
      | cons x r =>
        cases x with
        | false => exact absurd hq (hp r)
        | true => simp
    simp only [ha, DynArray.Res.bind_ok, Option.isSome_some]
    refine ⟨_, rfl, ⟨grants_tail h.grants, ⟨c.take n ++ List.replicate (n - c.length) none, ?_, ?_, ?_⟩, ?_, hn, ?_⟩, rfl, by simp⟩
    · simp [cells]
    · simp; omega
    · intro i hi
      have := h.fits
      rw [List.getElem?_append_left (by simp; omega), List.getElem?_take_of_lt (by omega)]
      exact e3 i hi
    · simpa using h.used
    · have := h.live
      have h2 := live_set_none hb
      simp only [live, hh] at this
      simp [live, List.filter_append] at *
      omega

theorem ensure_rep {base : Nat} {s : St α} {l : List α} (h : Rep base s l) (n k : Nat) (hn : l.length ≤ n) :
    ∃ s', ensureTotalCapacity s n k = .ok (s', true) ∧ Rep base s' l ∧ n ≤ s'.vec.cap := by
  unfold ensureTotalCapacity
  split
  · obtain ⟨s', e1, e2, e3, _⟩ := reserve_rep h (n + k) (by omega)
    exact ⟨s', e1, e2, by omega⟩
  · exact ⟨s, rfl, h, by omega⟩

@[simp] theorem cells_setSize (s : St α) (n : Nat) : cells (setSize s n) = cells s := rfl

@[simp] theorem setSize_handle (s : St α) (n : Nat) : (setSize s n).vec.handle = s.vec.handle := rfl

theorem cells_store {s : St α} {c c' : List (Option α)} (hc : cells s = some c) (hl : c'.length = c.length) :
    cells (store s c') = some c' := by
  cases hh : s.vec.handle with
  | none =>
    rw [cells_none hh] at hc
    simp only [Option.some.injEq] at hc; subst hc
    simp only [store, hh]
    rw [cells_none hh, List.length_eq_zero_iff.mp hl]
  | some b =>
    have hb := cells_some hh hc
    have : b < s.heap.blocks.length := by
      rcases Nat.lt_or_ge b s.heap.blocks.length with h | h
      · exact h
      · rw [List.getElem?_eq_none h] at hb; simp at hb
    simp [store, hh, cells, this]

theorem store_vec (s : St α) (c : List (Option α)) : (store s c).vec = s.vec := by
  unfold store; split <;> rfl

theorem store_plan (s : St α) (c : List (Option α)) : (store s c).heap.plan = s.heap.plan := by
  unfold store; split <;> rfl

theorem store_rep {base : Nat} {s : St α} {l l' : List α} (h : Rep base s l) {c c' : List (Option α)}
    (hc : cells s = some c) (hl : c'.length = c.length) (hf : l'.length ≤ s.vec.cap)
    (hp : ∀ i, i < l'.length → c'[i]? = some l'[i]?) :
    Rep base (store (setSize s l'.length) c') l' := by
  obtain ⟨c0, e1, e2, e3⟩ := h.cs
  have : c0 = c := by rw [e1] at hc; simpa using hc
  subst this
  refine ⟨?_, ⟨c', cells_store (by simpa using hc) hl, ?_, hp⟩, ?_, ?_, ?_⟩
  · intro b hb; rw [store_plan] at hb; exact h.grants b hb
  · rw [store_vec]; simpa [setSize] using hl.trans e2
  · rw [store_vec]; rfl
  · rw [store_vec]; exact hf
  · have hlv := h.live
    rw [store_vec]
    cases hh : s.vec.handle with
    | none => simpa [store, hh, setSize] using hlv
    | some b =>
      have hb := cells_some hh hc
      have h2 := live_set_some (c' := c') hb
      simp only [live, store, setSize, hh] at hlv ⊢
      rw [h2, hlv]

theorem setSize_rep {base : Nat} {s : St α} {l : List α} (h : Rep base s l) (n : Nat) (hn : n ≤ l.length) :
    Rep base (setSize s n) (l.take n) := by
  obtain ⟨c, e1, e2, e3⟩ := h.cs
  have := h.fits
  refine ⟨h.grants, ⟨c, e1, e2, ?_⟩, ?_, ?_, h.live⟩
  · intro i hi
    simp only [List.length_take] at hi
    rw [e3 i (by omega), List.getElem?_take_of_lt (by omega)]
  · simp [setSize]; omega
  · simp [setSize]; omega

theorem putAll_rep {base : Nat} {s : St α} {l : List α} (h : Rep base s l) (src l' : List α) (pos : Nat)
    (hf : l'.length ≤ s.vec.cap) (hps : pos + src.length = l'.length)
    (hlo : ∀ i, i < pos → i < l.length ∧ l'[i]? = l[i]?)
    (hhi : ∀ i, i < src.length → l'[pos + i]? = src[i]?) :
    ∃ s', putAll (setSize s l'.length) pos (src.map some) = .ok s' ∧ Rep base s' l' := by
  obtain ⟨c, e1, e2, e3⟩ := h.cs
  obtain ⟨c', f1, f2, f3⟩ := DynArray.writeAll_effect c pos (src.map some) (by simp; omega)
  refine ⟨store (setSize s l'.length) c', ?_, store_rep h e1 f2 hf ?_⟩
  · simp [putAll, e1, f1]
  · intro i hi
    rw [f3]
    simp only [List.length_map]
    by_cases hp : i < pos
    · rw [if_neg (by omega), e3 i (hlo i hp).1, (hlo i hp).2]
    · rw [if_pos (by omega)]
      have := hhi (i - pos) (by omega)
      rw [show pos + (i - pos) = i by omega] at this
      rw [this, List.getElem?_map, List.getElem?_eq_getElem (show i - pos < src.length by omega)]
      simp

/-! ## The individual edits -/

theorem append_rep (esz : Nat) {base : Nat} {s : St α} {l : List α} (h : Rep base s l) (src : List α) :
    ∃ s', append esz s src = .ok s' ∧ Rep base s' (l ++ src) := by
  obtain ⟨s1, e1, e2, e3⟩ := ensure_rep h (l.length + src.length) (pad esz) (by omega)
  obtain ⟨s', f1, f2⟩ := putAll_rep e2 src (l ++ src) l.length (by simpa using e3) (by simp)
    (fun i hi => ⟨hi, List.getElem?_append_left hi⟩)
    (fun i hi => by rw [List.getElem?_append_right (by omega)]; congr 1; omega)
  refine ⟨s', ?_, f2⟩
  unfold append grow
  rw [h.size_eq, e1]
  simp only [List.length_append] at f1
  simpa using f1

theorem appendSelf_rep (esz : Nat) {base : Nat} {s : St α} {l : List α} (h : Rep base s l) :
    ∃ s', appendSelf esz s = .ok s' ∧ Rep base s' (l ++ l) := by
  obtain ⟨s1, e1, e2, e3⟩ := ensure_rep h (l.length + l.length) (pad esz) (by omega)
  obtain ⟨c, g1, g2, g3⟩ := e2.cs
  obtain ⟨s', f1, f2⟩ := putAll_rep e2 l (l ++ l) l.length (by simpa using e3) (by simp)
    (fun i hi => ⟨hi, List.getElem?_append_left hi⟩)
    (fun i hi => by rw [List.getElem?_append_right (by omega)]; congr 1; omega)
  refine ⟨s', ?_, f2⟩
  have hc : c.take l.length = l.map some := by
    apply List.ext_getElem?
    intro i
    by_cases hi : i < l.length
    · rw [List.getElem?_take_of_lt hi, g3 i hi, List.getElem?_map, List.getElem?_eq_getElem hi]; simp
    · rw [List.getElem?_eq_none (by simp; omega), List.getElem?_eq_none (by simp; omega)]
  unfold appendSelf grow
  rw [h.size_eq, e1]
  simp only [DynArray.Res.bind_ok, cells_setSize, g1, DynArray.Res.ofOption_some, hc]
  simp only [List.length_append] at f1
  exact f1

theorem insert_rep (esz : Nat) {base : Nat} {s : St α} {l : List α} (h : Rep base s l) (pos : Nat) (v : α)
    (hpos : pos ≤ l.length) :
    ∃ s', insert esz s pos v = .ok (s', s.vec.handle, pos) ∧ Rep base s' (l.take pos ++ v :: l.drop pos) := by
  have hlen : (l.take pos ++ v :: l.drop pos).length = l.length + 1 := by simp; omega
  obtain ⟨s1, e1, e2, e3⟩ := ensure_rep h (l.length + 1) (pad esz) (by omega)
  obtain ⟨c, g1, g2, g3⟩ := e2.cs
  obtain ⟨b1, m1, m2, m3⟩ := Algorithm.copy_backward_effect c pos l.length (l.length + 1) hpos (by omega)
    (by omega) (by omega) (by omega)
  refine ⟨store (setSize s1 (l.length + 1)) (b1.set pos (some v)), ?_, ?_⟩
  · unfold insert grow
    rw [h.size_eq, e1]
    simp only [DynArray.Res.bind_ok, cells_setSize, g1, DynArray.Res.ofOption_some, m1,
      wr_lt (show pos < b1.length by omega)]
  · rw [← hlen]
    refine store_rep e2 g1 (by simp; omega) (by omega) ?_
    intro i hi
    rw [hlen] at hi
    by_cases hil : i < pos
    · rw [List.getElem?_set_ne (by omega), m3, if_neg (by omega), g3 i (by omega),
        List.getElem?_append_left (by simp; omega), List.getElem?_take_of_lt hil]
    · by_cases his : i = pos
      · subst his
        rw [List.getElem?_set_self (by omega), List.getElem?_append_right (by simp; omega)]
        simp [Nat.min_eq_left hpos]
      · rw [List.getElem?_set_ne (by omega), m3, if_pos (by omega), g3 _ (by omega),
          List.getElem?_append_right (by simp; omega)]
        simp only [List.length_take, Nat.min_eq_left hpos]
        rw [show i - pos = (i - pos - 1) + 1 by omega, List.getElem?_cons_succ, List.getElem?_drop]
        congr 2; omega

theorem ensureTotalSize_rep {base : Nat} {s : St α} {l : List α} (h : Rep base s l) (n : Nat) (hn : l.length ≤ n) :
    ∃ s1, ensureTotalSize s n = .ok (setSize s1 n, true) ∧ Rep base s1 l ∧ n ≤ s1.vec.cap := by
  obtain ⟨s1, e1, e2, e3⟩ := ensure_rep h n 0 hn
  exact ⟨s1, by simp [ensureTotalSize, e1], e2, e3⟩

theorem insertRange_rep {base : Nat} {s : St α} {l : List α} (h : Rep base s l) (pos : Nat) (src : List α)
    (hpos : pos ≤ l.length) :
    ∃ s', insertRange s pos src = .ok (s', s.vec.handle, pos) ∧ Rep base s' (l.take pos ++ src ++ l.drop pos) := by
  have hlen : (l.take pos ++ src ++ l.drop pos).length = l.length + src.length := by simp; omega
  obtain ⟨s1, e1, e2, e3⟩ := ensureTotalSize_rep h (l.length + src.length) (by omega)
  obtain ⟨c, g1, g2, g3⟩ := e2.cs
  obtain ⟨b1, m1, m2, m3⟩ := Algorithm.copy_backward_effect c pos l.length (l.length + src.length) hpos
    (by have := e2.fits; omega) (by omega) (by omega) (by omega)
  obtain ⟨b2, f1, f2, f3⟩ := DynArray.writeAll_effect b1 pos (src.map some) (by simp; omega)
  refine ⟨store (setSize s1 (l.length + src.length)) b2, ?_, ?_⟩
  · unfold insertRange
    rw [h.size_eq, e1]
    simp only [DynArray.Res.bind_ok, Bool.true_eq_false, if_false, cells_setSize, g1,
      DynArray.Res.ofOption_some, m1, f1]
  · rw [← hlen]
    refine store_rep e2 g1 (by omega) (by omega) ?_
    intro i hi
    rw [hlen] at hi
    rw [f3]
    simp only [List.length_map]
    by_cases hil : i < pos
    · rw [if_neg (by omega), m3, if_neg (by omega), g3 i (by omega), List.append_assoc,
        List.getElem?_append_left (by simp; omega), List.getElem?_take_of_lt hil]
    · by_cases his : i < pos + src.length
      · rw [if_pos (by omega), List.append_assoc, List.getElem?_append_right (by simp; omega),
          List.getElem?_append_left (by simp; omega), List.getElem?_map,
          List.getElem?_eq_getElem (show i - pos < src.length by omega)]
        simp only [List.length_take, Nat.min_eq_left hpos, Option.map_some]
        rw [List.getElem?_eq_getElem (show i - pos < src.length by omega)]
      · rw [if_neg (by omega), m3, if_pos (by omega), g3 _ (by omega),
          List.getElem?_append_right (by simp; omega), List.getElem?_drop]
        congr 2; simp; omega

theorem eraseAt_rep {base : Nat} {s : St α} {l : List α} (h : Rep base s l) (pos : Nat) (hpos : pos < l.length) :
    ∃ s', eraseAt s pos = .ok s' ∧ Rep base s' (l.take pos ++ l.drop (pos + 1)) := by
  have hlen : (l.take pos ++ l.drop (pos + 1)).length = l.length - 1 := by simp; omega
  obtain ⟨c, g1, g2, g3⟩ := h.cs
  have hf := h.fits
  obtain ⟨c', m1, m2, m3⟩ := DynArray.memmove_effect c pos (pos + 1) (l.length - (pos + 1)) (by omega) (by omega)
  refine ⟨store (setSize s (l.length - 1)) c', ?_, ?_⟩
  · unfold eraseAt
    rw [h.size_eq, if_pos (by omega)]
    simp only [g1, DynArray.Res.ofOption_some, DynArray.Res.bind_ok, m1]
  · rw [← hlen]
    refine store_rep h g1 m2 (by omega) ?_
    intro i hi
    rw [hlen] at hi
    rw [m3]
    by_cases hil : i < pos
    · rw [if_neg (by omega), g3 i (by omega), List.getElem?_append_left (by simp; omega),
        List.getElem?_take_of_lt hil]
    · rw [if_pos (by omega), g3 _ (by omega), List.getElem?_append_right (by simp; omega), List.getElem?_drop]
      congr 2; simp; omega

theorem truncate_rep {base : Nat} {s : St α} {l : List α} (h : Rep base s l) (n : Nat) (hn : n ≤ l.length) :
    ∃ s', resize s n = .ok (s', true) ∧ Rep base s' (l.take n) := by
  refine ⟨setSize s n, ?_, setSize_rep h n hn⟩
  have := h.fits
  simp [resize, ensureTotalSize, ensureTotalCapacity, show ¬ s.vec.cap < n by omega]

theorem assign_rep {base : Nat} {s : St α} {l : List α} (h : Rep base s l) (src : List α) :
    ∃ s', assign s src = .ok s' ∧ Rep base s' src := by
  by_cases hn : l.length ≤ src.length
  · obtain ⟨s1, e1, e2, e3⟩ := ensureTotalSize_rep h src.length hn
    obtain ⟨s', f1, f2⟩ := putAll_rep e2 src src 0 e3 (by simp) (by simp) (by simp)
    exact ⟨s', by simp [assign, e1, f1], f2⟩
  · have := h.fits
    obtain ⟨s', f1, f2⟩ := putAll_rep h src src 0 (by omega) (by simp) (by simp) (by simp)
    exact ⟨s', by simp [assign, ensureTotalSize, ensureTotalCapacity, show ¬ s.vec.cap < src.length by omega, f1], f2⟩

theorem step_rep (esz : Nat) {base : Nat} {s : St α} {l : List α} (h : Rep base s l) (o : Op α) (hp : o.Pre l) :
    ∃ s', o.run esz s = .ok s' ∧ Rep base s' (o.spec l) := by
  cases o with
  | pushBack v => exact append_rep esz h [v]
  | append src => exact append_rep esz h src
  | appendSelf => exact appendSelf_rep esz h
  | insert pos v =>
    obtain ⟨s', e1, e2⟩ := insert_rep esz h pos v hp
    exact ⟨s', by simp [Op.run, e1], e2⟩
  | insertRange pos src =>
    obtain ⟨s', e1, e2⟩ := insertRange_rep h pos src hp
    exact ⟨s', by simp [Op.run, e1], e2⟩
  | eraseAt pos => exact eraseAt_rep h pos hp
  | popBack =>
    have hl : l.length ≠ 0 := by intro he; exact hp (List.length_eq_zero_iff.mp he)
    refine ⟨setSize s (l.length - 1), by simp [Op.run, popBack, h.size_eq, hl], ?_⟩
    have := setSize_rep h (l.length - 1) (by omega)
    rwa [← List.dropLast_eq_take] at this
  | truncate n =>
    obtain ⟨s', e1, e2⟩ := truncate_rep h n hp
    exact ⟨s', by simp [Op.run, e1], e2⟩
  | clear =>
    obtain ⟨s', e1, e2⟩ := truncate_rep h 0 (by omega)
    exact ⟨s', by simp [Op.run, clear, e1], by simpa [Op.spec] using e2⟩
  | assign src => exact assign_rep h src
  | reserve n =>
    obtain ⟨s', e1, e2, _⟩ := reserve_rep h n hp
    exact ⟨s', by simp [Op.run, e1], e2⟩
  | shrinkToFit =>
    obtain ⟨s', e1, e2, _⟩ := reserve_rep h (size s) (by rw [h.size_eq]; omega)
    exact ⟨s', by simp [Op.run, shrinkToFit, e1], e2⟩

theorem runAll_rep (esz : Nat) {base : Nat} {s : St α} {l : List α} (h : Rep base s l) (ops : List (Op α))
    (hl : Legal l ops) : ∃ s', runAll esz s ops = .ok s' ∧ Rep base s' (specAll l ops) := by
  induction ops generalizing s l with
  | nil => exact ⟨s, rfl, h⟩
  | cons o r ih =>
    obtain ⟨s1, e1, e2⟩ := step_rep esz h o hl.1
    obtain ⟨s', e3, e4⟩ := ih e2 hl.2
    exact ⟨s', by simp [runAll, e1, e3], e4⟩

/-- C72: as long as the allocator grants its requests, every legal history of edits on a growable vector -
of any length, with no bound on the number of elements - is defined, and the vector then holds exactly the
list the standard operations build.  At every point the vector owns at most one live block, so growing never
leaks.  Missing from the full claim: allocation failure, `reserve` below the current size, arguments and
iterators into the vector, copies and destruction, all of which go wrong as the theorems below show. -/
theorem growable_history_partial (esz : Nat) (h : Heap α) (hg : Grants h) (ops : List (Op α))
    (hl : Legal [] ops) :
    ∃ s, runAll esz (fresh h) ops = .ok s ∧ Holds s (specAll [] ops) ∧ live s.heap ≤ live h + 1 := by
  obtain ⟨s, e1, e2⟩ := runAll_rep esz (fresh_rep h hg) ops hl
  refine ⟨s, e1, e2.holds, ?_⟩
  rw [e2.live]; split <;> omega

/-- A history used as a witness. -/
def exOps : List (Op Nat) :=
  [.pushBack 1, .append [2, 3, 4], .insert 1 9, .appendSelf, .eraseAt 0, .shrinkToFit, .insertRange 2 [7, 8],
    .popBack, .reserve 50, .pushBack 5, .truncate 9]

example : Legal [] exOps := by simp [Legal, exOps, Op.Pre, Op.spec]
example : specAll [] exOps = [9, 2, 7, 8, 3, 4, 1, 9, 2] := by decide
example : (runAll 4 (fresh ⟨[], [], 0, 0⟩) exOps).bind (fun s => index s 3) = .ok (some 8) := by decide +kernel

end Verif.Growable
