import Verif.Deque.HandlerIn

/-!
# Theorems about a queue that the main program fills and an interrupt handler empties (C107)
-/
namespace Verif.Deque.Handler
open Verif Verif.Deque
variable {α : Type u}

theorem outRun_cons (cf : Bool) (s : OutSt α) (a : OutAct α) (as : List (OutAct α)) :
    outRun cf s (a :: as) = (outStep cf s a).bind fun s' => outRun cf s' as := rfl

theorem outRun_append (cf : Bool) (s : OutSt α) (as bs : List (OutAct α)) :
    outRun cf s (as ++ bs) = (outRun cf s as).bind fun s' => outRun cf s' bs := by
  induction as generalizing s with
  | nil => rfl
  | cons a as ih =>
    rw [List.cons_append, outRun_cons, outRun_cons]
    cases outStep cf s a with
    | none => rfl
    | some s' => exact ih s'

/-- `m_back` is already one past the place `b` of the element being pushed; `l` are the elements before it -/
structure Over (N : Nat) (d : Deque α) (l : List α) (b : Nat) : Prop where
  len : d.arr.length = N
  cap : l.length < N
  front : d.front < N
  at_ : b = wrap N (d.front + l.length)
  back : d.back = b + 1
  empty : d.empty = true → l = []
  cells : ∀ i, i < l.length → d.arr[wrap N (d.front + i)]? = l[i]?

theorem over_of_rep {N : Nat} {d : Deque α} {l : List α} (h : Rep N d l) (hl : l.length < N) :
    Over N { d with back := d.back + 1 } l d.back :=
  ⟨h.len, hl, h.front, h.back, rfl, h.empty.mp, h.cells⟩

theorem over_size {N : Nat} {d : Deque α} {l : List α} {b : Nat} (h : Over N d l b) (he : d.empty = false) :
    size d = l.length + 1 := by
  have h1 := h.cap
  have h2 := h.front
  have h3 := h.at_
  have h4 := h.back
  simp only [size, he, Bool.false_eq_true, if_false, rawSize, h.len, h4]
  unfold wrap at h3
  split at h3 <;> repeat' split
  all_goals omega

theorem over_pop {N : Nat} {d : Deque α} {l : List α} {b : Nat} (h : Over N d l b) (he : d.empty = false) (hl : l ≠ []) :
    ∃ d', frontVal d = l.head? ∧ popFront d = some d' ∧ Over N d' l.tail b ∧ d'.empty = false ∧ d'.arr = d.arr := by
  obtain ⟨x, t, rfl⟩ := List.exists_cons_of_ne_nil hl
  have h1 := h.cap
  have h2 := h.front
  have h3 := h.at_
  have h4 := h.back
  simp only [List.length_cons] at h1 h3
  have hf : frontVal d = some x := by
    have := h.cells 0 (by simp)
    rw [show wrap N (d.front + 0) = d.front by unfold wrap; rw [if_pos (by omega)]; rfl] at this
    simpa [frontVal, rd] using this
  have hroll : rollover d.arr.length (d.front + 1) = wrap N (d.front + 1) := by
    simp only [rollover, h.len, wrap]; repeat' split
    all_goals omega
  have hne : wrap N (d.front + 1) ≠ d.back := by
    rw [h4, h3]; unfold wrap; repeat' split
    all_goals omega
  refine ⟨{ d with front := wrap N (d.front + 1) }, hf, ?_, ⟨h.len, by simp; omega, ?_, ?_, h4, by simp [he], ?_⟩, he, rfl⟩
  · simp only [popFront, hf, hroll, hne, if_false]
  · simp only [wrap]; split <;> omega
  · simp only [List.tail_cons]
    rw [h3]; unfold wrap; repeat' split
    all_goals omega
  · intro i hi
    simp only [List.tail_cons] at hi ⊢
    have := h.cells (i + 1) (by simp; omega)
    simp only [List.getElem?_cons_succ] at this
    rw [← this]
    congr 1
    unfold wrap; repeat' split
    all_goals omega

theorem over_write {N : Nat} {d : Deque α} {l : List α} {b : Nat} (h : Over N d l b) (v : α) :
    ∃ m, wr d.arr b v = some m ∧ Over N { d with arr := m } l b ∧ m[b]? = some v := by
  have h1 := h.cap
  have h2 := h.front
  have h3 := h.at_
  have hlen := h.len
  have hb : b < d.arr.length := by rw [h3, h.len]; unfold wrap; split <;> omega
  refine ⟨d.arr.set b v, wr_lt hb, ⟨by simpa using h.len, h1, h2, h3, h.back, h.empty, ?_⟩, by simp [hb]⟩
  intro i hi
  simp only
  have hne : b ≠ wrap N (d.front + i) := by
    rw [h3]; unfold wrap; repeat' split
    all_goals omega
  rw [List.getElem?_set_ne hne, h.cells i hi]

theorem over_done {N : Nat} {d : Deque α} {l : List α} {b : Nat} {v : α} (h : Over N d l b) (hv : d.arr[b]? = some v)
    (he : d.empty = false) : Rep N { d with back := rollover N (b + 1) } (l ++ [v]) := by
  have h1 := h.cap
  have h2 := h.front
  have h3 := h.at_
  refine ⟨h.len, by simp; omega, h2, ?_, by simp [he], ?_⟩
  · simp only [h3, wrap, rollover, List.length_append, List.length_singleton]
    repeat' split
    all_goals omega
  · intro i hi
    simp only [List.length_append, List.length_singleton] at hi
    simp only
    by_cases hc : i = l.length
    · subst hc; rw [← h3, hv]; simp
    · rw [h.cells i (by omega), List.getElem?_append_left (by omega)]

/-- What holds between any two actions: `l` are the elements of the queue, without the one being pushed. -/
def OutInv (N : Nat) (s : OutSt α) (l : List α) : Prop :=
  match s.pc with
  | .idle | .szEmpty | .szFront => Rep N s.d l
  | .szBack f => Rep N s.d l ∧ (f = s.d.front ∨ l.length < N)
  | .szFront2 gt => Rep N s.d l ∧ (gt = decide (s.d.front > s.d.back) ∨ l.length < N)
  | .szBack2 gt f => Rep N s.d l ∧ ((gt = decide (s.d.front > s.d.back) ∧ f = s.d.front) ∨ l.length < N)
  | .pushLoad => Rep N s.d l ∧ l.length < N
  | .store1 b | .cell1 b => Rep N s.d l ∧ l.length < N ∧ b = s.d.back
  | .store2 b => Rep N s.d l ∧ l.length < N ∧ b = s.d.back ∧ s.d.arr[b]? = some s.v
  | .cell2 b => Over N s.d l b
  | .setEmpty => ∃ b, Over N s.d l b ∧ s.d.arr[b]? = some s.v
  | .rollLoad => ∃ b, Over N s.d l b ∧ s.d.arr[b]? = some s.v ∧ s.d.empty = false
  | .rollStore => ∃ b, Over N s.d l b ∧ s.d.arr[b]? = some s.v ∧ s.d.empty = false ∧ b + 1 = N

theorem rep_write {N : Nat} {d : Deque α} {l : List α} (h : Rep N d l) (hl : l.length < N) (v : α) :
    ∃ m, wr d.arr d.back v = some m ∧ Rep N { d with arr := m } l ∧ m[d.back]? = some v := by
  obtain ⟨m, e1, e2, e3⟩ := over_write (over_of_rep h hl) v
  exact ⟨m, e1, ⟨e2.len, h.cap, h.front, h.back, h.empty, e2.cells⟩, e3⟩

theorem fetchedSize_room {N : Nat} {d : Deque α} {l : List α} (h : Rep N d l)
    (hk : 0 < fetchedSize N (decide (d.front > d.back)) d.front d.back ∧
      fetchedSize N (decide (d.front > d.back)) d.front d.back < N) : l.length < N := by
  have h1 := h.front
  have h2 := h.cap
  have h3 := h.back
  unfold wrap at h3
  obtain ⟨k1, k2⟩ := hk
  unfold fetchedSize at k1 k2
  by_cases hc : d.front > d.back
  · simp only [hc, decide_true, if_true] at k1 k2
    split at h3 <;> omega
  · simp only [hc, decide_false, Bool.false_eq_true, if_false] at k1 k2
    split at h3 <;> omega

theorem outInv_tick (cf : Bool) {N : Nat} (hN : 0 < N) {s : OutSt α} {l : List α} (h : OutInv N s l)
    (ha : s.acc = s.out ++ l) :
    ∃ s' l', outTick cf s = some s' ∧ OutInv N s' l' ∧ s'.acc = s'.out ++ l' := by
  obtain ⟨d, pc, v, acc, out⟩ := s
  cases pc <;> simp only [OutInv] at h <;> simp only at ha
  case idle => exact ⟨_, l, rfl, h, ha⟩
  case szEmpty =>
    by_cases he : d.empty = true
    · refine ⟨⟨d, .pushLoad, v, acc, out⟩, l, by simp [outTick, he], ⟨h, ?_⟩, ha⟩
      rw [h.empty.mp he]; exact hN
    · exact ⟨⟨d, .szFront, v, acc, out⟩, l, by simp [outTick, he], h, ha⟩
  case szFront => exact ⟨_, l, rfl, ⟨h, Or.inl rfl⟩, ha⟩
  case szBack f =>
    refine ⟨_, l, rfl, ⟨h.1, ?_⟩, ha⟩
    rcases h.2 with rfl | h2
    · exact Or.inl rfl
    · exact Or.inr h2
  case szFront2 gt =>
    refine ⟨_, l, rfl, ⟨h.1, ?_⟩, ha⟩
    rcases h.2 with h2 | h2
    · exact Or.inl ⟨h2, rfl⟩
    · exact Or.inr h2
  case szBack2 gt f =>
    have hlen := h.1.len
    by_cases hk : 0 < fetchedSize d.arr.length gt f d.back ∧ fetchedSize d.arr.length gt f d.back < d.arr.length
    · refine ⟨⟨d, .pushLoad, v, acc, out⟩, l, by simp only [outTick, hk, and_self, if_true], ⟨h.1, ?_⟩, ha⟩
      rcases h.2 with ⟨h2, h3⟩ | h2
      · rw [hlen, h2, h3] at hk
        exact fetchedSize_room h.1 hk
      · exact h2
    · exact ⟨⟨d, .idle, v, acc, out⟩, l, by simp only [outTick, hk, if_false], h.1, ha⟩
  case pushLoad =>
    cases cf
    · exact ⟨⟨d, .store1 d.back, v, acc, out⟩, l, rfl, ⟨h.1, h.2, rfl⟩, ha⟩
    · exact ⟨⟨d, .cell1 d.back, v, acc, out⟩, l, rfl, ⟨h.1, h.2, rfl⟩, ha⟩
  case store1 b =>
    obtain ⟨h1, h2, rfl⟩ := h
    exact ⟨_, l, rfl, over_of_rep h1 h2, ha⟩
  case cell2 b =>
    obtain ⟨m, e1, e2, e3⟩ := over_write h v
    exact ⟨⟨{ d with arr := m }, .setEmpty, v, acc, out⟩, l, by simp [outTick, e1], ⟨b, e2, e3⟩, ha⟩
  case cell1 b =>
    obtain ⟨h1, h2, rfl⟩ := h
    obtain ⟨m, e1, e2, e3⟩ := rep_write h1 h2 v
    exact ⟨⟨{ d with arr := m }, .store2 d.back, v, acc, out⟩, l, by simp [outTick, e1], ⟨e2, h2, rfl, e3⟩, ha⟩
  case store2 b =>
    obtain ⟨h1, h2, rfl, h3⟩ := h
    exact ⟨_, l, rfl, ⟨d.back, over_of_rep h1 h2, h3⟩, ha⟩
  case setEmpty =>
    obtain ⟨b, h1, h2⟩ := h
    exact ⟨_, l, rfl, ⟨b, ⟨h1.len, h1.cap, h1.front, h1.at_, h1.back, by simp, h1.cells⟩, h2, rfl⟩, ha⟩
  case rollLoad =>
    obtain ⟨b, h1, h2, h3⟩ := h
    have h4 := over_done h1 h2 h3
    by_cases hc : d.back = d.arr.length
    · refine ⟨⟨d, .rollStore, v, acc, out⟩, l, by simp [outTick, hc], ⟨b, h1, h2, h3, ?_⟩, ha⟩
      rw [← h1.back, hc, h1.len]
    · refine ⟨⟨d, .idle, v, acc ++ [v], out⟩, l ++ [v], by simp [outTick, hc, OutSt.done], ?_, by simp [ha]⟩
      have h5 : rollover N (b + 1) = d.back := by
        unfold rollover
        rw [if_neg (by rw [← h1.back, ← h1.len]; exact hc), h1.back]
      rw [h5] at h4
      exact h4
  case rollStore =>
    obtain ⟨b, h1, h2, h3, h5⟩ := h
    have h4 := over_done h1 h2 h3
    refine ⟨⟨{ d with back := 0 }, .idle, v, acc ++ [v], out⟩, l ++ [v], rfl, ?_, by simp [ha]⟩
    rw [show rollover N (b + 1) = 0 by unfold rollover; rw [if_pos h5]] at h4
    exact h4

theorem irq_rep {N : Nat} (cf : Bool) {d : Deque α} {pc : OutPc} {v : α} {acc out l : List α} (h : Rep N d l)
    (ha : acc = out ++ l) :
    ∃ d' out' l', outStep cf ⟨d, pc, v, acc, out⟩ .irq = some ⟨d', pc, v, acc, out'⟩ ∧ Rep N d' l' ∧ acc = out' ++ l' ∧
      d'.back = d.back ∧ d'.arr = d.arr ∧ l'.length ≤ l.length ∧ (d' = d ∨ l'.length < N) := by
  by_cases he : d.empty = true
  · exact ⟨d, out, l, by simp [outStep, he], h, ha, rfl, rfl, Nat.le_refl _, Or.inl rfl⟩
  · have hl : l ≠ [] := by rintro rfl; exact he (h.empty.mpr rfl)
    obtain ⟨d', e1, e2⟩ := rep_popFront h hl
    have e3 := rep_front h hl
    obtain ⟨x, t, rfl⟩ := List.exists_cons_of_ne_nil hl
    have hc := h.cap
    simp only [List.length_cons] at hc
    refine ⟨d', out ++ [x], t, ?_, e2, by simp [ha], ?_, ?_, by simp, Or.inr (by omega)⟩
    · simp only [outStep, he, e1, e3, List.head?_cons, Bool.false_eq_true, if_false]
    · simp only [popFront, e3, List.head?_cons, Option.some.injEq] at e1; rw [← e1]
    · simp only [popFront, e3, List.head?_cons, Option.some.injEq] at e1; rw [← e1]

theorem irq_over {N : Nat} (cf : Bool) {d : Deque α} {pc : OutPc} {v : α} {acc out l : List α} {b : Nat}
    (h : Over N d l b) (hleg : size d ≠ 1) (ha : acc = out ++ l) :
    ∃ d' out' l', outStep cf ⟨d, pc, v, acc, out⟩ .irq = some ⟨d', pc, v, acc, out'⟩ ∧ Over N d' l' b ∧
      acc = out' ++ l' ∧ d'.arr = d.arr ∧ d'.empty = d.empty := by
  by_cases he : d.empty = true
  · exact ⟨d, out, l, by simp [outStep, he], h, ha, rfl, rfl⟩
  · have he' : d.empty = false := by simpa using he
    have hs := over_size h he'
    have hl : l ≠ [] := by rintro rfl; exact hleg hs
    obtain ⟨d', e1, e2, e3, e4, e5⟩ := over_pop h he' hl
    obtain ⟨x, t, rfl⟩ := List.exists_cons_of_ne_nil hl
    refine ⟨d', out ++ [x], t, ?_, e3, by simp [ha], e5, by rw [e4, he']⟩
    simp only [outStep, he', e1, e2, List.head?_cons, Bool.false_eq_true, if_false]

theorem outInv_irq (cf : Bool) {N : Nat} {s : OutSt α} {l : List α} (h : OutInv N s l)
    (ha : s.acc = s.out ++ l) (hleg : s.pushing → size s.d ≠ 1) :
    ∃ s' l', outStep cf s .irq = some s' ∧ OutInv N s' l' ∧ s'.acc = s'.out ++ l' := by
  obtain ⟨d, pc, v, acc, out⟩ := s
  cases pc <;> simp only [OutInv] at h <;> simp only at ha
  case idle | szEmpty | szFront =>
    obtain ⟨d', out', l', e1, e2, e3, _⟩ := irq_rep cf h ha
    exact ⟨_, l', e1, e2, e3⟩
  case szBack f =>
    obtain ⟨d', out', l', e1, e2, e3, e4, e5, e6, e7⟩ := irq_rep cf h.1 ha
    refine ⟨_, l', e1, ⟨e2, ?_⟩, e3⟩
    rcases e7 with rfl | e7
    · exact h.2.imp id (by omega)
    · exact Or.inr e7
  case szFront2 gt =>
    obtain ⟨d', out', l', e1, e2, e3, e4, e5, e6, e7⟩ := irq_rep cf h.1 ha
    refine ⟨_, l', e1, ⟨e2, ?_⟩, e3⟩
    rcases e7 with rfl | e7
    · exact h.2.imp id (by omega)
    · exact Or.inr e7
  case szBack2 gt f =>
    obtain ⟨d', out', l', e1, e2, e3, e4, e5, e6, e7⟩ := irq_rep cf h.1 ha
    refine ⟨_, l', e1, ⟨e2, ?_⟩, e3⟩
    rcases e7 with rfl | e7
    · exact h.2.imp id (by omega)
    · exact Or.inr e7
  case pushLoad =>
    obtain ⟨d', out', l', e1, e2, e3, e4, e5, e6, e7⟩ := irq_rep cf h.1 ha
    exact ⟨_, l', e1, ⟨e2, by have := h.2; omega⟩, e3⟩
  case store1 b =>
    obtain ⟨d', out', l', e1, e2, e3, e4, e5, e6, e7⟩ := irq_rep cf h.1 ha
    exact ⟨_, l', e1, ⟨e2, by have := h.2.1; omega, h.2.2.trans e4.symm⟩, e3⟩
  case cell1 b =>
    obtain ⟨d', out', l', e1, e2, e3, e4, e5, e6, e7⟩ := irq_rep cf h.1 ha
    exact ⟨_, l', e1, ⟨e2, by have := h.2.1; omega, h.2.2.trans e4.symm⟩, e3⟩
  case store2 b =>
    obtain ⟨d', out', l', e1, e2, e3, e4, e5, e6, e7⟩ := irq_rep cf h.1 ha
    exact ⟨_, l', e1, ⟨e2, by have := h.2.1; omega, h.2.2.1.trans e4.symm, by rw [e5]; exact h.2.2.2⟩, e3⟩
  case cell2 b =>
    obtain ⟨d', out', l', e1, e2, e3, e4, e5⟩ := irq_over cf h (hleg trivial) ha
    exact ⟨_, l', e1, e2, e3⟩
  case setEmpty =>
    obtain ⟨b, h1, h2⟩ := h
    obtain ⟨d', out', l', e1, e2, e3, e4, e5⟩ := irq_over cf h1 (hleg trivial) ha
    exact ⟨_, l', e1, ⟨b, e2, by rw [e4]; exact h2⟩, e3⟩
  case rollLoad =>
    obtain ⟨b, h1, h2, h3⟩ := h
    obtain ⟨d', out', l', e1, e2, e3, e4, e5⟩ := irq_over cf h1 (hleg trivial) ha
    exact ⟨_, l', e1, ⟨b, e2, by rw [e4]; exact h2, e5.trans h3⟩, e3⟩
  case rollStore =>
    obtain ⟨b, h1, h2, h3, h4⟩ := h
    obtain ⟨d', out', l', e1, e2, e3, e4, e5⟩ := irq_over cf h1 (hleg trivial) ha
    exact ⟨_, l', e1, ⟨b, e2, by rw [e4]; exact h2, e5.trans h3, h4⟩, e3⟩

theorem outInv_run (cf : Bool) {N : Nat} (hN : 0 < N) {s : OutSt α} {l : List α} (h : OutInv N s l)
    (ha : s.acc = s.out ++ l) (as : List (OutAct α)) (hleg : outLegal cf s as) :
    ∃ s' l', outRun cf s as = some s' ∧ OutInv N s' l' ∧ s'.acc = s'.out ++ l' := by
  induction as generalizing s l with
  | nil => exact ⟨s, l, rfl, h, ha⟩
  | cons a as ih =>
    have hstep : ∃ s' l', outStep cf s a = some s' ∧ OutInv N s' l' ∧ s'.acc = s'.out ++ l' := by
      cases a with
      | tick => exact outInv_tick cf hN h ha
      | irq => exact outInv_irq cf h ha (hleg.1 rfl)
      | start v =>
        obtain ⟨d, pc, v0, acc, out⟩ := s
        by_cases hpc : pc = .idle
        · subst hpc
          exact ⟨⟨d, .szEmpty, v, acc, out⟩, l, by simp [outStep], h, ha⟩
        · exact ⟨_, l, by simp only [outStep, hpc, if_false], h, ha⟩
    obtain ⟨s1, l1, e1, e2, e3⟩ := hstep
    obtain ⟨s2, l2, e4, e5, e6⟩ := ih e2 e3 (hleg.2 s1 e1)
    exact ⟨s2, l2, by rw [outRun_cons, e1]; exact e4, e5, e6⟩

/-- **A main program that pushes, a handler that pops.**  From a fresh queue, whatever the main program pushes and
wherever the handler interrupts it, in whichever order the compiler writes the element and `m_back`, as long as the
handler does not take the last element while a `push()` has moved `m_back` and not returned: no access leaves the array,
what the handler has taken is a prefix of what was pushed, and between calls the queue reports and hands out exactly the
rest.  The full property has no such condition: see `out_garbage`, `out_replays`, `out_wrap_replays`, `out_refuses`. -/
theorem out_shared_partial (cellFirst : Bool) (arr : List α) (hN : 0 < arr.length) (v0 : α) (as : List (OutAct α))
    (hleg : outLegal cellFirst (outInit arr v0) as) :
    ∃ s, outRun cellFirst (outInit arr v0) as = some s ∧ s.out <+: s.acc ∧
      (s.pc = .idle → ∃ l, s.acc = s.out ++ l ∧ Reports s.d l) := by
  obtain ⟨s, l, e1, e2, e3⟩ :=
    outInv_run cellFirst hN (s := outInit arr v0) (l := []) (rep_init arr hN) rfl as hleg
  refine ⟨s, e1, ⟨l, e3.symm⟩, fun hpc => ⟨l, e3, rep_reports (N := arr.length) ?_⟩⟩
  unfold OutInv at e2
  rw [hpc] at e2
  exact e2

/-- a schedule for which all of this is met: the handler runs inside `size()` and inside `push()` -/
def outExample : List (OutAct Nat) :=
  .start 1 :: List.replicate 7 .tick ++ .start 2 :: List.replicate 11 .tick ++ .start 3 :: .tick :: .tick :: .irq ::
    List.replicate 7 .tick ++ [.irq, .tick, .tick]

/-- `outLegal`, computed: only for checking the example -/
def outLegalB (cf : Bool) (s : OutSt α) : List (OutAct α) → Bool
  | [] => true
  | a :: as =>
    (match a, s.pc with
      | .irq, .cell2 _ | .irq, .setEmpty | .irq, .rollLoad | .irq, .rollStore => decide (size s.d ≠ 1)
      | _, _ => true) &&
    match outStep cf s a with
    | some s' => outLegalB cf s' as
    | none => true

theorem outLegal_of_outLegalB (cf : Bool) (s : OutSt α) (as : List (OutAct α)) (h : outLegalB cf s as = true) :
    outLegal cf s as := by
  induction as generalizing s with
  | nil => exact trivial
  | cons a as ih =>
    simp only [outLegalB, Bool.and_eq_true] at h
    refine ⟨?_, fun s' hs => ih s' (by simpa [hs] using h.2)⟩
    rintro rfl hp
    unfold OutSt.pushing at hp
    obtain ⟨d, pc, v, acc, out⟩ := s
    cases pc <;> simp_all

example : outLegal false (outInit [0, 0, 0, 0] 0) outExample := outLegal_of_outLegalB _ _ _ (by decide +kernel)

example : (outRun false (outInit [0, 0, 0, 0] 0) outExample).map (fun s => (s.out, s.acc, s.pc)) =
    some ([1, 2], [1, 2, 3], .idle) := by decide +kernel

/-- **Without interrupts** the eleven accesses of the main program are the calls `size()` and, if there is room,
`push()`. -/
theorem out_alone (cellFirst : Bool) (s : OutSt α) (v : α) (hpc : s.pc = .idle) (hf : s.d.front < s.d.arr.length)
    (hb : s.d.back < s.d.arr.length) :
    outRun cellFirst s (.start v :: List.replicate 11 .tick) =
      if size s.d < s.d.arr.length then
        (pushBack s.d v).map fun d' => { s with d := d', v := v, acc := s.acc ++ [v] }
      else some { s with v := v } := by
  obtain ⟨⟨m, f, b, e⟩, pc, v0, acc, out⟩ := s
  simp only at hpc hf hb
  subst hpc
  have hlast : outRun cellFirst ⟨⟨m, f, b, e⟩, .pushLoad, v, acc, out⟩ (List.replicate 6 .tick) =
      (pushBack ⟨m, f, b, e⟩ v).map fun d' => ⟨d', .idle, v, acc ++ [v], out⟩ := by
    simp only [pushBack, wr_lt hb, Option.map_some, rollover]
    cases cellFirst <;> by_cases h1 : b + 1 = m.length <;>
      simp [List.replicate, outRun, outStep, outTick, wr_lt hb, h1, OutSt.done]
  have hlast' : outRun cellFirst ⟨⟨m, f, b, e⟩, .pushLoad, v, acc, out⟩ (List.replicate 10 .tick) =
      (pushBack ⟨m, f, b, e⟩ v).map fun d' => ⟨d', .idle, v, acc ++ [v], out⟩ := by
    rw [show (10 : Nat) = 6 + 4 from rfl, ← List.replicate_append_replicate, outRun_append, hlast]
    simp only [pushBack, wr_lt hb, Option.map_some, Option.bind_some]
    rfl
  cases e with
  | true =>
    have hs : size (⟨m, f, b, true⟩ : Deque α) < m.length := by simp only [size, if_true]; omega
    simp only [hs, if_true]
    rw [← hlast', outRun_cons, show (11 : Nat) = 10 + 1 from rfl, List.replicate_succ]
    simp only [outStep, if_true, Option.bind_some]
    rw [outRun_cons]
    simp only [outStep, outTick, if_true, Option.bind_some]
  | false =>
    rw [outRun_cons, show (11 : Nat) = 5 + 6 from rfl, ← List.replicate_append_replicate]
    simp only [outStep, if_true, Option.bind_some]
    rw [outRun_append]
    have hmid : outRun cellFirst ⟨⟨m, f, b, false⟩, .szEmpty, v, acc, out⟩ (List.replicate 5 .tick) =
        some ⟨⟨m, f, b, false⟩, if size (⟨m, f, b, false⟩ : Deque α) < m.length then .pushLoad else .idle, v, acc, out⟩ := by
      have hk : (0 < fetchedSize m.length (decide (f > b)) f b ∧ fetchedSize m.length (decide (f > b)) f b < m.length) ↔
          size (⟨m, f, b, false⟩ : Deque α) < m.length := by
        simp only [size, rawSize, fetchedSize, Bool.false_eq_true, if_false]
        by_cases hc : f > b
        · simp only [hc, decide_true, if_true]; split <;> omega
        · simp only [hc, decide_false, Bool.false_eq_true, if_false]; split <;> omega
      simp only [List.replicate, outRun, outStep, outTick, Option.bind_some, hk, Bool.false_eq_true, if_false]
    rw [hmid]
    simp only [Option.bind_some]
    by_cases hc : size (⟨m, f, b, false⟩ : Deque α) < m.length
    · simp only [hc, if_true]; exact hlast
    · simp only [hc, if_false]; rfl

example : (outRun true ⟨⟨[7, 8, 9], 1, 2, false⟩, .idle, 0, [], []⟩ (.start 5 :: List.replicate 11 .tick)).map
    (fun s => (s.acc, s.d)) = some ([5], ⟨[7, 8, 5], 1, 0, false⟩) := by decide +kernel

/-! ## Where the code departs from the property -/

/-- the main program pushes each of these, without interrupts -/
def pushAll (l : List α) : List (OutAct α) := l.flatMap fun a => .start a :: List.replicate 11 .tick

theorem out_fill (cf : Bool) {N : Nat} (l : List α) {d : Deque α} {v0 : α} {acc out m arr : List α} (h : Rep N d m)
    (hf : d.front = 0) (hm : ∀ i, m.length ≤ i → d.arr[i]? = arr[i]?) (hl : m.length + l.length ≤ N) :
    ∃ d' v', outRun cf ⟨d, .idle, v0, acc, out⟩ (pushAll l) = some ⟨d', .idle, v', acc ++ l, out⟩ ∧ Rep N d' (m ++ l) ∧
      d'.front = 0 ∧ ∀ i, m.length + l.length ≤ i → d'.arr[i]? = arr[i]? := by
  induction l generalizing d v0 acc m with
  | nil => exact ⟨d, v0, by simp [pushAll, outRun], by simpa using h, hf, by simpa using hm⟩
  | cons a l ih =>
    simp only [List.length_cons] at hl
    obtain ⟨d1, e1, e2⟩ := rep_pushBack h (by omega) a
    have hlen := h.len
    have hb : d.back = m.length := by rw [h.back, hf]; unfold wrap; rw [if_pos (by omega)]; omega
    have hal := out_alone cf ⟨d, .idle, v0, acc, out⟩ a rfl (by have := h.front; simp only; omega) (by simp only; omega)
    simp only [rep_size h, h.len, show m.length < N by omega, if_true, e1, Option.map_some] at hal
    have hd1 : d1.front = 0 ∧ ∀ i, m.length + 1 ≤ i → d1.arr[i]? = arr[i]? := by
      unfold pushBack at e1
      rw [wr_lt (by omega)] at e1
      simp only [Option.some.injEq] at e1
      rw [← e1]
      refine ⟨hf, fun i hi => ?_⟩
      simp only
      rw [List.getElem?_set_ne (by omega)]
      exact hm i (by omega)
    obtain ⟨d2, v2, e3, e4, e5, e6⟩ := ih (d := d1) (v0 := a) (acc := acc ++ [a]) (m := m ++ [a]) e2 hd1.1
      (by simpa using hd1.2) (by simp; omega)
    refine ⟨d2, v2, ?_, by simpa using e4, e5, ?_⟩
    · rw [pushAll, List.flatMap_cons, outRun_append, hal]
      simpa [pushAll] using e3
    · intro i hi
      exact e6 i (by simp at hi ⊢; omega)

theorem over_drain (cf : Bool) {N : Nat} {d : Deque α} {l : List α} {b : Nat} {y : α} (h : Over N d l b)
    (he : d.empty = false) (hy : d.arr[b]? = some y) (pc : OutPc) (v : α) (acc out : List α) :
    outRun cf ⟨d, pc, v, acc, out⟩ (List.replicate (l.length + 1) .irq) =
      some ⟨⟨d.arr, rollover N (b + 1), d.back, decide (rollover N (b + 1) = d.back)⟩, pc, v, acc, out ++ (l ++ [y])⟩ := by
  induction l generalizing d out with
  | nil =>
    have hfb : d.front = b := by
      rw [h.at_]; unfold wrap; rw [if_pos (by have := h.front; simp; omega)]; simp
    have hfv : frontVal d = some y := by unfold frontVal rd; rw [hfb, hy]
    simp only [List.length_nil, Nat.zero_add, List.replicate, outRun, outStep, he, Bool.false_eq_true, if_false, hfv,
      popFront, h.len, hfb, Option.bind_some, List.nil_append]
    by_cases hc : rollover N (b + 1) = d.back <;> simp [hc]
  | cons x t ih =>
    obtain ⟨d', e1, e2, e3, e4, e5⟩ := over_pop h he (by simp)
    have hb : d'.back = d.back := by rw [e3.back, h.back]
    have := ih e3 e4 (by rw [e5]; exact hy) (out ++ [x])
    rw [List.length_cons, List.replicate_succ, outRun_cons]
    simp only [outStep, he, Bool.false_eq_true, if_false, e1, e2, List.head?_cons, Option.bind_some]
    rw [this, e5, hb]
    simp

theorem rep_full {N : Nat} {m : List α} {f : Nat} (hm : m.length = N) (hf : f < N) :
    Rep N ⟨m, f, f, false⟩ (m.drop f ++ m.take f) := by
  have hl : (m.drop f ++ m.take f).length = N := by simp; omega
  refine ⟨hm, by omega, hf, ?_, ?_, ?_⟩
  · simp only [hl]; unfold wrap; rw [if_neg (by omega)]; omega
  · simp only [Bool.false_eq_true, false_iff]
    intro h0
    rw [h0] at hl
    simp at hl; omega
  · intro i hi
    rw [hl] at hi
    simp only
    by_cases hc : f + i < N
    · rw [List.getElem?_append_left (by simp; omega), List.getElem?_drop]
      unfold wrap; rw [if_pos hc]
    · rw [List.getElem?_append_right (by simp; omega), List.getElem?_take_of_lt (by simp; omega)]
      unfold wrap; rw [if_neg hc]
      congr 1; simp; omega

/-- the main program has found room for `v` -/
theorem out_checked (cf : Bool) {N : Nat} {d : Deque α} {v0 v : α} {acc out l : List α} (h : Rep N d l) (hne : l ≠ [])
    (hl : l.length < N) :
    outRun cf ⟨d, .idle, v0, acc, out⟩ (.start v :: List.replicate 5 .tick) = some ⟨d, .pushLoad, v, acc, out⟩ := by
  have he : d.empty = false := by
    have := h.empty
    cases hd : d.empty <;> simp_all
  have hs := rep_size h
  have hk : 0 < fetchedSize N (decide (d.front > d.back)) d.front d.back ∧
      fetchedSize N (decide (d.front > d.back)) d.front d.back < N := by
    have h1 := h.front
    have h3 := h.back
    have h4 : 0 < l.length := List.length_pos_iff.mpr hne
    unfold wrap at h3
    unfold fetchedSize
    by_cases hc : d.front > d.back
    · simp only [hc, decide_true, if_true]
      split at h3 <;> omega
    · simp only [hc, decide_false, Bool.false_eq_true, if_false]
      split at h3 <;> omega
  simp only [List.replicate, outRun, outStep, outTick, Option.bind_some, he, h.len, hk, and_self, if_true,
    Bool.false_eq_true, if_false]

/-- **Violation.**  If the compiler stores `m_back` before it writes the element (`*m_back++ = value` leaves the order
open), a handler that runs between the two and takes all that the queue reports gets, in place of `v`, what was in the
array before; `v` itself is never delivered, and when `push()` returns the queue claims to be full. -/
theorem out_garbage (arr : List α) (v0 v y : α) (l : List α) (hl : l ≠ []) (hN : l.length < arr.length)
    (hy : arr[l.length]? = some y) :
    ∃ s q, outRun false (outInit arr v0) (pushAll l ++ (.start v :: List.replicate 7 .tick ++
        (List.replicate (l.length + 1) .irq ++ List.replicate 4 .tick))) = some s ∧
      s.pc = .idle ∧ s.acc = l ++ [v] ∧ s.out = l ++ [y] ∧ q.length = arr.length ∧ Reports s.d q := by
  obtain ⟨d, v1, e1, e2, e3, e4⟩ := out_fill false (N := arr.length) l (d := init arr) (v0 := v0) (acc := []) (out := [])
    (m := []) (arr := arr) (rep_init arr (by omega)) rfl (fun _ _ => rfl) (by simp; omega)
  simp only [List.nil_append, List.length_nil, Nat.zero_add] at e1 e2 e4
  have hlen := e2.len
  have hb : d.back = l.length := by rw [e2.back, e3]; unfold wrap; rw [if_pos (by omega)]; omega
  have he : d.empty = false := by
    have := e2.empty
    cases hd : d.empty <;> simp_all
  have ho := over_of_rep e2 hN
  have hdr := over_drain false ho he (y := y) (by simp only; rw [hb, e4 _ (Nat.le_refl _)]; exact hy) (.cell2 d.back) v l []
  have hlt : d.back < d.arr.length := by omega
  refine ⟨⟨⟨d.arr.set d.back v, rollover arr.length (d.back + 1), rollover arr.length (d.back + 1), false⟩, .idle, v,
    l ++ [v], l ++ [y]⟩, _, ?_, rfl, rfl, rfl, ?_, rep_reports (rep_full (N := arr.length) (by simpa using hlen) ?_)⟩
  · rw [outRun_append, outInit, e1]
    simp only [Option.bind_some]
    rw [outRun_append, show List.replicate 7 (OutAct.tick (α := α)) = List.replicate 5 .tick ++ [.tick, .tick] from rfl,
      ← List.cons_append, outRun_append, out_checked false e2 hl hN]
    simp only [Option.bind_some]
    simp only [outRun, outStep, outTick, Option.bind_some, Bool.false_eq_true, if_false]
    rw [outRun_append, hdr]
    simp only [Option.bind_some, List.nil_append]
    by_cases hc : d.back + 1 = arr.length
    · simp [List.replicate, outRun, outStep, outTick, wr_lt hlt, hc, hlen, rollover, OutSt.done]
    · simp [List.replicate, outRun, outStep, outTick, wr_lt hlt, hc, hlen, rollover, OutSt.done]
  · simp; omega
  · unfold rollover; split <;> omega

example : ∃ s, outRun false (outInit [70, 80, 90] 0) (pushAll [1] ++ (.start 2 :: List.replicate 7 .tick ++
    (List.replicate 2 .irq ++ List.replicate 4 .tick))) = some s ∧ s.out = [1, 80] ∧ s.acc = [1, 2] ∧ size s.d = 3 :=
  ⟨_, rfl, by decide +kernel, by decide +kernel, by decide +kernel⟩

/-- **Violation.**  The handler takes everything, `v` included, after `push()` has stored `v` and `m_back` and before it
marks the queue as not empty: every element is delivered, and when `push()` returns the queue claims to be full of them
again. -/
theorem out_replays (cellFirst : Bool) (arr : List α) (v0 v : α) (l : List α) (hl : l ≠ []) (hN : l.length < arr.length) :
    ∃ s q, outRun cellFirst (outInit arr v0) (pushAll l ++ (.start v :: List.replicate 8 .tick ++
        (List.replicate (l.length + 1) .irq ++ List.replicate 3 .tick))) = some s ∧
      s.pc = .idle ∧ s.acc = l ++ [v] ∧ s.out = s.acc ∧ q.length = arr.length ∧ Reports s.d q := by
  obtain ⟨d, v1, e1, e2, e3, e4⟩ := out_fill cellFirst (N := arr.length) l (d := init arr) (v0 := v0) (acc := [])
    (out := []) (m := []) (arr := arr) (rep_init arr (by omega)) rfl (fun _ _ => rfl) (by simp; omega)
  simp only [List.nil_append, List.length_nil, Nat.zero_add] at e1 e2 e4
  have hlen := e2.len
  have hb : d.back = l.length := by rw [e2.back, e3]; unfold wrap; rw [if_pos (by omega)]; omega
  have he : d.empty = false := by
    have := e2.empty
    cases hd : d.empty <;> simp_all
  have hlt : d.back < d.arr.length := by omega
  obtain ⟨m, w1, w2, w3⟩ := over_write (over_of_rep e2 hN) v
  have hm : m = d.arr.set d.back v := by
    simp only at w1; rw [wr_lt hlt] at w1; simpa using w1.symm
  subst hm
  have hdr := over_drain cellFirst w2 he w3 .setEmpty v l []
  refine ⟨⟨⟨d.arr.set d.back v, rollover arr.length (d.back + 1), rollover arr.length (d.back + 1), false⟩, .idle, v,
    l ++ [v], l ++ [v]⟩, _, ?_, rfl, rfl, rfl, ?_, rep_reports (rep_full (N := arr.length) (by simpa using hlen) ?_)⟩
  · rw [outRun_append, outInit, e1]
    simp only [Option.bind_some]
    rw [outRun_append, show List.replicate 8 (OutAct.tick (α := α)) = List.replicate 5 .tick ++ [.tick, .tick, .tick] from rfl,
      ← List.cons_append, outRun_append, out_checked cellFirst e2 hl hN]
    simp only [Option.bind_some]
    have hst : outRun cellFirst ⟨d, .pushLoad, v, l, []⟩ [.tick, .tick, .tick] =
        some ⟨{ d with arr := d.arr.set d.back v, back := d.back + 1 }, .setEmpty, v, l, []⟩ := by
      cases cellFirst <;> simp [outRun, outStep, outTick, wr_lt hlt]
    rw [hst]
    simp only [Option.bind_some]
    rw [outRun_append, hdr]
    simp only [Option.bind_some, List.nil_append]
    by_cases hc : d.back + 1 = arr.length
    · simp [List.replicate, outRun, outStep, outTick, hc, hlen, rollover, OutSt.done]
    · simp [List.replicate, outRun, outStep, outTick, hc, hlen, rollover, OutSt.done]
  · simp; omega
  · unfold rollover; split <;> omega

example : ∃ s, outRun true (outInit [0, 0, 0] 0) (pushAll [1] ++ (.start 2 :: List.replicate 8 .tick ++
    (List.replicate 2 .irq ++ List.replicate 3 .tick))) = some s ∧ s.out = [1, 2] ∧ size s.d = 3 :=
  ⟨_, rfl, by decide +kernel, by decide +kernel⟩

/-- **Violation.**  The same with the last place of the array, even later: the queue is already marked as not empty, but
`m_back` still has to be wrapped, so the handler's last `pop()` does not find it equal to `m_front` and leaves the mark;
once `m_back` is wrapped the queue claims to be full of elements already delivered. -/
theorem out_wrap_replays (cellFirst : Bool) (arr : List α) (v0 v : α) (l : List α) (hl : l ≠ [])
    (hN : l.length + 1 = arr.length) :
    ∃ s q, outRun cellFirst (outInit arr v0) (pushAll l ++ (.start v :: List.replicate 9 .tick ++
        (List.replicate (l.length + 1) .irq ++ List.replicate 2 .tick))) = some s ∧
      s.pc = .idle ∧ s.acc = l ++ [v] ∧ s.out = s.acc ∧ q.length = arr.length ∧ Reports s.d q := by
  obtain ⟨d, v1, e1, e2, e3, e4⟩ := out_fill cellFirst (N := arr.length) l (d := init arr) (v0 := v0) (acc := [])
    (out := []) (m := []) (arr := arr) (rep_init arr (by omega)) rfl (fun _ _ => rfl) (by simp; omega)
  simp only [List.nil_append, List.length_nil, Nat.zero_add] at e1 e2 e4
  have hlen := e2.len
  have hb : d.back = l.length := by rw [e2.back, e3]; unfold wrap; rw [if_pos (by omega)]; omega
  have he : d.empty = false := by
    have := e2.empty
    cases hd : d.empty <;> simp_all
  have hlt : d.back < d.arr.length := by omega
  obtain ⟨m, w1, w2, w3⟩ := over_write (over_of_rep e2 (by omega)) v
  have hm : m = d.arr.set d.back v := by
    simp only at w1; rw [wr_lt hlt] at w1; simpa using w1.symm
  subst hm
  have hdr := over_drain cellFirst w2 he w3 .rollLoad v l []
  have hc : d.back + 1 = arr.length := by omega
  refine ⟨⟨⟨d.arr.set d.back v, 0, 0, false⟩, .idle, v, l ++ [v], l ++ [v]⟩, _, ?_, rfl, rfl, rfl, ?_,
    rep_reports (rep_full (N := arr.length) (by simpa using hlen) (by omega))⟩
  · rw [outRun_append, outInit, e1]
    simp only [Option.bind_some]
    rw [outRun_append, show List.replicate 9 (OutAct.tick (α := α)) = List.replicate 5 .tick ++ List.replicate 4 .tick from rfl,
      ← List.cons_append, outRun_append, out_checked cellFirst e2 hl (by omega)]
    simp only [Option.bind_some]
    have hst : outRun cellFirst ⟨d, .pushLoad, v, l, []⟩ (List.replicate 4 .tick) =
        some ⟨{ d with arr := d.arr.set d.back v, back := d.back + 1 }, .rollLoad, v, l, []⟩ := by
      obtain ⟨a, f, b, e⟩ := d
      simp only at he hlt
      cases cellFirst <;> simp [List.replicate, outRun, outStep, outTick, wr_lt hlt, he]
    rw [hst]
    simp only [Option.bind_some]
    rw [outRun_append, hdr]
    simp only [Option.bind_some, List.nil_append]
    have h0 : (0 : Nat) ≠ arr.length := by omega
    simp [List.replicate, outRun, outStep, outTick, hc, hlen, rollover, OutSt.done, h0]
  · simp; omega

example : ∃ s, outRun true (outInit [0, 0, 0] 0) (pushAll [1, 2] ++ (.start 3 :: List.replicate 9 .tick ++
    (List.replicate 3 .irq ++ List.replicate 2 .tick))) = some s ∧ s.out = [1, 2, 3] ∧ size s.d = 3 :=
  ⟨_, rfl, by decide +kernel, by decide +kernel⟩

theorem rep_drain (cf : Bool) {N : Nat} {d : Deque α} {l : List α} (h : Rep N d l) (pc : OutPc) (v : α) (acc out : List α) :
    ∃ d', outRun cf ⟨d, pc, v, acc, out⟩ (List.replicate l.length .irq) = some ⟨d', pc, v, acc, out ++ l⟩ ∧ Rep N d' [] := by
  induction l generalizing d out with
  | nil => exact ⟨d, by simp [outRun], h⟩
  | cons x t ih =>
    obtain ⟨d1, e1, e2⟩ := rep_popFront h (by simp)
    have e3 := rep_front h (by simp)
    have he : d.empty = false := by
      have := h.empty
      cases hd : d.empty <;> simp_all
    obtain ⟨d', e4, e5⟩ := ih e2 (out ++ [x])
    refine ⟨d', ?_, e5⟩
    rw [List.length_cons, List.replicate_succ, outRun_cons]
    simp only [outStep, he, Bool.false_eq_true, if_false, e1, e3, List.head?_cons, Option.bind_some]
    simpa using e4

/-- **Violation.**  `size()` looks at `m_empty` first and at `m_front` and `m_back` later: if the handler takes
everything in between, `size()` takes the empty queue for a full one, and the main program's `v` is refused. -/
theorem out_refuses (cellFirst : Bool) (arr : List α) (v0 v : α) (l : List α) (hl : l ≠ []) (hN : l.length ≤ arr.length) :
    ∃ s, outRun cellFirst (outInit arr v0) (pushAll l ++ ([.start v, .tick] ++ (List.replicate l.length .irq ++
        List.replicate 10 .tick))) = some s ∧
      s.pc = .idle ∧ s.acc = l ∧ s.out = l ∧ Reports s.d [] := by
  have hp : 0 < l.length := List.length_pos_iff.mpr hl
  obtain ⟨d, v1, e1, e2, e3, e4⟩ := out_fill cellFirst (N := arr.length) l (d := init arr) (v0 := v0) (acc := [])
    (out := []) (m := []) (arr := arr) (rep_init arr (by omega)) rfl (fun _ _ => rfl) (by simp; omega)
  simp only [List.nil_append, List.length_nil, Nat.zero_add] at e1 e2 e4
  have he : d.empty = false := by
    have := e2.empty
    cases hd : d.empty <;> simp_all
  obtain ⟨d', e5, e6⟩ := rep_drain cellFirst e2 .szFront v l []
  refine ⟨⟨d', .idle, v, l, l⟩, ?_, rfl, rfl, rfl, rep_reports e6⟩
  rw [outRun_append, outInit, e1]
  simp only [Option.bind_some]
  rw [outRun_append]
  simp only [outRun, outStep, outTick, he, if_true, Bool.false_eq_true, if_false, Option.bind_some]
  rw [outRun_append, e5]
  simp only [Option.bind_some, List.nil_append]
  have hfb : d'.back = d'.front := by
    have h1 := e6.back
    have h2 := e6.front
    rw [h1]; unfold wrap; rw [if_pos (by simpa using h2)]; simp
  simp [List.replicate, outRun, outStep, outTick, hfb, fetchedSize]

example : ∃ s, outRun false (outInit [0, 0, 0] 0) (pushAll [1] ++ ([.start 2, .tick] ++ (List.replicate 1 .irq ++
    List.replicate 10 .tick))) = some s ∧ s.acc = [1] ∧ size s.d = 0 :=
  ⟨_, rfl, by decide +kernel, by decide +kernel⟩

end Verif.Deque.Handler
