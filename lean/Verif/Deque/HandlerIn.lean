import Verif.Deque.Handler

/-!
# Theorems about a queue that an interrupt handler fills and the main program empties (C107)
-/
namespace Verif.Deque.Handler
open Verif Verif.Deque
variable {α : Type u}

theorem inRun_cons (s : InSt α) (a : InAct α) (as : List (InAct α)) :
    inRun s (a :: as) = (inStep s a).bind fun s' => inRun s' as := rfl

theorem inRun_append (s : InSt α) (as bs : List (InAct α)) :
    inRun s (as ++ bs) = (inRun s as).bind fun s' => inRun s' bs := by
  induction as generalizing s with
  | nil => rfl
  | cons a as ih =>
    rw [List.cons_append, inRun_cons, inRun_cons]
    cases inStep s a with
    | none => rfl
    | some s' => exact ih s'

/-- `m_front` has been moved on from `f0`, the comparison is still to come; `l` includes the element being removed -/
structure Window (N : Nat) (d : Deque α) (l : List α) (f0 : Nat) : Prop where
  rep : Rep N { d with front := f0 } l
  ne : l ≠ []
  front : d.front = f0 + 1 ∨ d.front = rollover N (f0 + 1)

theorem window_size {N : Nat} {d : Deque α} {l : List α} {f0 : Nat} (h : Window N d l f0) :
    size d = if l.length = 1 then N else l.length - 1 := by
  have h1 := h.rep.front
  have h2 := h.rep.cap
  have h3 := h.rep.back
  have h4 := h.rep.len
  have h6 : d.empty = false := by
    have := h.rep.empty
    have := h.ne
    cases hd : d.empty <;> simp_all
  have h7 : 0 < l.length := List.length_pos_iff.mpr h.ne
  have h8 := h.front
  simp only at h1 h3 h4
  simp only [size, h6, Bool.false_eq_true, if_false, rawSize, h4]
  unfold wrap at h3
  unfold rollover at h8
  split at h3 <;> split at h8 <;> rcases h8 with h8 | h8 <;> repeat' split
  all_goals omega

theorem window_push {N : Nat} {d : Deque α} {l : List α} {f0 : Nat} (h : Window N d l f0) (hl : l.length < N) (v : α) :
    ∃ d', pushBack d v = some d' ∧ Window N d' (l ++ [v]) f0 ∧ d'.front = d.front := by
  obtain ⟨d', e1, e2⟩ := rep_pushBack h.rep hl v
  unfold pushBack at e1
  simp only at e1
  cases hw : wr d.arr d.back v with
  | none => simp [hw] at e1
  | some m =>
    simp only [hw, Option.some.injEq] at e1
    refine ⟨⟨m, d.front, rollover d.arr.length (d.back + 1), false⟩, by unfold pushBack; simp only [hw], ⟨?_, by simp, ?_⟩, rfl⟩
    · simp only
      rw [e1]; exact e2
    · exact h.front

theorem window_over {N : Nat} {d : Deque α} {l : List α} {f0 : Nat} (h : Window N d l f0)
    (hf : d.front = rollover N (f0 + 1)) :
    Rep N { d with empty := if d.front = d.back then true else d.empty } l.tail := by
  obtain ⟨d', e1, e2⟩ := rep_popFront h.rep h.ne
  have hlen : d.arr.length = N := h.rep.len
  unfold popFront frontVal at e1
  simp only at e1
  cases hr : rd d.arr f0 with
  | none => simp [hr] at e1
  | some x =>
    simp only [hr, Option.some.injEq] at e1
    rw [hlen, ← hf] at e1
    rw [e1]
    exact e2

/-- What holds between any two actions. -/
def InInv (N : Nat) (s : InSt α) (l : List α) : Prop :=
  match s.pc with
  | .idle => Rep N s.d l
  | .front => Rep N s.d l ∧ l ≠ []
  | .cell f => Rep N s.d l ∧ l ≠ [] ∧ f = s.d.front
  | .incLoad x => Rep N s.d l ∧ l.head? = some x
  | .incStore x f => Rep N s.d l ∧ l.head? = some x ∧ f = s.d.front
  | .rollLoad x => l.head? = some x ∧ ∃ f0, Window N s.d l f0 ∧ s.d.front = f0 + 1
  | .rollStore x => l.head? = some x ∧ ∃ f0, Window N s.d l f0 ∧ s.d.front = f0 + 1 ∧ f0 + 1 = N
  | .cmpFront x => l.head? = some x ∧ ∃ f0, Window N s.d l f0 ∧ s.d.front = rollover N (f0 + 1)
  | .cmpBack x f => l.head? = some x ∧ f = s.d.front ∧ ∃ f0, Window N s.d l f0 ∧ s.d.front = rollover N (f0 + 1)
  | .setEmpty x =>
    l.head? = some x ∧ s.d.front = s.d.back ∧ l.length = 1 ∧ ∃ f0, Window N s.d l f0 ∧ s.d.front = rollover N (f0 + 1)

theorem ne_of_head? {l : List α} {x : α} (h : l.head? = some x) : l ≠ [] := by
  rintro rfl; simp at h

theorem head?_snoc {l : List α} {x v : α} (h : l.head? = some x) : (l ++ [v]).head? = some x := by
  cases l <;> simp_all

theorem tail_of_head? {l : List α} {x : α} (h : l.head? = some x) : l = x :: l.tail := by
  cases l <;> simp_all

theorem inv_tick {N : Nat} {s : InSt α} {l : List α} (h : InInv N s l) (ha : s.acc = s.out ++ l) :
    ∃ s' l', inTick s = some s' ∧ InInv N s' l' ∧ s'.acc = s'.out ++ l' := by
  obtain ⟨d, pc, acc, out⟩ := s
  cases pc <;> simp only [InInv] at h <;> simp only at ha
  case idle => exact ⟨_, l, rfl, h, ha⟩
  case front => exact ⟨_, l, rfl, ⟨h.1, h.2, rfl⟩, ha⟩
  case cell f =>
    obtain ⟨h1, h2, rfl⟩ := h
    have h3 := rep_front h1 h2
    obtain ⟨x, t, rfl⟩ := List.exists_cons_of_ne_nil h2
    refine ⟨⟨d, .incLoad x, acc, out⟩, x :: t, ?_, ⟨h1, rfl⟩, ha⟩
    unfold frontVal at h3
    simp only [inTick, h3]
    rfl
  case incLoad x => exact ⟨_, l, rfl, ⟨h.1, h.2, rfl⟩, ha⟩
  case incStore x f =>
    obtain ⟨h1, h2, rfl⟩ := h
    exact ⟨_, l, rfl, ⟨h2, d.front, ⟨h1, ne_of_head? h2, Or.inl rfl⟩, rfl⟩, ha⟩
  case rollLoad x =>
    obtain ⟨h1, f0, h2, h3⟩ := h
    have h4 : d.arr.length = N := h2.rep.len
    by_cases hc : d.front = N
    · refine ⟨⟨d, .rollStore x, acc, out⟩, l, by simp [inTick, h4, hc], ⟨h1, f0, h2, h3, by omega⟩, ha⟩
    · refine ⟨⟨d, .cmpFront x, acc, out⟩, l, by simp [inTick, h4, hc], ⟨h1, f0, h2, ?_⟩, ha⟩
      unfold rollover
      rw [if_neg (by omega)]; exact h3
  case rollStore x =>
    obtain ⟨h1, f0, h2, h3, h4⟩ := h
    have h5 : 0 = rollover N (f0 + 1) := by unfold rollover; rw [if_pos h4]
    exact ⟨_, l, rfl, ⟨h1, f0, ⟨h2.rep, h2.ne, Or.inr h5⟩, h5⟩, ha⟩
  case cmpFront x => exact ⟨_, l, rfl, ⟨h.1, rfl, h.2⟩, ha⟩
  case cmpBack x f =>
    obtain ⟨h1, rfl, f0, h2, h3⟩ := h
    have h4 := window_over h2 h3
    by_cases hc : d.front = d.back
    · refine ⟨⟨d, .setEmpty x, acc, out⟩, l, by simp [inTick, hc], ⟨h1, hc, ?_, f0, h2, h3⟩, ha⟩
      rw [if_pos hc] at h4
      have := h4.empty.mp rfl
      rw [tail_of_head? h1, this]; rfl
    · rw [if_neg hc] at h4
      refine ⟨⟨d, .idle, acc, out ++ [x]⟩, l.tail, by simp [inTick, hc, InSt.done], h4, ?_⟩
      simp only [List.append_assoc, List.singleton_append]
      rw [← tail_of_head? h1]; exact ha
  case setEmpty x =>
    obtain ⟨h1, hc, h5, f0, h2, h3⟩ := h
    have h4 := window_over h2 h3
    rw [if_pos hc] at h4
    refine ⟨_, l.tail, rfl, h4, ?_⟩
    simp only [InSt.done, List.append_assoc, List.singleton_append]
    rw [← tail_of_head? h1]; exact ha

theorem inv_irq {N : Nat} {s : InSt α} {l : List α} (h : InInv N s l) (ha : s.acc = s.out ++ l) (v : α)
    (hleg : s.popping → size s.d + 1 ≠ s.d.arr.length) :
    ∃ s' l', inStep s (.irq v) = some s' ∧ InInv N s' l' ∧ s'.acc = s'.out ++ l' := by
  obtain ⟨d, pc, acc, out⟩ := s
  have hrep : ∀ (h1 : Rep N d l), ∃ s' l', inStep ⟨d, pc, acc, out⟩ (.irq v) = some s' ∧ s'.pc = pc ∧ Rep N s'.d l' ∧
      s'.acc = s'.out ++ l' ∧ s'.d.front = d.front ∧ (l ≠ [] → l' ≠ []) ∧ ∀ x, l.head? = some x → l'.head? = some x := by
    intro h1
    by_cases hl : l.length < N
    · obtain ⟨d', e1, e2⟩ := rep_pushBack h1 hl v
      refine ⟨⟨d', pc, acc ++ [v], out⟩, l ++ [v], ?_, rfl, e2, ?_, ?_, by simp, fun x hx => head?_snoc hx⟩
      · simp only [inStep, rep_size h1, h1.len, hl, if_true, e1, Option.map_some]
      · simp only at ha ⊢; rw [ha, List.append_assoc]
      · unfold pushBack at e1
        cases hw : wr d.arr d.back v with
        | none => simp [hw] at e1
        | some m => simp only [hw, Option.some.injEq] at e1; rw [← e1]
    · exact ⟨⟨d, pc, acc, out⟩, l, by simp [inStep, rep_size h1, h1.len, hl], rfl, h1, ha, rfl, id, fun _ => id⟩
  have hwin : ∀ (f0 : Nat) (h1 : Window N d l f0) (hleg : size d + 1 ≠ d.arr.length),
      ∃ s' l', inStep ⟨d, pc, acc, out⟩ (.irq v) = some s' ∧ s'.pc = pc ∧ Window N s'.d l' f0 ∧
        s'.acc = s'.out ++ l' ∧ s'.d.front = d.front ∧ ∀ x, l.head? = some x → l'.head? = some x := by
    intro f0 h1 hleg
    have h2 := window_size h1
    have h3 : d.arr.length = N := h1.rep.len
    have h4 : 0 < l.length := List.length_pos_iff.mpr h1.ne
    have h5 := h1.rep.cap
    by_cases hl : l.length = 1
    · rw [if_pos hl] at h2
      exact ⟨⟨d, pc, acc, out⟩, l, by simp [inStep, h2, h3], rfl, h1, ha, rfl, fun _ => id⟩
    · rw [if_neg hl] at h2
      obtain ⟨d', e1, e2, e3⟩ := window_push h1 (by omega) v
      refine ⟨⟨d', pc, acc ++ [v], out⟩, l ++ [v], ?_, rfl, e2, ?_, e3, fun x hx => head?_snoc hx⟩
      · simp only [inStep, h2, h3, show l.length - 1 < N by omega, if_true, e1, Option.map_some]
      · simp only at ha ⊢; rw [ha, List.append_assoc]
  cases pc <;> simp only [InInv] at h
  case idle =>
    obtain ⟨⟨d', _, acc', out'⟩, l', e1, rfl, e3, e4, _⟩ := hrep h
    exact ⟨_, l', e1, e3, e4⟩
  case front =>
    obtain ⟨⟨d', _, acc', out'⟩, l', e1, rfl, e3, e4, e5, e6, e7⟩ := hrep h.1
    exact ⟨_, l', e1, ⟨e3, e6 h.2⟩, e4⟩
  case cell f =>
    obtain ⟨⟨d', _, acc', out'⟩, l', e1, rfl, e3, e4, e5, e6, e7⟩ := hrep h.1
    exact ⟨_, l', e1, ⟨e3, e6 h.2.1, h.2.2.trans e5.symm⟩, e4⟩
  case incLoad x =>
    obtain ⟨⟨d', _, acc', out'⟩, l', e1, rfl, e3, e4, e5, e6, e7⟩ := hrep h.1
    exact ⟨_, l', e1, ⟨e3, e7 _ h.2⟩, e4⟩
  case incStore x f =>
    obtain ⟨⟨d', _, acc', out'⟩, l', e1, rfl, e3, e4, e5, e6, e7⟩ := hrep h.1
    exact ⟨_, l', e1, ⟨e3, e7 _ h.2.1, h.2.2.trans e5.symm⟩, e4⟩
  case rollLoad x =>
    obtain ⟨h1, f0, h2, h3⟩ := h
    obtain ⟨⟨d', _, acc', out'⟩, l', e1, rfl, e3, e4, e5, e6⟩ := hwin f0 h2 (hleg trivial)
    exact ⟨_, l', e1, ⟨e6 _ h1, f0, e3, e5.trans h3⟩, e4⟩
  case rollStore x =>
    obtain ⟨h1, f0, h2, h3, h4⟩ := h
    obtain ⟨⟨d', _, acc', out'⟩, l', e1, rfl, e3, e4, e5, e6⟩ := hwin f0 h2 (hleg trivial)
    exact ⟨_, l', e1, ⟨e6 _ h1, f0, e3, e5.trans h3, h4⟩, e4⟩
  case cmpFront x =>
    obtain ⟨h1, f0, h2, h3⟩ := h
    obtain ⟨⟨d', _, acc', out'⟩, l', e1, rfl, e3, e4, e5, e6⟩ := hwin f0 h2 (hleg trivial)
    exact ⟨_, l', e1, ⟨e6 _ h1, f0, e3, e5.trans h3⟩, e4⟩
  case cmpBack x f =>
    obtain ⟨h1, h0, f0, h2, h3⟩ := h
    obtain ⟨⟨d', _, acc', out'⟩, l', e1, rfl, e3, e4, e5, e6⟩ := hwin f0 h2 (hleg trivial)
    exact ⟨_, l', e1, ⟨e6 _ h1, h0.trans e5.symm, f0, e3, e5.trans h3⟩, e4⟩
  case setEmpty x =>
    obtain ⟨h1, hc, h5, f0, h2, h3⟩ := h
    have h6 := window_size h2
    have h7 : d.arr.length = N := h2.rep.len
    rw [if_pos h5] at h6
    exact ⟨⟨d, .setEmpty x, acc, out⟩, l, by simp [inStep, h6, h7], ⟨h1, hc, h5, f0, h2, h3⟩, ha⟩

theorem inv_run {N : Nat} {s : InSt α} {l : List α} (h : InInv N s l) (ha : s.acc = s.out ++ l)
    (as : List (InAct α)) (hleg : inLegal s as) :
    ∃ s' l', inRun s as = some s' ∧ InInv N s' l' ∧ s'.acc = s'.out ++ l' := by
  induction as generalizing s l with
  | nil => exact ⟨s, l, rfl, h, ha⟩
  | cons a as ih =>
    have hstep : ∃ s' l', inStep s a = some s' ∧ InInv N s' l' ∧ s'.acc = s'.out ++ l' := by
      cases a with
      | tick => exact inv_tick h ha
      | irq v => exact inv_irq h ha v (hleg.1 v rfl)
      | start =>
        obtain ⟨d, pc, acc, out⟩ := s
        cases pc
        case idle =>
          by_cases he : d.empty = true
          · exact ⟨⟨d, .idle, acc, out⟩, l, by simp [inStep, he], h, ha⟩
          · refine ⟨⟨d, .front, acc, out⟩, l, by simp [inStep, he], ⟨h, ?_⟩, ha⟩
            rintro rfl
            exact he (Rep.empty h |>.mpr rfl)
        all_goals exact ⟨_, l, rfl, h, ha⟩
    obtain ⟨s1, l1, e1, e2, e3⟩ := hstep
    obtain ⟨s2, l2, e4, e5, e6⟩ := ih e2 e3 (hleg.2 s1 e1)
    exact ⟨s2, l2, by rw [inRun_cons, e1]; exact e4, e5, e6⟩

/-- **A handler that pushes, a main program that pops.**  From a fresh queue, whatever the handler offers and wherever
it interrupts the main program, as long as it does not fill the queue while a `pop()` is between moving `m_front` and
looking at `m_back`: no access leaves the array, what the main program has taken is a prefix of what the handler pushed,
and between calls the queue reports and hands out exactly the rest.  The full property has no such condition: see
`in_wipes` and `in_refuses`. -/
theorem in_shared_partial (arr : List α) (hN : 0 < arr.length) (as : List (InAct α))
    (hleg : inLegal (inInit arr) as) :
    ∃ s, inRun (inInit arr) as = some s ∧ s.out <+: s.acc ∧
      (s.pc = .idle → ∃ l, s.acc = s.out ++ l ∧ Reports s.d l) := by
  obtain ⟨s, l, e1, e2, e3⟩ := inv_run (N := arr.length) (s := inInit arr) (l := []) (rep_init arr hN) rfl as hleg
  refine ⟨s, e1, ⟨l, e3.symm⟩, fun hpc => ⟨l, e3, rep_reports (N := arr.length) ?_⟩⟩
  unfold InInv at e2
  rw [hpc] at e2
  exact e2

/-- **Without interrupts** the nine accesses of the main program are the calls `front()` and `pop()`. -/
theorem in_alone (s : InSt α) (x : α) (d' : Deque α) (hpc : s.pc = .idle) (he : s.d.empty = false)
    (hf : frontVal s.d = some x) (hp : popFront s.d = some d') :
    inRun s (.start :: List.replicate 9 .tick) = some { s with d := d', out := s.out ++ [x] } := by
  obtain ⟨⟨m, f, b, e⟩, pc, acc, out⟩ := s
  simp only at hpc he
  subst hpc he
  unfold frontVal at hf
  simp only at hf
  simp only [popFront, frontVal, hf, Option.some.injEq, rollover] at hp
  subst hp
  by_cases h1 : f + 1 = m.length
  · by_cases h2 : 0 = b
    · simp [inRun, inStep, inTick, List.replicate, hf, h1, h2, InSt.done]
    · simp [inRun, inStep, inTick, List.replicate, hf, h1, h2, InSt.done]
  · by_cases h2 : f + 1 = b
    · simp [inRun, inStep, inTick, List.replicate, hf, h1, h2, InSt.done, show b ≠ m.length by omega]
    · simp [inRun, inStep, inTick, List.replicate, hf, h1, h2, InSt.done]

/-- a schedule for which all of this is met: a queue of four; the handler runs inside the first `pop()`, and again -/
def inExample : List (InAct Nat) :=
  [.irq 1, .irq 2, .start, .tick, .tick, .tick, .tick, .irq 3, .tick, .tick, .tick, .irq 4, .start, .tick, .tick]

example : inLegal (inInit [0, 0, 0, 0]) inExample := by
  simp [inExample, inLegal, inStep, inTick, inInit, init, size, rawSize, pushBack, wr, rd, InSt.popping, InSt.done, rollover]

example : (inRun (inInit [0, 0, 0, 0]) inExample).map (fun s => (s.out, s.acc)) = some ([1], [1, 2, 3, 4]) := by
  decide +kernel

example : (inRun ⟨⟨[7, 8, 9], 2, 1, false⟩, .idle, [], []⟩ (.start :: List.replicate 9 .tick)).map (fun s => (s.out, s.d)) =
    some ([9], ⟨[7, 8, 9], 0, 1, false⟩) := by decide +kernel

/-! ## Where the code departs from the property -/

/-- the elements `m`, seen past a `m_front` that may still have to be wrapped -/
structure Past (N : Nat) (d : Deque α) (m : List α) : Prop where
  rep : Rep N { d with front := rollover N d.front } m
  le : d.front ≤ N

theorem past_size {N : Nat} {d : Deque α} {m : List α} (h : Past N d m) : size d = m.length := by
  have h0 := rep_size h.rep
  have h1 := h.rep.front
  have h2 := h.rep.len
  have h3 := h.rep.back
  have h4 := h.rep.cap
  have h5 := h.le
  simp only at h1 h2 h3
  rw [← h0]
  unfold size rawSize
  simp only [h2]
  by_cases hc : d.front = N
  · have hb : d.back < N := by rw [h3]; unfold wrap; split <;> omega
    simp only [rollover, hc, if_true, show N > d.back from hb, show ¬ 0 > d.back by omega, if_false,
      show N - (N - d.back) = d.back - 0 by omega]
  · simp only [rollover, hc, if_false]

theorem past_push {N : Nat} {d : Deque α} {m : List α} (h : Past N d m) (hl : m.length < N) (v : α) :
    ∃ d', pushBack d v = some d' ∧ Past N d' (m ++ [v]) := by
  obtain ⟨d', e1, e2⟩ := rep_pushBack h.rep hl v
  unfold pushBack at e1
  simp only at e1
  cases hw : wr d.arr d.back v with
  | none => simp [hw] at e1
  | some a =>
    simp only [hw, Option.some.injEq] at e1
    refine ⟨⟨a, d.front, rollover d.arr.length (d.back + 1), false⟩, by unfold pushBack; simp only [hw], ⟨?_, h.le⟩⟩
    simp only
    rw [e1]; exact e2

theorem past_fill {N : Nat} (vs : List α) {s : InSt α} {m : List α} (h : Past N s.d m) (hl : m.length + vs.length ≤ N) :
    ∃ d', inRun s (vs.map .irq) = some { s with d := d', acc := s.acc ++ vs } ∧ Past N d' (m ++ vs) := by
  induction vs generalizing s m with
  | nil => exact ⟨s.d, by simp [inRun], by simpa using h⟩
  | cons v vs ih =>
    simp only [List.length_cons] at hl
    obtain ⟨d1, e1, e2⟩ := past_push h (by omega) v
    have h2 : s.d.arr.length = N := h.rep.len
    have hs : inStep s (.irq v) = some { s with d := d1, acc := s.acc ++ [v] } := by
      simp only [inStep, past_size h, h2, show m.length < N by omega, if_true, e1, Option.map_some]
    obtain ⟨d2, e3, e4⟩ := ih (s := { s with d := d1, acc := s.acc ++ [v] }) (m := m ++ [v]) e2 (by simp; omega)
    refine ⟨d2, ?_, by simpa using e4⟩
    rw [List.map_cons, inRun_cons, hs]
    simpa using e3

theorem past_of_rep {N : Nat} {d : Deque α} {l : List α} (h : Rep N d l) : Past N d l := by
  have h1 := h.front
  refine ⟨?_, by omega⟩
  have : rollover N d.front = d.front := by unfold rollover; rw [if_neg (by omega)]
  rw [this]; exact h

theorem rep_of_past {N : Nat} {d : Deque α} {l : List α} (h : Past N d l) (hf : d.front < N) : Rep N d l := by
  have h1 := h.rep
  have : rollover N d.front = d.front := by unfold rollover; rw [if_neg (by omega)]
  rw [this] at h1; exact h1

/-- the main program has read `x` and moved `m_front` on -/
theorem in_first_half {N : Nat} {d : Deque α} {acc out : List α} {x : α} {t : List α} (h : Rep N d (x :: t)) :
    inRun ⟨d, .idle, acc, out⟩ [.start, .tick, .tick, .tick, .tick] =
      some ⟨{ d with front := d.front + 1 }, .rollLoad x, acc, out⟩ := by
  have h1 := rep_front h (by simp)
  have h2 : d.empty = false := by
    have := h.empty
    cases hd : d.empty <;> simp_all
  unfold frontVal at h1
  simp only [List.head?_cons] at h1
  simp [inRun, inStep, inTick, h1, h2]

theorem fill_front {N : Nat} (vs : List α) {s : InSt α} {m : List α} (h : Rep N s.d m) (hl : m.length + vs.length ≤ N) :
    ∃ d', inRun s (vs.map .irq) = some { s with d := d', acc := s.acc ++ vs } ∧ Rep N d' (m ++ vs) := by
  induction vs generalizing s m with
  | nil => exact ⟨s.d, by simp [inRun], by simpa using h⟩
  | cons v vs ih =>
    simp only [List.length_cons] at hl
    obtain ⟨d1, e1, e2⟩ := rep_pushBack h (by omega) v
    have hs : inStep s (.irq v) = some { s with d := d1, acc := s.acc ++ [v] } := by
      simp only [inStep, rep_size h, h.len, show m.length < N by omega, if_true, e1, Option.map_some]
    obtain ⟨d2, e3, e4⟩ := ih (s := { s with d := d1, acc := s.acc ++ [v] }) (m := m ++ [v]) e2 (by simp; omega)
    refine ⟨d2, ?_, by simpa using e4⟩
    rw [List.map_cons, inRun_cons, hs]
    simpa using e3

/-- **Violation.**  The handler pushed `x` and the non-empty `t`.  The main program takes `x`; after its `pop()` has
moved `m_front` the handler pushes `vs`, as many as there is room for.  Now `m_front` equals `m_back` because the queue
is full, but `pop()` takes that for empty: all the elements in the queue are lost. -/
theorem in_wipes (arr : List α) (x : α) (t vs : List α) (ht : t ≠ []) (h1 : t.length < arr.length)
    (h2 : t.length + vs.length = arr.length) :
    ∃ s, inRun (inInit arr) ((x :: t).map .irq ++ ([.start, .tick, .tick, .tick, .tick] ++ (vs.map .irq ++
        List.replicate 5 .tick))) = some s ∧
      s.pc = .idle ∧ s.out = [x] ∧ s.acc = x :: t ++ vs ∧ Reports s.d [] := by
  obtain ⟨d1, e1, r1⟩ := fill_front (N := arr.length) (x :: t) (s := inInit arr) (m := [])
    (rep_init arr (by omega)) (by simp; omega)
  simp only [inInit, List.nil_append] at e1 r1
  have r2 : Past arr.length { d1 with front := d1.front + 1 } t := by
    obtain ⟨d', p1, p2⟩ := rep_popFront r1 (by simp)
    have hf := rep_front r1 (by simp)
    have hfr := r1.front
    have hbk := r1.back
    refine ⟨?_, by simp only; omega⟩
    simp only [popFront, hf, List.head?_cons, Option.some.injEq, r1.len] at p1
    have hne : d'.empty = false := by
      have := p2.empty
      cases hd : d'.empty <;> simp_all
    have hne1 : d1.empty = false := by
      have := r1.empty
      cases hd : d1.empty <;> simp_all
    have : { d1 with front := rollover arr.length (d1.front + 1) } = d' := by
      rw [← p1] at hne ⊢
      simp only at hne
      rw [hne, hne1]
    rw [show ({ ({ d1 with front := d1.front + 1 } : Deque α) with front := rollover arr.length (d1.front + 1) } : Deque α) =
      { d1 with front := rollover arr.length (d1.front + 1) } from rfl, this]
    exact p2
  obtain ⟨d3, e3, r3⟩ := past_fill vs (s := ⟨{ d1 with front := d1.front + 1 }, .rollLoad x, x :: t, []⟩) r2 (by omega)
  simp only at e3
  have hlen : d3.arr.length = arr.length := r3.rep.len
  have hle := r3.le
  have hfr := r3.rep.front
  have hb : d3.back = rollover arr.length d3.front := by
    have hbk := r3.rep.back
    simp only [List.length_append, h2] at hbk hfr
    rw [hbk]; unfold wrap; rw [if_neg (by omega)]; omega
  refine ⟨⟨{ d3 with front := rollover arr.length d3.front, empty := true }, .idle, x :: t ++ vs, [x]⟩, ?_, rfl, rfl, rfl, ?_⟩
  · rw [inRun_append, inInit, e1]
    simp only [Option.bind_some]
    rw [inRun_append, in_first_half r1]
    simp only [Option.bind_some]
    rw [inRun_append, e3]
    simp only [Option.bind_some]
    obtain ⟨a3, f3, b3, em3⟩ := d3
    simp only at hlen hb
    by_cases hc : f3 = a3.length
    · have hb' : b3 = 0 := by rw [hb]; unfold rollover; rw [if_pos (by omega)]
      simp [List.replicate, inRun, inStep, inTick, ← hlen, hc, hb', rollover, InSt.done]
    · have hb' : b3 = f3 := by rw [hb]; unfold rollover; rw [if_neg (by omega)]
      simp [List.replicate, inRun, inStep, inTick, ← hlen, hc, hb', rollover, InSt.done]
  · refine ⟨by simp [size], by simp, ⟨_, rfl, rfl⟩⟩

/-- the losing history, on a queue of three -/
example : ∃ s, inRun (inInit [0, 0, 0]) ([1, 2].map .irq ++ ([.start, .tick, .tick, .tick, .tick] ++
    ([3, 4].map .irq ++ List.replicate 5 .tick))) = some s ∧ s.out = [1] ∧ s.acc = [1, 2, 3, 4] ∧ size s.d = 0 :=
  ⟨_, rfl, by decide +kernel, by decide +kernel, by decide +kernel⟩

/-- **Violation.**  While the main program takes the only element, its `pop()` has moved `m_front` to `m_back` and not
yet marked the queue as empty: the handler finds a full queue and its elements, however many it offers, are refused,
although at most one place of the queue was in use all along. -/
theorem in_refuses (arr : List α) (x : α) (vs : List α) (hN : 0 < arr.length) :
    ∃ s, inRun (inInit arr) (([.irq x, .start, .tick, .tick, .tick, .tick] : List (InAct α)) ++ (vs.map .irq ++
        List.replicate 5 .tick)) = some s ∧
      s.pc = .idle ∧ s.acc = [x] ∧ s.out = [x] ∧ Reports s.d [] := by
  obtain ⟨d1, e1, r1⟩ := fill_front (N := arr.length) [x] (s := inInit arr) (m := []) (rep_init arr hN) (by simp; omega)
  simp only [inInit, List.nil_append, List.map_cons, List.map_nil] at e1 r1
  have hw : Window arr.length { d1 with front := d1.front + 1 } [x] d1.front := ⟨r1, by simp, Or.inl rfl⟩
  have hsz := window_size hw
  simp only [List.length_singleton, if_true] at hsz
  have hlen : d1.arr.length = arr.length := r1.len
  have hirq : ∀ vs : List α, inRun ⟨{ d1 with front := d1.front + 1 }, .rollLoad x, [x], []⟩ (vs.map .irq) =
      some ⟨{ d1 with front := d1.front + 1 }, .rollLoad x, [x], []⟩ := by
    intro vs
    induction vs with
    | nil => rfl
    | cons v vs ih =>
      rw [List.map_cons, inRun_cons]
      simp only [inStep, hsz, hlen, Nat.lt_irrefl, if_false, Option.bind_some]
      exact ih
  have hfr := r1.front
  have hb : d1.back = rollover arr.length (d1.front + 1) := by
    have hbk := r1.back
    simp only [List.length_singleton] at hbk
    rw [hbk]; unfold wrap rollover; repeat' split
    all_goals omega
  refine ⟨⟨{ d1 with front := rollover arr.length (d1.front + 1), empty := true }, .idle, [x], [x]⟩, ?_, rfl, rfl, rfl, ?_⟩
  · rw [inRun_append, show ([.irq x, .start, .tick, .tick, .tick, .tick] : List (InAct α)) =
      [.irq x] ++ [.start, .tick, .tick, .tick, .tick] from rfl, inRun_append, inInit, e1]
    simp only [Option.bind_some]
    rw [in_first_half r1]
    simp only [Option.bind_some]
    rw [inRun_append, hirq]
    simp only [Option.bind_some]
    obtain ⟨a3, f3, b3, em3⟩ := d1
    simp only at hlen hb hfr
    by_cases hc : f3 + 1 = a3.length
    · have hb' : b3 = 0 := by rw [hb]; unfold rollover; rw [if_pos (by omega)]
      simp [List.replicate, inRun, inStep, inTick, ← hlen, hc, hb', rollover, InSt.done]
    · have hb' : b3 = f3 + 1 := by rw [hb]; unfold rollover; rw [if_neg (by omega)]
      simp [List.replicate, inRun, inStep, inTick, ← hlen, hc, hb', rollover, InSt.done]
  · refine ⟨by simp [size], by simp, ⟨_, rfl, rfl⟩⟩

/-- the refused elements, on a queue of three -/
example : ∃ s, inRun (inInit [0, 0, 0]) ([.irq 1, .start, .tick, .tick, .tick, .tick] ++
    ([2, 3].map .irq ++ List.replicate 5 .tick)) = some s ∧ s.acc = [1] :=
  ⟨_, rfl, by decide +kernel⟩

end Verif.Deque.Handler
