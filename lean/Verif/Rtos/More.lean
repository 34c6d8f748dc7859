import Verif.Rtos.Props

/-!
# C73: queues, event groups, timeouts and lifetimes
-/
namespace Verif.Rtos

/-! ## Queues -/

variable {α : Type}

theorem send_cases {q q' : Queue α} {v : α} {n : Nat} {o r : Bool} (e : xSend q v n o = .ok (q', r)) :
    (r = true ∧ q.items.length < q.cap ∧ q' = { q with items := q.items ++ [v] }) ∨
    (r = false ∧ q' = q ∧ ¬ q.items.length < q.cap ∧ n ≠ maxDelay) := by
  unfold xSend at e
  split at e
  · next h => simp only [Ker.ok.injEq, Prod.mk.injEq] at e; exact .inl ⟨e.2.symm, h, e.1.symm⟩
  · next h =>
    have := waitFor_ok e
    simp only [Prod.mk.injEq] at this
    refine .inr ⟨this.2, this.1, h, ?_⟩
    rintro rfl; rw [waitFor_max] at e; cases e

theorem receive_cases {q q' : Queue α} {b g : α} {n : Nat} {o r : Bool} (e : xReceive q b n o = .ok (q', r, g)) :
    (r = true ∧ q.items = g :: q'.items ∧ q'.cap = q.cap) ∨ (r = false ∧ q' = q ∧ q.items = [] ∧ g = b ∧ n ≠ maxDelay) := by
  unfold xReceive at e
  split at e
  · next v rest h =>
    simp only [Ker.ok.injEq, Prod.mk.injEq] at e
    obtain ⟨rfl, rfl, rfl⟩ := e
    exact .inl ⟨rfl, h, rfl⟩
  · next h =>
    have := waitFor_ok e
    simp only [Prod.mk.injEq] at this
    refine .inr ⟨this.2.1, this.1, h, this.2.2, ?_⟩
    rintro rfl; rw [waitFor_max] at e; cases e

theorem queue_step {q q' : Queue α} {t : Tid} {op : QOp α} {r : QRes α} (e : op.step q = .ok (q', r)) :
    Spec.got [(t, op, r)] ++ q'.items = q.items ++ Spec.sent [(t, op, r)] ∧ q'.cap = q.cap ∧
      (q.items.length ≤ q.cap → q'.items.length ≤ q.cap) := by
  have hs : ∀ (v : α) (n : Nat) (o : Bool) (r' : Bool), xSend q v n o = .ok (q', r') →
      ([] : List α) ++ q'.items = q.items ++ (if r' then [v] else []) ∧ q'.cap = q.cap ∧
        (q.items.length ≤ q.cap → q'.items.length ≤ q.cap) := by
    intro v n o r' e
    rcases send_cases e with ⟨rfl, h1, rfl⟩ | ⟨rfl, rfl, -⟩
    · simp; omega
    · simp
  have hr : ∀ (b g : α) (n : Nat) (o : Bool) (r' : Bool), xReceive q b n o = .ok (q', r', g) →
      (if r' then [g] else []) ++ q'.items = q.items ++ ([] : List α) ∧ q'.cap = q.cap ∧
        (q.items.length ≤ q.cap → q'.items.length ≤ q.cap) := by
    intro b g n o r' e
    rcases receive_cases e with ⟨rfl, h1, h2⟩ | ⟨rfl, rfl, -⟩
    · simp [h1, h2]; omega
    · simp
  cases op with
  | send v =>
    simp only [QOp.step, Ker.bind_ok_iff, Ker.ok.injEq, Prod.mk.injEq] at e
    obtain ⟨⟨p1, p2⟩, e1, rfl, rfl⟩ := e
    exact hs v _ _ p2 e1
  | sendFor v n o =>
    simp only [QOp.step, Ker.bind_ok_iff, Ker.ok.injEq, Prod.mk.injEq] at e
    obtain ⟨⟨p1, p2⟩, e1, rfl, rfl⟩ := e
    exact hs v _ _ p2 e1
  | sendFromIsr v =>
    simp only [QOp.step, Ker.bind_ok_iff, Ker.ok.injEq, Prod.mk.injEq] at e
    obtain ⟨⟨p1, p2⟩, e1, rfl, rfl⟩ := e
    exact hs v _ _ p2 e1
  | receive b =>
    simp only [QOp.step, Ker.bind_ok_iff, Ker.ok.injEq, Prod.mk.injEq] at e
    obtain ⟨⟨p1, p2, p3⟩, e1, rfl, rfl⟩ := e
    have := hr b p3 _ _ p2 e1
    cases p2 <;> simpa [Spec.got, Spec.sent] using this
  | receiveFor b n o =>
    simp only [QOp.step, Ker.bind_ok_iff, Ker.ok.injEq, Prod.mk.injEq] at e
    obtain ⟨⟨p1, p2, p3⟩, e1, rfl, rfl⟩ := e
    have := hr b p3 _ _ p2 e1
    cases p2 <;> simpa [Spec.got, Spec.sent] using this
  | waiting =>
    simp only [QOp.step, Ker.ok.injEq, Prod.mk.injEq] at e
    obtain ⟨rfl, rfl⟩ := e
    simp [Spec.got, Spec.sent]

theorem sent_cons (e : Tid × QOp α × QRes α) (tr) : Spec.sent (e :: tr) = Spec.sent [e] ++ Spec.sent tr := by
  obtain ⟨t, op, d, g, c⟩ := e
  cases op <;> cases d <;> simp [Spec.sent]

theorem got_cons (e : Tid × QOp α × QRes α) (tr) : Spec.got (e :: tr) = Spec.got [e] ++ Spec.got tr := by
  obtain ⟨t, op, d, g, c⟩ := e
  cases op <;> cases d <;> simp [Spec.got]

theorem queue_run (es : List (Tid × QOp α)) (q : Queue α) {q' : Queue α} {tr : List (Tid × QOp α × QRes α)}
    (e : runQueue es q = .ok (q', tr)) :
    Spec.got tr ++ q'.items = q.items ++ Spec.sent tr ∧ q'.cap = q.cap ∧
      (q.items.length ≤ q.cap → q'.items.length ≤ q.cap) := by
  induction es generalizing q tr with
  | nil =>
    simp only [runQueue, Ker.ok.injEq, Prod.mk.injEq] at e; obtain ⟨rfl, rfl⟩ := e
    simp [Spec.got, Spec.sent]
  | cons x es ih =>
    obtain ⟨t, op⟩ := x
    simp only [runQueue, Ker.bind_ok_iff, Ker.ok.injEq, Prod.mk.injEq] at e
    obtain ⟨⟨q1, r⟩, e1, ⟨q2, tr2⟩, e2, rfl, rfl⟩ := e
    obtain ⟨a1, a2, a3⟩ := queue_step (t := t) e1
    obtain ⟨b1, b2, b3⟩ := ih q1 e2
    refine ⟨?_, by simpa [a2] using b2, fun h => by have := b3 (by rw [a2]; exact a3 h); rwa [a2] at this⟩
    rw [sent_cons, got_cons, List.append_assoc, b1, ← List.append_assoc, a1, List.append_assoc]

/-- C73, **queues deliver in order**: whatever tasks and interrupts do and however the scheduler interleaves them, what has
been received is, in order, the beginning of what was accepted; the rest is still there, never more than the queue's
length.  `messages_waiting()` tells how much; sending is refused or waits exactly when the queue is full, and receiving
hands over the oldest value or waits exactly when all has been received. -/
theorem queue_history (n : Nat) (sched : List (Tid × QOp α)) (q : Queue α) (tr : List (Tid × QOp α × QRes α))
    (h : runQueue sched (mkQueue n) = .ok (q, tr)) :
    ∃ rest, Spec.sent tr = Spec.got tr ++ rest ∧ rest.length ≤ n ∧
      (∃ q', QOp.waiting.step q = .ok (q', ⟨true, none, rest.length⟩)) ∧
      (∀ v b, (rest.length < n → (∃ q', (QOp.send v).step q = .ok (q', ⟨true, none, 0⟩)) ∧
          ∀ k o, ∃ q', (QOp.sendFor v k o).step q = .ok (q', ⟨true, none, 0⟩)) ∧
        (rest.length = n → (QOp.send v).step q = .blocked ∧ (QOp.sendFromIsr v).step q = .ok (q, ⟨false, none, 0⟩)) ∧
        (∀ x xs, rest = x :: xs → ∃ q', (QOp.receive b).step q = .ok (q', ⟨true, some x, 0⟩)) ∧
        (rest = [] → (QOp.receive b).step q = .blocked ∧ (QOp.receiveFor b 0 false).step q = .ok (q, ⟨false, some b, 0⟩))) := by
  obtain ⟨h1, h2, h3⟩ := queue_run sched (mkQueue n) h
  have h2 : q.cap = n := h2
  have h3 : q.items.length ≤ n := h3 (Nat.zero_le _)
  refine ⟨q.items, by simpa [mkQueue] using h1.symm, h3, ⟨q, rfl⟩, ?_⟩
  intro v b
  refine ⟨?_, ?_, ?_, ?_⟩
  · intro hl
    constructor
    · exact ⟨_, by simp only [QOp.step, xSend]; rw [if_pos (by omega)]; rfl⟩
    · intro k o; exact ⟨_, by simp only [QOp.step, xSend]; rw [if_pos (by omega)]; rfl⟩
  · intro hl
    constructor
    · simp only [QOp.step, xSend]; rw [if_neg (by omega), waitFor_max]; rfl
    · simp only [QOp.step, xSend]; rw [if_neg (by omega)]; simp [waitFor, Ker.bind]
  · intro x xs hx
    exact ⟨_, by simp only [QOp.step, xReceive, hx]; rfl⟩
  · intro hx
    constructor
    · simp only [QOp.step, xReceive, hx]; rw [waitFor_max]; rfl
    · simp [QOp.step, xReceive, hx, waitFor, Ker.bind]

/-- A call without a timeout that has returned did what it was asked to; a receive that was told `false` left the caller's
buffer alone. -/
theorem queue_results (n : Nat) (sched : List (Tid × QOp α)) (q : Queue α) (tr : List (Tid × QOp α × QRes α))
    (h : runQueue sched (mkQueue n) = .ok (q, tr)) (t : Tid) (r : QRes α) :
    (∀ v, (t, QOp.send v, r) ∈ tr → r.done = true) ∧ (∀ b, (t, QOp.receive b, r) ∈ tr → r.done = true) ∧
    (∀ b k o, (t, QOp.receiveFor b k o, r) ∈ tr → r.done = false → r.got = some b) := by
  generalize mkQueue n = q0 at h
  induction sched generalizing q0 tr with
  | nil =>
    simp only [runQueue, Ker.ok.injEq, Prod.mk.injEq] at h
    obtain ⟨rfl, rfl⟩ := h
    simp
  | cons x es ih =>
    obtain ⟨t', op⟩ := x
    simp only [runQueue, Ker.bind_ok_iff, Ker.ok.injEq, Prod.mk.injEq] at h
    obtain ⟨⟨q1, r1⟩, e1, ⟨q2, tr2⟩, e2, rfl, rfl⟩ := h
    obtain ⟨i1, i2, i3⟩ := ih tr2 q1 e2
    refine ⟨?_, ?_, ?_⟩
    · intro v hm
      rcases List.mem_cons.mp hm with hm | hm
      · simp only [Prod.mk.injEq] at hm
        obtain ⟨rfl, rfl, rfl⟩ := hm
        simp only [QOp.step, Ker.bind_ok_iff, Ker.ok.injEq, Prod.mk.injEq] at e1
        obtain ⟨⟨p1, p2⟩, e1, rfl, rfl⟩ := e1
        rcases send_cases e1 with ⟨h, -⟩ | ⟨-, -, -, h⟩
        · exact h
        · exact absurd rfl h
      · exact i1 v hm
    · intro b hm
      rcases List.mem_cons.mp hm with hm | hm
      · simp only [Prod.mk.injEq] at hm
        obtain ⟨rfl, rfl, rfl⟩ := hm
        simp only [QOp.step, Ker.bind_ok_iff, Ker.ok.injEq, Prod.mk.injEq] at e1
        obtain ⟨⟨p1, p2, p3⟩, e1, rfl, rfl⟩ := e1
        rcases receive_cases e1 with ⟨h, -⟩ | ⟨-, -, -, -, h⟩
        · exact h
        · exact absurd rfl h
      · exact i2 b hm
    · intro b k o hm
      rcases List.mem_cons.mp hm with hm | hm
      · simp only [Prod.mk.injEq] at hm
        obtain ⟨rfl, rfl, rfl⟩ := hm
        simp only [QOp.step, Ker.bind_ok_iff, Ker.ok.injEq, Prod.mk.injEq] at e1
        obtain ⟨⟨p1, p2, p3⟩, e1, rfl, rfl⟩ := e1
        rcases receive_cases e1 with ⟨h, -⟩ | ⟨-, -, -, h, -⟩
        · intro h'; simp only at h h'; rw [h] at h'; cases h'
        · intro _; simp only [h]
      · exact i3 b k o hm

example : runQueue [(1, .send 10), (2, .send 20), (3, .sendFor 30 5 true), (4, .receive 0), (3, .sendFromIsr 30), (1, .waiting),
      (4, .receiveFor 0 7 false)] (mkQueue 2) =
    .ok (⟨2, [30]⟩, [(1, .send 10, ⟨true, none, 0⟩), (2, .send 20, ⟨true, none, 0⟩), (3, .sendFor 30 5 true, ⟨false, none, 0⟩),
      (4, .receive 0, ⟨true, some 10, 0⟩), (3, .sendFromIsr 30, ⟨true, none, 0⟩), (1, .waiting, ⟨true, none, 2⟩),
      (4, .receiveFor 0 7 false, ⟨true, some 20, 0⟩)]) := by decide +kernel

/-! ## Event groups -/

theorem met_iff (v w : Bits) (a : Bool) :
    Spec.Met v w a ↔ (if a then v &&& w = w else v &&& w ≠ 0) := by
  unfold Spec.Met
  cases a with
  | true =>
    simp only [if_true]
    constructor
    · intro h
      apply BitVec.eq_of_getLsbD_eq
      intro i _
      have := h i
      cases hw : w.getLsbD i <;> simp_all
    · intro h i hw
      have := congrArg (fun z : Bits => z.getLsbD i) h
      simp only [BitVec.getLsbD_and, hw, Bool.and_true] at this
      exact this
  | false =>
    simp only [Bool.false_eq_true, if_false]
    constructor
    · rintro ⟨i, h1, h2⟩ h
      have := congrArg (fun z : Bits => z.getLsbD i) h
      simp [h1, h2] at this
    · intro h
      apply Classical.byContradiction
      intro hn
      apply h
      apply BitVec.eq_of_getLsbD_eq
      intro i _
      have : ¬ (w.getLsbD i = true ∧ v.getLsbD i = true) := fun hh => hn ⟨i, hh⟩
      cases hw : w.getLsbD i <;> cases hv : v.getLsbD i <;> simp_all

/-- what a returned `wait_bits` means: met, or given up -/
theorem waitBits_cases {s s' v w : Bits} {c a : Bool} {n : Nat} {o : Bool} (e : waitBits s w c a n o = .ok (s', v)) :
    v = s ∧ ((Spec.Met v w a ∧ s' = if c then s &&& ~~~w else s) ∨ (¬ Spec.Met v w a ∧ s' = s ∧ n ≠ maxDelay)) := by
  unfold waitBits xWaitBits at e
  by_cases h : (if a then s &&& w = w else s &&& w ≠ 0)
  · rw [if_pos h] at e
    simp only [Ker.ok.injEq, Prod.mk.injEq] at e
    obtain ⟨rfl, rfl⟩ := e
    exact ⟨rfl, .inl ⟨(met_iff _ _ _).mpr h, rfl⟩⟩
  · rw [if_neg h] at e
    have := waitFor_ok e
    simp only [Prod.mk.injEq] at this
    obtain ⟨rfl, rfl⟩ := this
    refine ⟨rfl, .inr ⟨fun hm => h ((met_iff _ _ _).mp hm), rfl, ?_⟩⟩
    rintro rfl; rw [waitFor_max] at e; cases e

theorem event_step {s s' v : Bits} {t : Tid} {op : EOp} (e : op.step s = .ok (s', v)) (i : Nat) (hi : i < 24) :
    s'.getLsbD i = true ↔ Spec.bit i [(t, op, v)] (s.getLsbD i = true) := by
  cases op with
  | set b =>
    simp only [EOp.step, Ker.ok.injEq, Prod.mk.injEq] at e
    obtain ⟨rfl, rfl⟩ := e
    simp [Spec.bit, Or.comm]
  | clear b =>
    simp only [EOp.step, Ker.ok.injEq, Prod.mk.injEq] at e
    obtain ⟨rfl, rfl⟩ := e
    simp [Spec.bit, And.comm, hi]
  | wait w c a n o =>
    obtain ⟨rfl, h⟩ := waitBits_cases e
    rcases h with ⟨h1, rfl⟩ | ⟨h1, rfl, -⟩
    · cases c <;> cases hw : w.getLsbD i <;> simp [Spec.bit, h1, hi, hw, And.comm]
    · simp [Spec.bit, h1]

theorem bit_congr (i : Nat) (tr : List (Tid × EOp × Bits)) {p q : Prop} (h : p ↔ q) : Spec.bit i tr p ↔ Spec.bit i tr q := by
  rw [propext h]

theorem bit_cons (i : Nat) (e : Tid × EOp × Bits) (tr : List (Tid × EOp × Bits)) (p : Prop) :
    Spec.bit i (e :: tr) p ↔ Spec.bit i tr (Spec.bit i [e] p) := by
  obtain ⟨t, op, v⟩ := e
  cases op <;> rfl

theorem events_run (es : List (Tid × EOp)) (s : Bits) {s' : Bits} {tr : List (Tid × EOp × Bits)}
    (e : runEvents es s = .ok (s', tr)) (i : Nat) (hi : i < 24) :
    s'.getLsbD i = true ↔ Spec.bit i tr (s.getLsbD i = true) := by
  induction es generalizing s tr with
  | nil => simp only [runEvents, Ker.ok.injEq, Prod.mk.injEq] at e; obtain ⟨rfl, rfl⟩ := e; exact Iff.rfl
  | cons x es ih =>
    obtain ⟨t, op⟩ := x
    simp only [runEvents, Ker.bind_ok_iff, Ker.ok.injEq, Prod.mk.injEq] at e
    obtain ⟨⟨s1, r⟩, e1, ⟨s2, tr2⟩, e2, rfl, rfl⟩ := e
    rw [ih s1 e2, bit_cons]
    exact bit_congr i tr2 (event_step e1 i hi)

/-- C73, **event groups**: after any schedule a bit is up exactly if the last thing done to it was to set it; a wait without a
timeout that has returned found what it waited for. -/
theorem events_history (sched : List (Tid × EOp)) (s : Bits) (tr : List (Tid × EOp × Bits))
    (h : runEvents sched 0 = .ok (s, tr)) :
    (∀ i, i < 24 → (s.getLsbD i = true ↔ Spec.bit i tr False)) ∧
    (∀ t w c a o v, (t, EOp.wait w c a maxDelay o, v) ∈ tr → Spec.Met v w a) := by
  constructor
  · intro i hi
    rw [events_run sched 0 h i hi]
    exact bit_congr i tr (by simp)
  · have key : ∀ (es : List (Tid × EOp)) (s0 s : Bits) (tr : List (Tid × EOp × Bits)), runEvents es s0 = .ok (s, tr) →
        ∀ t w c a o v, (t, EOp.wait w c a maxDelay o, v) ∈ tr → Spec.Met v w a := by
      intro es
      induction es with
      | nil =>
        intro s0 s tr e
        simp only [runEvents, Ker.ok.injEq, Prod.mk.injEq] at e; obtain ⟨rfl, rfl⟩ := e
        simp
      | cons x es ih =>
        intro s0 s tr e t w c a o v hm
        obtain ⟨t', op⟩ := x
        simp only [runEvents, Ker.bind_ok_iff, Ker.ok.injEq, Prod.mk.injEq] at e
        obtain ⟨⟨s1, r⟩, e1, ⟨s2, tr2⟩, e2, rfl, rfl⟩ := e
        rcases List.mem_cons.mp hm with hm | hm
        · simp only [Prod.mk.injEq] at hm
          obtain ⟨rfl, rfl, rfl⟩ := hm
          obtain ⟨-, h⟩ := waitBits_cases e1
          rcases h with ⟨h, -⟩ | ⟨-, -, h⟩
          · exact h
          · exact absurd rfl h
        · exact ih s1 s2 tr2 e2 t w c a o v hm
    exact key sched 0 s tr h

/-- A wait returns at once if what it waits for is there, and without a timeout it does not return otherwise. -/
theorem wait_iff_met (s w : Bits) (c a : Bool) (n : Nat) (o : Bool) :
    (Spec.Met s w a → ∃ s', waitBits s w c a n o = .ok (s', s)) ∧
    (¬ Spec.Met s w a → waitBits s w c a maxDelay o = .blocked ∧ waitBits s w c a 0 o = .ok (s, s)) := by
  constructor
  · intro h
    exact ⟨_, by unfold waitBits xWaitBits; rw [if_pos ((met_iff _ _ _).mp h)]⟩
  · intro h
    have h' := fun hh => h ((met_iff _ _ _).mpr hh)
    unfold waitBits xWaitBits
    rw [if_neg h', if_neg h', waitFor_max]
    simp [waitFor]

example : runEvents [(1, .set 5), (2, .wait 4 true true maxDelay false), (3, .wait 12 false true 3 true), (1, .set 8)] 0 =
    .ok (9, [(1, .set 5, 5), (2, .wait 4 true true maxDelay false, 5), (3, .wait 12 false true 3 true, 1), (1, .set 8, 9)]) ∧
    waitBits 1 6 false false maxDelay false = .blocked := by decide +kernel

/-! ## Timeouts -/

/-- A timeout becomes the number of whole ticks in it. -/
theorem timeout_ticks (hz : Nat) (hhz : 0 < hz) (d : Chrono.Dur) (hp : d.period.Pos) (hd : d.rep.inRange d.count)
    (hdb : 0 < d.rep.bits) (h0 : 0 ≤ d.count)
    (hI : Chrono.i64.inRange (d.count * (Chrono.ratioDivide d.period ⟨1, hz⟩).num))
    (hR : (d.count * (d.period.num * hz)).tdiv d.period.den < 2 ^ 32) :
    ∃ n : Nat, ticksOf hz d = some n ∧ (n : Int) * d.period.den ≤ d.count * d.period.num * hz ∧
      d.count * d.period.num * hz < (n + 1) * d.period.den := by
  have hq : Chrono.Ratio.Pos ⟨1, hz⟩ := ⟨by simp, by simpa using hhz⟩
  have hnn : 0 ≤ (d.count * (d.period.num * hz)).tdiv d.period.den :=
    Int.tdiv_nonneg (Int.mul_nonneg h0 (Int.mul_nonneg (Int.le_of_lt hp.1) (by omega))) (Int.le_of_lt hp.2)
  obtain ⟨r, e, h1, h2, h3, -⟩ := Chrono.convert_truncates d ⟨32, false⟩ ⟨1, hz⟩ hp hq (by decide) hd hdb (fun _ => .inr h0) hI
    (by unfold Chrono.Rep.inRange; simp only [Bool.false_eq_true, if_false, Int.mul_one]; exact ⟨hnn, hR⟩)
  have h3 := h3 h0
  refine ⟨r.toNat, by simp [ticksOf, e], ?_, ?_⟩
  · have : (r.toNat : Int) = r.natAbs := by omega
    rw [this]
    have h4 : (d.count.natAbs : Int) = d.count := by omega
    rw [h4] at h1
    simpa [Int.mul_assoc] using h1
  · have : (r.toNat : Int) = r.natAbs := by omega
    rw [this]
    have h4 : (d.count.natAbs : Int) = d.count := by omega
    rw [h4] at h2
    simpa [Int.mul_assoc] using h2

/-- **Violation.** A timeout or sleep that is not a whole number of ticks is cut short: `try_lock_for`, `try_acquire_for` and
`sleep_for` wait for less than was asked. -/
theorem timeout_short (hz : Nat) (hhz : 0 < hz) (d : Chrono.Dur) (hp : d.period.Pos) (hd : d.rep.inRange d.count)
    (hdb : 0 < d.rep.bits) (h0 : 0 ≤ d.count)
    (hI : Chrono.i64.inRange (d.count * (Chrono.ratioDivide d.period ⟨1, hz⟩).num))
    (hR : (d.count * (d.period.num * hz)).tdiv d.period.den < 2 ^ 32) (hdvd : ¬ d.period.den ∣ d.count * d.period.num * hz) :
    ∃ n : Nat, ticksOf hz d = some n ∧ (n : Int) * d.period.den < d.count * d.period.num * hz := by
  obtain ⟨n, e, h1, -⟩ := timeout_ticks hz hhz d hp hd hdb h0 hI hR
  refine ⟨n, e, Int.lt_iff_le_and_ne.mpr ⟨h1, fun h => hdvd ⟨n, ?_⟩⟩⟩
  rw [← h, Int.mul_comm]

/-- 19 ms at 100 Hz is one tick, 9 ms is none. -/
example : ticksOf 100 ⟨Chrono.i64, ⟨1, 1000⟩, 19⟩ = some 1 ∧ ticksOf 100 ⟨Chrono.i64, ⟨1, 1000⟩, 9⟩ = some 0 := by
  decide +kernel

theorem ticks_same (hz : Nat) (hhz : 0 < hz) (c : Int) (hc : Chrono.i64.inRange c) :
    ticksOf hz ⟨Chrono.i64, ⟨1, hz⟩, c⟩ = some (c % 2 ^ 32).toNat := by
  have hq : Chrono.Ratio.Pos ⟨1, hz⟩ := ⟨by simp, by simpa using hhz⟩
  have e := Chrono.divide_multiple hq hq (k := 1) (by simp)
  unfold ticksOf Chrono.Dur.convert Chrono.Dur.scale
  simp only [e, show Chrono.condType ⟨32, false⟩ Chrono.i64 = Chrono.i64 from rfl, Int.mul_one]
  rw [Chrono.cast_eq (by decide) hc, if_neg (by decide), if_pos hc]
  simp [Chrono.Rep.cast]

/-- **Violation.** A negative timeout, which should not wait at all, is taken modulo 2^32: `c` ticks ago becomes a wait of
`2^32 - c` ticks; one tick ago is `portMAX_DELAY`, for ever. -/
theorem negative_timeout (hz : Nat) (hhz : 0 < hz) (c : Int) (hc : 0 < c) (hc' : c < 2 ^ 32) :
    ticksOf hz ⟨Chrono.i64, ⟨1, hz⟩, -c⟩ = some (2 ^ 32 - c).toNat ∧
    (∀ u t o, tryLockFor hz (.mutex (some u)) t ⟨Chrono.i64, ⟨1, hz⟩, -1⟩ o = .blocked) := by
  constructor
  · rw [ticks_same hz hhz _ (by simp [Chrono.i64, Chrono.Rep.inRange]; omega)]
    congr 2; omega
  · intro u t o
    unfold tryLockFor
    rw [ticks_same hz hhz _ (by simp [Chrono.i64, Chrono.Rep.inRange])]
    exact waitFor_max

/-- **Violation.** A timeout of 2^32 ticks or more is cut to what is left over: 2^32 ticks do not wait at all. -/
theorem long_timeout (hz : Nat) (hhz : 0 < hz) (k : Nat) (hk : k < 2 ^ 32) :
    ticksOf hz ⟨Chrono.i64, ⟨1, hz⟩, 2 ^ 32 + k⟩ = some k ∧
    (∀ u t, tryLockFor hz (.mutex (some u)) t ⟨Chrono.i64, ⟨1, hz⟩, 2 ^ 32⟩ false = .ok (.mutex (some u), false)) := by
  constructor
  · rw [ticks_same hz hhz _ (by simp [Chrono.i64, Chrono.Rep.inRange]; omega)]
    congr 1; omega
  · intro u t
    unfold tryLockFor
    rw [ticks_same hz hhz _ (by simp [Chrono.i64, Chrono.Rep.inRange])]
    rfl

/-! ## Lifetimes -/

/-- objects and kernel objects one to one -/
def Paired (w : World) : Prop :=
  w.objs.length = w.kernel.length ∧ ∀ i, i < w.objs.length → (w.objs[i]? = some (some i) ∧ w.kernel[i]? = some true) ∨
    (w.objs[i]? = some none ∧ w.kernel[i]? = some false)

/-- no copies are made, and only living objects are destroyed -/
def Spec.NoCopies : List LOp → List Bool → Prop
  | [], _ => True
  | .create :: ops, l => Spec.NoCopies ops (l ++ [true])
  | .copy _ :: _, _ => False
  | .destroy i :: ops, l => l[i]? = some true ∧ Spec.NoCopies ops (l.set i false)

/-- which of the created objects are alive -/
def Spec.alive : List LOp → List Bool → List Bool
  | [], l => l
  | .create :: ops, l => Spec.alive ops (l ++ [true])
  | .copy _ :: ops, l => Spec.alive ops l
  | .destroy i :: ops, l => Spec.alive ops (l.set i false)

theorem life_run (ops : List LOp) (w : World) (hp : Paired w) (hn : Spec.NoCopies ops w.kernel) :
    ∃ w', runLife ops w = .ok w' ∧ Paired w' ∧ w'.kernel = Spec.alive ops w.kernel := by
  induction ops generalizing w with
  | nil => exact ⟨w, rfl, hp, rfl⟩
  | cons op ops ih =>
    cases op with
    | create =>
      obtain ⟨w', h1, h2, h3⟩ := ih ⟨w.objs ++ [some w.kernel.length], w.kernel ++ [true]⟩ (by
        obtain ⟨hl, hp⟩ := hp
        refine ⟨by simp [hl], ?_⟩
        intro i hi
        simp only [List.length_append, List.length_singleton] at hi
        by_cases h : i < w.objs.length
        · rw [List.getElem?_append_left h, List.getElem?_append_left (by omega)]; exact hp i h
        · obtain rfl : i = w.objs.length := by omega
          left; constructor
          · simp [hl]
          · rw [List.getElem?_append_right (by omega)]; simp [hl]) hn
      exact ⟨w', h1, h2, h3⟩
    | copy i => exact absurd hn id
    | destroy i =>
      obtain ⟨hk, hn⟩ := hn
      obtain ⟨hl, hp⟩ := hp
      have hi : i < w.objs.length := by
        have := (List.getElem?_eq_some_iff.mp hk).1; omega
      have ho : w.objs[i]? = some (some i) := by
        rcases hp i hi with ⟨h, -⟩ | ⟨-, h⟩
        · exact h
        · rw [hk] at h; cases h
      obtain ⟨w', h1, h2, h3⟩ := ih ⟨w.objs.set i none, w.kernel.set i false⟩ (by
        refine ⟨by simp [hl], ?_⟩
        intro j hj
        simp only [List.length_set] at hj
        by_cases h : i = j
        · subst h; right
          exact ⟨by simp [hi], by simp [show i < w.kernel.length by omega]⟩
        · simp only [List.getElem?_set, if_neg h]; exact hp j hj) hn
      refine ⟨w', ?_, h2, h3⟩
      simp only [runLife, LOp.step, ho, hk, Ker.bind]
      exact h1

/-- C73, lifetimes: as long as no wrapper object is copied, every kernel object is deleted exactly once, when its wrapper is
destroyed: nothing is undefined and exactly the living wrappers' kernel objects exist.

Missing: copies, which the wrappers permit (`copy_double_delete`). -/
theorem lifetimes_partial (ops : List LOp) (h : Spec.NoCopies ops []) :
    ∃ w, runLife ops ⟨[], []⟩ = .ok w ∧ w.kernel = Spec.alive ops [] := by
  obtain ⟨w, h1, -, h3⟩ := life_run ops ⟨[], []⟩ ⟨rfl, fun i hi => by simp at hi⟩ h
  exact ⟨w, h1, h3⟩

example : Spec.NoCopies [.create, .create, .destroy 0, .create, .destroy 2] [] ∧
    Spec.alive [.create, .create, .destroy 0, .create, .destroy 2] [] = [false, true, false] := by
  simp [Spec.NoCopies, Spec.alive]

/-- **Violation.** A mutex, semaphore, queue or event group can be copied, and the copy deletes the same kernel object: in
every state, copying any living object whose kernel object exists and destroying one of the two leaves the other without it,
and destroying both is undefined, in either order. -/
theorem copy_double_delete (w : World) (i h : Nat) (ho : w.objs[i]? = some (some h)) (hk : w.kernel[h]? = some true) :
    (∃ w', runLife [.copy i, .destroy i] w = .ok w' ∧ w'.objs[w.objs.length]? = some (some h) ∧ w'.kernel[h]? = some false) ∧
    runLife [.copy i, .destroy i, .destroy w.objs.length] w = .ub ∧
    (∃ w', runLife [.copy i, .destroy w.objs.length] w = .ok w' ∧ w'.objs[i]? = some (some h) ∧ w'.kernel[h]? = some false) ∧
    runLife [.copy i, .destroy w.objs.length, .destroy i] w = .ub := by
  have hi := (List.getElem?_eq_some_iff.mp ho).1
  obtain ⟨hh, hk'⟩ := List.getElem?_eq_some_iff.mp hk
  refine ⟨?_, ?_, ?_, ?_⟩
  · simp [runLife, LOp.step, ho, hk, Ker.bind, List.getElem?_append_left hi, List.getElem?_set, show ¬ i = w.objs.length by omega, hh, hk']
  · simp [runLife, LOp.step, ho, hk, Ker.bind, List.getElem?_append_left hi, List.getElem?_set, show ¬ i = w.objs.length by omega, hh, hk']
  · simp [runLife, LOp.step, ho, hk, Ker.bind, List.getElem?_append_left hi, List.getElem?_set, show ¬ w.objs.length = i by omega, hh, hk']
  · simp [runLife, LOp.step, ho, hk, Ker.bind, List.getElem?_append_left hi, List.getElem?_set, show ¬ w.objs.length = i by omega, hh, hk']

example : (World.mk [some 0] [true]).objs[0]? = some (some 0) := rfl

end Verif.Rtos
