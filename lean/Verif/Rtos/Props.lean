import Verif.Rtos.Spec

/-!
# C73: FreeRTOS mutexes, semaphores, queues and event groups under every schedule
-/
namespace Verif.Rtos

theorem Ker.bind_ok_iff {α β : Type} {x : Ker α} {f : α → Ker β} {b : β} :
    x.bind f = .ok b ↔ ∃ a, x = .ok a ∧ f a = .ok b := by
  cases x <;> simp [Ker.bind]

theorem waitFor_ok {α : Type} {n : Nat} {o : Bool} {r x : α} (h : waitFor n o r = .ok x) : x = r := by
  unfold waitFor at h
  split at h
  · cases h; rfl
  · split at h
    · cases h; rfl
    · cases h

theorem waitFor_max {α : Type} {o : Bool} {r : α} : waitFor maxDelay o r = .blocked := by
  simp [waitFor, maxDelay]

/-! ## Mutexes -/

/-- taking a mutex -/
theorem take_mutex {h : Option Tid} {t : Tid} {n : Nat} {o : Bool} {s : Sem} {r : Bool}
    (e : take (.mutex h) t n o = .ok (s, r)) :
    (h = none ∧ s = .mutex (some t) ∧ r = true) ∨ (h ≠ none ∧ s = .mutex h ∧ r = false ∧ n ≠ maxDelay) := by
  unfold take xTake at e
  cases h with
  | none => simp only [Ker.ok.injEq, Prod.mk.injEq] at e; exact .inl ⟨rfl, e.1.symm, e.2.symm⟩
  | some h =>
    simp only at e
    refine .inr ⟨by simp, ?_⟩
    have := waitFor_ok e
    simp only [Prod.mk.injEq] at this
    refine ⟨this.1, this.2, ?_⟩
    rintro rfl
    rw [waitFor_max] at e
    cases e

theorem mutex_step {asserts : Bool} {hz : Nat} {h : Option Tid} {t : Tid} {op : MOp} {s : Sem} {r : Bool}
    (e : op.step asserts hz (.mutex h) t = .ok (s, r)) (ho : asserts = true ∨ (op = .unlock → t ∈ h.toList)) :
    ∃ h', s = .mutex h' ∧ Spec.inside [(t, op, r)] h.toList = h'.toList := by
  cases op with
  | lock =>
    simp only [MOp.step, lock, Ker.bind_ok_iff] at e
    obtain ⟨s1, ⟨p, e1, e2⟩, e3⟩ := e
    obtain ⟨p1, p2⟩ := p
    simp only [Ker.ok.injEq, Prod.mk.injEq] at e2 e3
    obtain ⟨rfl, rfl⟩ := e3
    rcases take_mutex e1 with ⟨rfl, h2, -⟩ | ⟨-, -, -, h4⟩
    · exact ⟨some t, by rw [← e2]; exact h2, rfl⟩
    · exact absurd rfl h4
  | tryLock =>
    rcases take_mutex e with ⟨rfl, h2, rfl⟩ | ⟨-, h2, rfl, -⟩
    · exact ⟨some t, h2, rfl⟩
    · exact ⟨h, h2, rfl⟩
  | tryLockFor d o =>
    simp only [MOp.step, tryLockFor] at e
    split at e
    · rcases take_mutex e with ⟨rfl, h2, rfl⟩ | ⟨-, h2, rfl, -⟩
      · exact ⟨some t, h2, rfl⟩
      · exact ⟨h, h2, rfl⟩
    · cases e
  | unlock =>
    simp only [MOp.step, unlock, give, xGive] at e
    cases h with
    | none => simp only [Ker.ok.injEq, Prod.mk.injEq] at e; obtain ⟨rfl, rfl⟩ := e; exact ⟨none, rfl, rfl⟩
    | some h =>
      simp only at e
      by_cases hh : h = t
      · rw [if_pos hh] at e
        simp only [Ker.ok.injEq, Prod.mk.injEq] at e
        obtain ⟨rfl, rfl⟩ := e
        exact ⟨none, rfl, by simp [Spec.inside, hh]⟩
      · rw [if_neg hh] at e
        rcases ho with rfl | ho
        · simp at e
        · have := ho rfl
          simp only [Option.toList_some, List.mem_singleton] at this
          exact absurd this.symm hh

theorem inside_cons (e : Tid × MOp × Bool) (tr : List (Tid × MOp × Bool)) (l : List Tid) :
    Spec.inside (e :: tr) l = Spec.inside tr (Spec.inside [e] l) := by
  obtain ⟨t, op, r⟩ := e
  cases r <;> cases op <;> rfl

theorem mutex_run {asserts : Bool} {hz : Nat} (es : List (Tid × MOp)) (h : Option Tid) {s : Sem}
    {tr : List (Tid × MOp × Bool)} (e : runMutex asserts hz es (.mutex h) = .ok (s, tr))
    (ho : asserts = true ∨ Spec.Owned tr h.toList) :
    ∃ h', s = .mutex h' ∧ Spec.inside tr h.toList = h'.toList := by
  induction es generalizing h tr with
  | nil => simp only [runMutex, Ker.ok.injEq, Prod.mk.injEq] at e; obtain ⟨rfl, rfl⟩ := e; exact ⟨h, rfl, rfl⟩
  | cons x es ih =>
    obtain ⟨t, op⟩ := x
    simp only [runMutex, Ker.bind_ok_iff] at e
    obtain ⟨⟨s1, r⟩, e1, ⟨s2, tr2⟩, e2, e3⟩ := e
    simp only [Ker.ok.injEq, Prod.mk.injEq] at e3
    obtain ⟨rfl, rfl⟩ := e3
    obtain ⟨h1, rfl, i1⟩ := mutex_step e1 (ho.imp id fun x => x.1)
    obtain ⟨h2, rfl, i2⟩ := ih h1 e2 (ho.imp id fun x => by have := x.2; rwa [i1] at this)
    exact ⟨h2, rfl, by rw [inside_cons, i1, i2]⟩

/-- C73, **mutual exclusion**: with `configASSERT` on, whatever calls any number of tasks make on a mutex, in whatever order
they return, there is never more than one task inside. -/
theorem mutex_exclusive (hz : Nat) (sched : List (Tid × MOp)) (s : Sem) (tr : List (Tid × MOp × Bool))
    (h : runMutex true hz sched (mkMutex false) = .ok (s, tr)) : (Spec.inside tr []).length ≤ 1 := by
  obtain ⟨h', -, i⟩ := mutex_run sched none h (.inl rfl)
  have : Spec.inside tr [] = h'.toList := i
  rw [this]; cases h' <;> simp

/-- The same without asserts, as long as only tasks inside unlock.

Missing: unlocking a mutex held by another task, which then lets a second task in (`foreign_unlock`). -/
theorem mutex_exclusive_partial (asserts : Bool) (hz : Nat) (sched : List (Tid × MOp)) (s : Sem)
    (tr : List (Tid × MOp × Bool)) (h : runMutex asserts hz sched (mkMutex false) = .ok (s, tr))
    (ho : Spec.Owned tr []) : (Spec.inside tr []).length ≤ 1 := by
  obtain ⟨h', -, i⟩ := mutex_run sched none h (.inr ho)
  have : Spec.inside tr [] = h'.toList := i
  rw [this]; cases h' <;> simp

example : runMutex false 1000 [(1, .lock), (2, .tryLock), (2, .tryLockFor ⟨Chrono.i64, ⟨1, 1000⟩, 5⟩ true), (1, .unlock),
      (2, .lock), (1, .tryLock)] (mkMutex false) =
    .ok (.mutex (some 2), [(1, .lock, true), (2, .tryLock, false), (2, .tryLockFor ⟨Chrono.i64, ⟨1, 1000⟩, 5⟩ true, false),
      (1, .unlock, true), (2, .lock, true), (1, .tryLock, false)]) := by decide +kernel

/-- C73, **the calls answer what is so**: in every reachable situation, `lock()` returns if nobody is inside and waits
otherwise; `try_lock()` answers whether nobody is inside; the task inside can unlock, no other can. -/
theorem mutex_answers (hz : Nat) (sched : List (Tid × MOp)) (s : Sem) (tr : List (Tid × MOp × Bool))
    (h : runMutex true hz sched (mkMutex false) = .ok (s, tr)) (t : Tid) :
    (Spec.inside tr [] = [] →
      (∃ s', lock s t = .ok s') ∧ (∃ s', tryLock s t = .ok (s', true)) ∧ unlock true s t = .ok (s, false)) ∧
    (∀ u, Spec.inside tr [] = [u] →
      lock s t = .blocked ∧ tryLock s t = .ok (s, false) ∧
      (t = u → ∃ s', unlock true s t = .ok (s', true) ∧ ∃ s'', lock s' t = .ok s'') ∧ (t ≠ u → unlock true s t = .abort)) := by
  obtain ⟨h', rfl, i⟩ := mutex_run sched none h (.inl rfl)
  have i : Spec.inside tr [] = h'.toList := i
  rw [i]
  constructor
  · intro e
    cases h' with
    | some x => simp at e
    | none => exact ⟨⟨_, rfl⟩, ⟨_, rfl⟩, rfl⟩
  · intro u e
    cases h' with
    | none => simp at e
    | some x =>
      simp only [Option.toList_some, List.cons.injEq, and_true] at e
      subst e
      refine ⟨rfl, rfl, ?_, ?_⟩
      · rintro rfl; exact ⟨.mutex none, by simp [unlock, give, xGive], _, rfl⟩
      · intro hne; simp [unlock, give, xGive, Ne.symm hne]

/-- **Violation.** Without `configASSERT`, any task may unlock a mutex another task is inside of, is told `true`, and a third
task gets in as well. -/
theorem foreign_unlock (hz : Nat) (t u v : Tid) (h : t ≠ u) :
    ∃ s tr, runMutex false hz [(t, .lock), (u, .unlock), (v, .lock)] (mkMutex false) = .ok (s, tr) ∧
      Spec.inside tr [] = [v, t] := by
  refine ⟨.mutex (some v), [(t, .lock, true), (u, .unlock, true), (v, .lock, true)], ?_, ?_⟩
  · simp [runMutex, MOp.step, lock, unlock, take, give, xTake, xGive, mkMutex, xCreateMutex, Ker.bind, h]
  · simp [Spec.inside, List.erase_cons, h]

theorem plain_zero_step {asserts : Bool} {hz : Nat} {t : Tid} {op : MOp} {s : Sem} {r : Bool}
    (e : op.step asserts hz (.plain 1 0) t = .ok (s, r)) (ho : op ≠ .unlock) : s = .plain 1 0 ∧ r = false := by
  cases op with
  | lock => simp [MOp.step, lock, take, xTake, waitFor_max, Ker.bind] at e
  | tryLock =>
    simp only [MOp.step, tryLock, take, xTake] at e
    have := waitFor_ok e
    simp only [Prod.mk.injEq] at this; exact this
  | tryLockFor d o =>
    simp only [MOp.step, tryLockFor] at e
    split at e
    · simp only [take, xTake] at e
      have := waitFor_ok e
      simp only [Prod.mk.injEq] at this; exact this
    · cases e
  | unlock => exact absurd rfl ho

/-- **Violation.** `mutex(true)` makes a binary semaphore, which the kernel creates empty: as long as nobody unlocks a mutex
they are not inside of, no `lock()` ever returns and no `try_lock…` ever succeeds. -/
theorem binary_mutex_never_locks (asserts : Bool) (hz : Nat) (sched : List (Tid × MOp)) (s : Sem)
    (tr : List (Tid × MOp × Bool)) (h : runMutex asserts hz sched (mkMutex true) = .ok (s, tr)) (ho : Spec.Owned tr []) :
    ∀ e ∈ tr, e.2.2 = false := by
  have key : ∀ (es : List (Tid × MOp)) (s : Sem) (tr : List (Tid × MOp × Bool)),
      runMutex asserts hz es (.plain 1 0) = .ok (s, tr) → Spec.Owned tr [] → ∀ e ∈ tr, e.2.2 = false := by
    intro es
    induction es with
    | nil =>
      intro s tr e _
      simp only [runMutex, Ker.ok.injEq, Prod.mk.injEq] at e
      obtain ⟨rfl, rfl⟩ := e
      simp
    | cons x es ih =>
      intro s tr e ho
      obtain ⟨t, op⟩ := x
      simp only [runMutex, Ker.bind_ok_iff] at e
      obtain ⟨⟨s1, r⟩, e1, ⟨s2, tr2⟩, e2, e3⟩ := e
      simp only [Ker.ok.injEq, Prod.mk.injEq] at e3
      obtain ⟨rfl, rfl⟩ := e3
      have hu : op ≠ .unlock := fun hh => by simpa using ho.1 hh
      obtain ⟨rfl, rfl⟩ := plain_zero_step e1 hu
      have h2 : Spec.Owned tr2 [] := ho.2
      intro y hy
      rcases List.mem_cons.mp hy with rfl | hy
      · rfl
      · exact ih _ _ e2 h2 y hy
  exact key sched s tr h ho

example : runMutex true 1000 [(1, .tryLock), (2, .tryLock)] (mkMutex true) =
    .ok (.plain 1 0, [(1, .tryLock, false), (2, .tryLock, false)]) ∧ lock (mkMutex true) 1 = .blocked := by decide +kernel

/-- **Violation.** And once somebody has unlocked it first, anybody's unlock is taken for the owner's, asserts or not. -/
theorem binary_mutex_foreign_unlock (asserts : Bool) (hz : Nat) (t u v : Tid) (h : t ≠ u) :
    ∃ s tr, runMutex asserts hz [(u, .unlock), (t, .lock), (u, .unlock), (v, .lock)] (mkMutex true) = .ok (s, tr) ∧
      Spec.inside tr [] = [v, t] := by
  refine ⟨.plain 1 0, [(u, .unlock, true), (t, .lock, true), (u, .unlock, true), (v, .lock, true)], ?_, ?_⟩
  · simp [runMutex, MOp.step, lock, unlock, take, give, xTake, xGive, mkMutex, xCreateBinary, Ker.bind]
  · simp [Spec.inside, List.erase_cons, h]

/-! ## Semaphores -/

theorem take_plain {m n : Nat} {t : Tid} {k : Nat} {o : Bool} {s : Sem} {r : Bool}
    (e : take (.plain m n) t k o = .ok (s, r)) :
    (∃ n', n = n' + 1 ∧ s = .plain m n' ∧ r = true) ∨ (n = 0 ∧ s = .plain m 0 ∧ r = false ∧ k ≠ maxDelay) := by
  unfold take xTake at e
  cases n with
  | succ n => simp only [Ker.ok.injEq, Prod.mk.injEq] at e; exact .inl ⟨n, rfl, e.1.symm, e.2.symm⟩
  | zero =>
    simp only at e
    have := waitFor_ok e
    simp only [Prod.mk.injEq] at this
    refine .inr ⟨rfl, this.1, this.2, ?_⟩
    rintro rfl
    rw [waitFor_max] at e
    cases e

/-- the calls that answered `true`: unlocks, and locks of any form -/
def Spec.unlocks (tr : List (Tid × MOp × Bool)) : Nat := (tr.filter fun e => e.2.2 && e.2.1 == .unlock).length
def Spec.locks (tr : List (Tid × MOp × Bool)) : Nat := (tr.filter fun e => e.2.2 && e.2.1 != .unlock).length

theorem binary_step {asserts : Bool} {hz n : Nat} {t : Tid} {op : MOp} {s : Sem} {r : Bool}
    (e : op.step asserts hz (.plain 1 n) t = .ok (s, r)) (hn : n ≤ 1) :
    ∃ n', s = .plain 1 n' ∧ n' ≤ 1 ∧ n' + Spec.locks [(t, op, r)] = n + Spec.unlocks [(t, op, r)] := by
  have fin : ∀ k o, op ≠ .unlock → take (.plain 1 n) t k o = .ok (s, r) →
      ∃ n', s = .plain 1 n' ∧ n' ≤ 1 ∧ n' + Spec.locks [(t, op, r)] = n + Spec.unlocks [(t, op, r)] := by
    intro k o hu hk
    rcases take_plain hk with ⟨n', h1, h2, h3⟩ | ⟨h1, h2, h3, -⟩
    · exact ⟨n', h2, by omega, by subst h3; simp [Spec.locks, Spec.unlocks, hu]; omega⟩
    · exact ⟨0, h2, by omega, by subst h3; simp [Spec.locks, Spec.unlocks]; omega⟩
  cases op with
  | lock =>
    simp only [MOp.step, lock, Ker.bind_ok_iff] at e
    obtain ⟨s1, ⟨p, e1, e2⟩, e3⟩ := e
    obtain ⟨p1, p2⟩ := p
    simp only [Ker.ok.injEq, Prod.mk.injEq] at e2 e3
    obtain ⟨rfl, rfl⟩ := e3
    have : p2 = true := by
      rcases take_plain e1 with ⟨_, _, _, h3⟩ | ⟨_, _, _, h4⟩
      · exact h3
      · exact absurd rfl h4
    subst this; subst e2
    exact fin _ _ (by simp) e1
  | tryLock => exact fin _ _ (by simp) e
  | tryLockFor d o =>
    simp only [MOp.step, tryLockFor] at e
    split at e
    · exact fin _ _ (by simp) e
    · cases e
  | unlock =>
    simp only [MOp.step, unlock, give, xGive] at e
    by_cases h : n < 1
    · simp only [h, if_true, Ker.ok.injEq, Prod.mk.injEq] at e
      obtain ⟨rfl, rfl⟩ := e
      exact ⟨n + 1, rfl, by omega, by simp [Spec.locks, Spec.unlocks]⟩
    · simp only [h, if_false, Ker.ok.injEq, Prod.mk.injEq] at e
      obtain ⟨rfl, rfl⟩ := e
      exact ⟨n, rfl, by omega, by simp [Spec.locks, Spec.unlocks]⟩

/-- What the calls on a binary mutex answer, asserts or not: unlocks and locks that answer `true` alternate, an unlock first;
an unlock answers whether the last of them was a lock (or there was none), `try_lock()` whether it was an unlock, and
`lock()` waits unless it was. -/
theorem binary_mutex_alternates (asserts : Bool) (hz : Nat) (sched : List (Tid × MOp)) (s : Sem)
    (tr : List (Tid × MOp × Bool)) (h : runMutex asserts hz sched (mkMutex true) = .ok (s, tr)) (t : Tid) :
    Spec.locks tr ≤ Spec.unlocks tr ∧ Spec.unlocks tr ≤ Spec.locks tr + 1 ∧
    (∃ s', unlock asserts s t = .ok (s', decide (Spec.unlocks tr = Spec.locks tr))) ∧
    (∃ s', tryLock s t = .ok (s', decide (Spec.unlocks tr = Spec.locks tr + 1))) ∧
    (lock s t = .blocked ↔ Spec.unlocks tr = Spec.locks tr) := by
  have key : ∀ (es : List (Tid × MOp)) (n : Nat) (s : Sem) (tr : List (Tid × MOp × Bool)), n ≤ 1 →
      runMutex asserts hz es (.plain 1 n) = .ok (s, tr) →
      ∃ n', s = .plain 1 n' ∧ n' ≤ 1 ∧ n' + Spec.locks tr = n + Spec.unlocks tr := by
    intro es
    induction es with
    | nil =>
      intro n s tr hn e
      simp only [runMutex, Ker.ok.injEq, Prod.mk.injEq] at e
      obtain ⟨rfl, rfl⟩ := e
      exact ⟨n, rfl, hn, rfl⟩
    | cons x es ih =>
      intro n s tr hn e
      obtain ⟨t, op⟩ := x
      simp only [runMutex, Ker.bind_ok_iff] at e
      obtain ⟨⟨s1, r⟩, e1, ⟨s2, tr2⟩, e2, e3⟩ := e
      simp only [Ker.ok.injEq, Prod.mk.injEq] at e3
      obtain ⟨rfl, rfl⟩ := e3
      obtain ⟨n1, rfl, h1, h2⟩ := binary_step e1 hn
      obtain ⟨n2, rfl, h3, h4⟩ := ih n1 _ _ h1 e2
      refine ⟨n2, rfl, h3, ?_⟩
      have a : Spec.locks ((t, op, r) :: tr2) = Spec.locks [(t, op, r)] + Spec.locks tr2 := by
        simp only [Spec.locks, ← List.length_append, ← List.filter_append, List.singleton_append]
      have b : Spec.unlocks ((t, op, r) :: tr2) = Spec.unlocks [(t, op, r)] + Spec.unlocks tr2 := by
        simp only [Spec.unlocks, ← List.length_append, ← List.filter_append, List.singleton_append]
      omega
  obtain ⟨n, rfl, hn, hc⟩ := key sched 0 s tr (by omega) h
  refine ⟨by omega, by omega, ?_⟩
  obtain rfl | rfl : n = 0 ∨ n = 1 := by omega
  · have h1 : Spec.unlocks tr = Spec.locks tr := by omega
    have h2 : ¬ Spec.unlocks tr = Spec.locks tr + 1 := by omega
    simp [h1, unlock, give, xGive, tryLock, lock, take, xTake, waitFor_max, Ker.bind]
    simp [waitFor]
  · have h1 : ¬ Spec.unlocks tr = Spec.locks tr := by omega
    have h2 : Spec.unlocks tr = Spec.locks tr + 1 := by omega
    simp [h2, unlock, give, xGive, tryLock, lock, take, xTake, Ker.bind]

example : runMutex true 1000 [(1, .unlock), (2, .unlock), (1, .tryLock), (2, .tryLock)] (mkMutex true) =
    .ok (.plain 1 0, [(1, .unlock, true), (2, .unlock, false), (1, .tryLock, true), (2, .tryLock, false)]) := by decide +kernel

/-- one call on a semaphore with `n` of `m` units -/
theorem sem_step {asserts : Bool} {hz m n : Nat} {t : Tid} {op : SOp} {s : Sem} {r : Bool}
    (e : op.step asserts hz (.plain m n) t = .ok (s, r)) :
    (op = .release ∧ s = .plain m (if n < m then n + 1 else n)) ∨
    (op ≠ .release ∧ r = true ∧ ∃ n', n = n' + 1 ∧ s = .plain m n') ∨
    (op ≠ .release ∧ r = false ∧ n = 0 ∧ s = .plain m 0) := by
  cases op with
  | release =>
    simp only [SOp.step, release, give, xGive] at e
    refine .inl ⟨rfl, ?_⟩
    by_cases h : n < m <;> simp [h, Ker.bind] at e ⊢ <;> exact e.1.symm
  | acquire =>
    simp only [SOp.step, acquire, Ker.bind_ok_iff] at e
    obtain ⟨s1, ⟨p, e1, e2⟩, e3⟩ := e
    obtain ⟨p1, p2⟩ := p
    simp only [Ker.ok.injEq, Prod.mk.injEq] at e2 e3
    obtain ⟨rfl, rfl⟩ := e3
    subst e2
    rcases take_plain e1 with ⟨n', h1, h2, -⟩ | ⟨-, -, -, h4⟩
    · exact .inr (.inl ⟨by simp, rfl, n', h1, h2⟩)
    · exact absurd rfl h4
  | tryAcquire =>
    rcases take_plain e with ⟨n', h1, h2, h3⟩ | ⟨h1, h2, h3, -⟩
    · exact .inr (.inl ⟨by simp, h3, n', h1, h2⟩)
    · exact .inr (.inr ⟨by simp, h3, h1, h2⟩)
  | tryAcquireFor d o =>
    simp only [SOp.step, tryAcquireFor] at e
    split at e
    · rcases take_plain e with ⟨n', h1, h2, h3⟩ | ⟨h1, h2, h3, -⟩
      · exact .inr (.inl ⟨by simp, h3, n', h1, h2⟩)
      · exact .inr (.inr ⟨by simp, h3, h1, h2⟩)
    · cases e

theorem acquired_release (t : Tid) (r : Bool) (tr) : Spec.acquired ((t, .release, r) :: tr) = Spec.acquired tr := by
  cases r <;> rfl
theorem acquired_true {op : SOp} (h : op ≠ .release) (t : Tid) (tr) :
    Spec.acquired ((t, op, true) :: tr) = Spec.acquired tr + 1 := by
  cases op <;> first | rfl | exact absurd rfl h
theorem acquired_false {op : SOp} (t : Tid) (tr) : Spec.acquired ((t, op, false) :: tr) = Spec.acquired tr := by
  cases op <;> rfl
theorem released_release (t : Tid) (r : Bool) (tr) : Spec.released ((t, .release, r) :: tr) = Spec.released tr + 1 := rfl
theorem released_other {op : SOp} (h : op ≠ .release) (t : Tid) (r : Bool) (tr) :
    Spec.released ((t, op, r) :: tr) = Spec.released tr := by
  cases op <;> first | rfl | exact absurd rfl h
theorem within_true {op : SOp} (h : op ≠ .release) (m : Nat) (t : Tid) (tr) (n : Nat) :
    Spec.Within m ((t, op, true) :: tr) n ↔ Spec.Within m tr (n - 1) := by
  cases op <;> first | rfl | exact absurd rfl h
theorem within_false {op : SOp} (h : op ≠ .release) (m : Nat) (t : Tid) (tr) (n : Nat) :
    Spec.Within m ((t, op, false) :: tr) n ↔ Spec.Within m tr n := by
  cases op <;> first | rfl | exact absurd rfl h

theorem sem_run {asserts : Bool} {hz m : Nat} (es : List (Tid × SOp)) (n : Nat) (hn : n ≤ m) {s : Sem}
    {tr : List (Tid × SOp × Bool)} (e : runSem asserts hz es (.plain m n) = .ok (s, tr)) :
    ∃ n', s = .plain m n' ∧ n' ≤ m ∧ n' + Spec.acquired tr ≤ n + Spec.released tr ∧
      (Spec.Within m tr n → n' + Spec.acquired tr = n + Spec.released tr) := by
  induction es generalizing n tr with
  | nil =>
    simp only [runSem, Ker.ok.injEq, Prod.mk.injEq] at e; obtain ⟨rfl, rfl⟩ := e
    exact ⟨n, rfl, hn, by simp [Spec.acquired, Spec.released], fun _ => by simp [Spec.acquired, Spec.released]⟩
  | cons x es ih =>
    obtain ⟨t, op⟩ := x
    simp only [runSem, Ker.bind_ok_iff] at e
    obtain ⟨⟨s1, r⟩, e1, ⟨s2, tr2⟩, e2, e3⟩ := e
    simp only [Ker.ok.injEq, Prod.mk.injEq] at e3
    obtain ⟨rfl, rfl⟩ := e3
    simp only at e1 e2
    rcases sem_step e1 with ⟨rfl, rfl⟩ | ⟨h1, rfl, n1, rfl, rfl⟩ | ⟨h1, rfl, rfl, rfl⟩
    · obtain ⟨n', i1, i2, i3, i4⟩ := ih _ (by split <;> omega) e2
      refine ⟨n', i1, i2, ?_, ?_⟩
      · rw [acquired_release, released_release]; split at i3 <;> omega
      · intro hw
        have hw : n < m ∧ Spec.Within m tr2 (n + 1) := hw
        rw [if_pos hw.1] at i4
        have := i4 hw.2
        rw [acquired_release, released_release]; omega
    · obtain ⟨n', i1, i2, i3, i4⟩ := ih n1 (by omega) e2
      rw [acquired_true h1, released_other h1]
      refine ⟨n', i1, i2, by omega, ?_⟩
      intro hw
      have := i4 (by have := (within_true h1 m t tr2 (n1 + 1)).mp hw; simpa using this)
      omega
    · obtain ⟨n', i1, i2, i3, i4⟩ := ih 0 (by omega) e2
      rw [acquired_false, released_other h1]
      exact ⟨n', i1, i2, i3, fun hw => i4 ((within_false h1 m t tr2 0).mp hw)⟩

/-- C73, **a semaphore is never oversubscribed**: whatever the schedule, at most as many acquisitions have succeeded as there
were units at first plus releases. -/
theorem sem_bound (asserts : Bool) (hz max desired : Nat) (s0 s : Sem) (sched : List (Tid × SOp))
    (tr : List (Tid × SOp × Bool)) (hc : mkCounting asserts max desired = .ok (some s0))
    (h : runSem asserts hz sched s0 = .ok (s, tr)) : Spec.acquired tr ≤ desired + Spec.released tr := by
  unfold mkCounting xCreateCounting at hc
  split at hc
  · next hm =>
    simp only [Ker.ok.injEq, Option.some.injEq] at hc
    subst hc
    obtain ⟨n', -, -, h3, -⟩ := sem_run sched desired hm.2 h
    omega
  · cases asserts <;> simp at hc

/-- C73, **units are neither lost nor invented** while no release exceeds the maximum: acquisitions succeed exactly while
units are left, and `acquire()` waits exactly when none is.

Missing: releases at the maximum (`release_lost`). -/
theorem sem_exact_partial (asserts : Bool) (hz max desired : Nat) (s0 s : Sem) (sched : List (Tid × SOp))
    (tr : List (Tid × SOp × Bool)) (hc : mkCounting asserts max desired = .ok (some s0))
    (h : runSem asserts hz sched s0 = .ok (s, tr)) (hw : Spec.Within max tr desired) (t : Tid) :
    (Spec.acquired tr < desired + Spec.released tr →
      (∃ s', acquire s t = .ok s') ∧ ∃ s', tryAcquire s t = .ok (s', true)) ∧
    (Spec.acquired tr = desired + Spec.released tr → acquire s t = .blocked ∧ tryAcquire s t = .ok (s, false)) := by
  unfold mkCounting xCreateCounting at hc
  split at hc
  · next hm =>
    simp only [Ker.ok.injEq, Option.some.injEq] at hc
    subst hc
    obtain ⟨n', rfl, -, -, h4⟩ := sem_run sched desired hm.2 h
    have h4 := h4 hw
    constructor
    · intro hlt
      obtain ⟨k, rfl⟩ : ∃ k, n' = k + 1 := ⟨n' - 1, by omega⟩
      exact ⟨⟨_, rfl⟩, _, rfl⟩
    · intro heq
      obtain rfl : n' = 0 := by omega
      exact ⟨rfl, rfl⟩
  · cases asserts <;> simp at hc

example : mkCounting false 3 1 = .ok (some (.plain 3 1)) ∧
    runSem false 1000 [(1, .acquire), (2, .tryAcquire), (1, .release), (3, .release), (2, .acquire)] (.plain 3 1) =
      .ok (.plain 3 1, [(1, .acquire, true), (2, .tryAcquire, false), (1, .release, true), (3, .release, true),
        (2, .acquire, true)]) := by decide +kernel

theorem run_releases (asserts : Bool) (hz m : Nat) (k n : Nat) (t : Tid) (rest : List (Tid × SOp)) (hn : n ≤ m) :
    runSem asserts hz (List.replicate k (t, .release) ++ rest) (.plain m n) =
      (runSem asserts hz rest (.plain m (min m (n + k)))).bind fun q =>
        .ok (q.1, List.replicate k (t, .release, true) ++ q.2) := by
  induction k generalizing n with
  | zero =>
    simp only [List.replicate_zero, List.nil_append, Nat.add_zero]
    rw [Nat.min_eq_right hn]
    cases runSem asserts hz rest (.plain m n) <;> rfl
  | succ k ih =>
    simp only [List.replicate_succ, List.cons_append, runSem]
    have e : SOp.step asserts hz (.plain m n) t .release = .ok (.plain m (min m (n + 1)), true) := by
      by_cases h : n < m
      · simp [SOp.step, release, give, xGive, h, Ker.bind, Nat.min_eq_right (show n + 1 ≤ m by omega)]
      · simp [SOp.step, release, give, xGive, h, Ker.bind, Nat.min_eq_left (show m ≤ n + 1 by omega)]; omega
    rw [e]
    simp only [Ker.bind]
    rw [ih (min m (n + 1)) (by omega), show min m (min m (n + 1) + k) = min m (n + (k + 1)) by omega]
    cases runSem asserts hz rest (.plain m (min m (n + (k + 1)))) <;> rfl

theorem run_acquires (asserts : Bool) (hz m : Nat) (k n : Nat) (t : Tid) :
    runSem asserts hz (List.replicate k (t, .acquire)) (.plain m (n + k)) =
      .ok (.plain m n, List.replicate k (t, .acquire, true)) := by
  induction k generalizing n with
  | zero => rfl
  | succ k ih =>
    simp only [List.replicate_succ, runSem]
    have e : SOp.step asserts hz (.plain m (n + (k + 1))) t .acquire = .ok (.plain m (n + k), true) := by
      simp [SOp.step, acquire, take, xTake, show n + (k + 1) = (n + k) + 1 by omega, Ker.bind]
    rw [e]
    simp only [Ker.bind]
    rw [ih n]

/-- **Violation.** A release at the maximum is lost without a word: of `max + k` releases only `max` can be acquired. -/
theorem release_lost (asserts : Bool) (hz max k : Nat) (t u : Tid) :
    ∃ s tr, runSem asserts hz (List.replicate (max + k) (t, .release) ++ List.replicate max (u, .acquire))
        (.plain max 0) = .ok (s, tr) ∧
      Spec.acquired tr = max ∧ Spec.released tr = max + k ∧ tryAcquire s u = .ok (s, false) := by
  refine ⟨.plain max 0, List.replicate (max + k) (t, .release, true) ++ List.replicate max (u, .acquire, true), ?_, ?_, ?_, rfl⟩
  · rw [run_releases _ _ _ _ _ _ _ (Nat.zero_le _), show min max (0 + (max + k)) = 0 + max by omega, run_acquires]
    rfl
  · have h1 : ∀ n, Spec.acquired (List.replicate n (u, .acquire, true)) = n := by
      intro n; induction n with
      | zero => rfl
      | succ n ih => rw [List.replicate_succ, acquired_true (by simp), ih]
    have h2 : ∀ n tr, Spec.acquired (List.replicate n (t, .release, true) ++ tr) = Spec.acquired tr := by
      intro n tr; induction n with
      | zero => rfl
      | succ n ih => rw [List.replicate_succ, List.cons_append, acquired_release, ih]
    rw [h2, h1]
  · have h1 : ∀ n, Spec.released (List.replicate n (u, .acquire, true)) = 0 := by
      intro n; induction n with
      | zero => rfl
      | succ n ih => rw [List.replicate_succ, released_other (by simp), ih]
    have h2 : ∀ n tr, Spec.released (List.replicate n (t, .release, true) ++ tr) = n + Spec.released tr := by
      intro n tr; induction n with
      | zero => simp
      | succ n ih => rw [List.replicate_succ, List.cons_append, released_release, ih]; omega
    rw [h2, h1]; rfl

/-- A binary semaphore starts empty: the first acquisition waits for a release.  (`counting_semaphore<1>` takes no initial
count.) -/
theorem binary_starts_empty (t : Tid) : acquire mkBinary t = .blocked ∧ tryAcquire mkBinary t = .ok (mkBinary, false) :=
  ⟨rfl, rfl⟩

/-- C73: creating a counting semaphore succeeds exactly when its maximum is positive and its initial units do not exceed it,
and the new semaphore gives out exactly its initial units. -/
theorem counting_made (asserts : Bool) (max desired : Nat) :
    ((∃ s0, mkCounting asserts max desired = .ok (some s0)) ↔ 0 < max ∧ desired ≤ max) ∧
    ∀ s0, mkCounting asserts max desired = .ok (some s0) → ∀ t, (acquire s0 t = .blocked ↔ desired = 0) := by
  unfold mkCounting xCreateCounting
  by_cases h : max ≠ 0 ∧ desired ≤ max
  · rw [if_pos h]
    refine ⟨⟨fun _ => ⟨by omega, h.2⟩, fun _ => ⟨_, rfl⟩⟩, ?_⟩
    intro s0 hs t
    simp only [Ker.ok.injEq, Option.some.injEq] at hs
    subst hs
    cases desired <;> simp [acquire, take, xTake, waitFor, maxDelay, Ker.bind]
  · rw [if_neg h]
    have hn : ¬ (0 < max ∧ desired ≤ max) := fun hc => h ⟨by omega, hc.2⟩
    cases asserts <;> simp [hn]

/-- **Violation.** More initial units than the maximum: the kernel refuses, and without asserts the wrapper goes on with a null
handle. -/
theorem desired_above_max (max desired : Nat) (h : max < desired) :
    mkCounting false max desired = .ok none ∧ mkCounting true max desired = .abort := by
  simp [mkCounting, xCreateCounting, show ¬ desired ≤ max by omega]

/-! ## Recursive mutexes -/

/-- the state against the levels of all tasks -/
def RInv (s : RMutex) (L : Tid → Int) : Prop :=
  match s.holder with
  | none => s.depth = 0 ∧ ∀ t, L t = 0
  | some h => 1 ≤ s.depth ∧ L h = s.depth ∧ ∀ t, t ≠ h → L t = 0

theorem level_cons (t : Tid) (e : Tid × ROp × Bool) (tr : List (Tid × ROp × Bool)) :
    Spec.level t (e :: tr) = Spec.level t [e] + Spec.level t tr := by
  obtain ⟨u, op, r⟩ := e
  cases op <;> simp [Spec.level]

theorem takeRecursive_inv {s s' : RMutex} {t : Tid} {n : Nat} {o : Bool} {r : Bool} {L : Tid → Int} (hi : RInv s L)
    (e : takeRecursive s t n o = .ok (s', r)) :
    RInv s' (fun u => (if t = u ∧ r = true then 1 else 0) + L u) ∧ (n = maxDelay → r = true) := by
  unfold takeRecursive at e
  unfold RInv at hi
  cases hh : s.holder with
  | none =>
    rw [hh] at e hi
    simp only [Ker.ok.injEq, Prod.mk.injEq] at e
    obtain ⟨rfl, rfl⟩ := e
    refine ⟨?_, fun _ => rfl⟩
    unfold RInv
    simp only
    refine ⟨by omega, by simp [hi.2], ?_⟩
    intro u hu
    simp [Ne.symm hu, hi.2]
  | some h =>
    rw [hh] at e hi
    simp only at e hi
    by_cases ht : h = t
    · rw [if_pos ht] at e
      simp only [Ker.ok.injEq, Prod.mk.injEq] at e
      obtain ⟨rfl, rfl⟩ := e
      refine ⟨?_, fun _ => rfl⟩
      subst ht
      unfold RInv
      simp only
      refine ⟨by omega, by simp [hi.2.1]; omega, ?_⟩
      intro u hu
      simp [Ne.symm hu, hi.2.2 u hu]
    · rw [if_neg ht] at e
      have := waitFor_ok e
      simp only [Prod.mk.injEq] at this
      obtain ⟨rfl, rfl⟩ := this
      refine ⟨?_, ?_⟩
      · simp only [Bool.false_eq_true, and_false, if_false, Int.zero_add]
        unfold RInv; rw [hh]; exact hi
      · rintro rfl; rw [waitFor_max] at e; cases e

theorem rec_step {s s' : RMutex} {t : Tid} {op : ROp} {r : Bool} {L : Tid → Int} (hi : RInv s L)
    (e : op.step s t = .ok (s', r)) : RInv s' (fun u => Spec.level u [(t, op, r)] + L u) := by
  cases op with
  | lock =>
    simp only [ROp.step, Ker.bind_ok_iff] at e
    obtain ⟨⟨p1, p2⟩, e1, e2⟩ := e
    simp only [Ker.ok.injEq, Prod.mk.injEq] at e2
    obtain ⟨rfl, rfl⟩ := e2
    obtain ⟨h1, h2⟩ := takeRecursive_inv hi e1
    have h2 := h2 rfl
    subst h2
    simpa [Spec.level] using h1
  | tryLock => simpa [Spec.level] using (takeRecursive_inv hi e).1
  | unlock =>
    simp only [ROp.step, giveRecursive, Ker.ok.injEq] at e
    by_cases hh : s.holder = some t
    · rw [if_pos hh] at e
      simp only [Prod.mk.injEq] at e
      obtain ⟨rfl, rfl⟩ := e
      unfold RInv at hi
      rw [hh] at hi
      simp only at hi
      by_cases hd : s.depth ≤ 1
      · rw [if_pos hd]
        refine ⟨rfl, ?_⟩
        intro u
        by_cases hu : t = u
        · subst hu; simp [Spec.level, hi.2.1]; omega
        · simp [Spec.level, hu, hi.2.2 u (fun h => hu h.symm)]
      · rw [if_neg hd]
        unfold RInv
        rw [show (RMutex.mk s.holder (s.depth - 1)).holder = some t from hh]
        simp only
        refine ⟨by omega, by simp [Spec.level, hi.2.1]; omega, ?_⟩
        intro u hu
        simp [Spec.level, Ne.symm hu, hi.2.2 u hu]
    · rw [if_neg hh] at e
      simp only [Prod.mk.injEq] at e
      obtain ⟨rfl, rfl⟩ := e
      simpa [Spec.level] using hi

theorem rec_run (es : List (Tid × ROp)) (s : RMutex) (L : Tid → Int) (hi : RInv s L) {s' : RMutex}
    {tr : List (Tid × ROp × Bool)} (e : runRecursive es s = .ok (s', tr)) : RInv s' (fun u => L u + Spec.level u tr) := by
  induction es generalizing s L tr with
  | nil =>
    simp only [runRecursive, Ker.ok.injEq, Prod.mk.injEq] at e; obtain ⟨rfl, rfl⟩ := e
    simpa [Spec.level] using hi
  | cons x es ih =>
    obtain ⟨t, op⟩ := x
    simp only [runRecursive, Ker.bind_ok_iff] at e
    obtain ⟨⟨s1, r⟩, e1, ⟨s2, tr2⟩, e2, e3⟩ := e
    simp only [Ker.ok.injEq, Prod.mk.injEq] at e3
    obtain ⟨rfl, rfl⟩ := e3
    have h1 := rec_step hi e1
    have h2 := ih s1 _ h1 e2
    have : (fun u => L u + Spec.level u ((t, op, r) :: tr2)) =
        (fun u => Spec.level u [(t, op, r)] + L u + Spec.level u tr2) := by
      funext u; rw [level_cons]; omega
    rw [this]; exact h2

/-- C73, **recursive mutexes**: over every schedule no two tasks are inside at once and none has left more often than it
entered; a task may always enter if no other task is inside (and waits otherwise), `unlock()` answers whether the caller is
inside, and the calls of others change nothing. -/
theorem recursive_mutex_history (sched : List (Tid × ROp)) (s : RMutex) (tr : List (Tid × ROp × Bool))
    (h : runRecursive sched mkRecursive = .ok (s, tr)) :
    (∀ t u, t ≠ u → 0 < Spec.level t tr → Spec.level u tr = 0) ∧ (∀ t, 0 ≤ Spec.level t tr) ∧
    (∀ t, (∀ u, u ≠ t → Spec.level u tr = 0) → ∃ s', ROp.lock.step s t = .ok (s', true) ∧ ROp.tryLock.step s t = .ok (s', true)) ∧
    (∀ t u, u ≠ t → 0 < Spec.level u tr → ROp.lock.step s t = .blocked ∧ ROp.tryLock.step s t = .ok (s, false)) ∧
    (∀ t, 0 < Spec.level t tr → ∃ s', ROp.unlock.step s t = .ok (s', true)) ∧
    (∀ t, Spec.level t tr = 0 → ROp.unlock.step s t = .ok (s, false)) := by
  have hi := rec_run sched mkRecursive (fun _ => 0) ⟨rfl, fun _ => rfl⟩ h
  simp only [Int.zero_add] at hi
  unfold RInv at hi
  cases hh : s.holder with
  | none =>
    rw [hh] at hi
    simp only at hi
    obtain ⟨-, hi⟩ := hi
    refine ⟨fun t u _ h => by rw [hi t] at h; omega, fun t => by rw [hi t]; omega, ?_, fun t u _ h => by rw [hi u] at h; omega,
      fun t h => by rw [hi t] at h; omega, ?_⟩
    · intro t _
      exact ⟨⟨some t, 1⟩, by simp [ROp.step, takeRecursive, hh, Ker.bind], by simp [ROp.step, takeRecursive, hh]⟩
    · intro t _
      simp [ROp.step, giveRecursive, hh]
  | some x =>
    rw [hh] at hi
    simp only at hi
    obtain ⟨h1, h2, h3⟩ := hi
    have hx : ∀ t, 0 < Spec.level t tr → t = x := by
      intro t h
      by_cases e : t = x
      · exact e
      · rw [h3 t e] at h; omega
    refine ⟨?_, ?_, ?_, ?_, ?_, ?_⟩
    · intro t u htu h
      apply h3
      rw [← hx t h]; exact fun e => htu e.symm
    · intro t
      by_cases e : t = x
      · rw [e, h2]; omega
      · rw [h3 t e]; omega
    · intro t ht
      have : t = x := by
        by_cases e : x = t
        · exact e.symm
        · have := ht x e; omega
      subst this
      exact ⟨⟨some t, s.depth + 1⟩, by simp [ROp.step, takeRecursive, hh, Ker.bind], by simp [ROp.step, takeRecursive, hh]⟩
    · intro t u hut hu
      have : x ≠ t := by rw [← hx u hu]; exact hut
      constructor
      · simp [ROp.step, takeRecursive, hh, this, waitFor_max, Ker.bind]
      · simp [ROp.step, takeRecursive, hh, this, waitFor]
    · intro t ht
      have := hx t ht
      subst this
      exact ⟨_, by simp [ROp.step, giveRecursive, hh]; rfl⟩
    · intro t ht
      have : x ≠ t := by rintro rfl; omega
      simp [ROp.step, giveRecursive, hh, this]

example : runRecursive [(1, .lock), (1, .tryLock), (2, .tryLock), (2, .unlock), (1, .unlock), (2, .tryLock), (1, .unlock),
      (2, .lock)] mkRecursive =
    .ok (⟨some 2, 1⟩, [(1, .lock, true), (1, .tryLock, true), (2, .tryLock, false), (2, .unlock, false), (1, .unlock, true),
      (2, .tryLock, false), (1, .unlock, true), (2, .lock, true)]) := by decide +kernel

end Verif.Rtos
