/-!
# C60: scoped locks, under every schedule

Modelled from `src/estd/mutex.h` (`lock_guard`, `unique_lock`).  The mutex itself is the platform's; what is assumed of
it: `lock()` waits until the mutex is free and takes it, `try_lock()` takes it if it is free, `unlock()` by the owner
frees it, and by anyone else is undefined.  (A thread that locks a mutex it already owns waits for ever.)
-/
namespace Verif.Locks

/-! ## The model -/

/-- what a thread does, as written: statements, sequences, and blocks that begin with the definition of a lock object -/
inductive Prog where
  | skip
  /-- some statement, named `n` -/
  | work (n : Nat)
  | seq (p q : Prog)
  /-- `{ lock_guard<M> g(m); p }` -/
  | guarded (m : Nat) (p : Prog)
  /-- `{ unique_lock<M> l(m); p }` -/
  | unique (m : Nat) (p : Prog)
  /-- `{ unique_lock<M> l(m, try_to_lock); p }` -/
  | tried (m : Nat) (p : Prog)
  /-- `{ unique_lock<M> l(m, defer_lock); p }`; the same with `adopt_lock` -/
  | deferred (p : Prog)
  /-- `l.lock()` for a `unique_lock` on `m` -/
  | lock (m : Nat)
  /-- `l.unlock()` for a `unique_lock` on `m` -/
  | unlock (m : Nat)
  deriving Repr

/-- The calls on mutexes a thread makes.  `held` is only for stating properties: the mutexes of the lock objects in
scope, innermost first. -/
inductive Instr where
  | lock (m : Nat) (held : List Nat)
  | tryLock (m : Nat) (held : List Nat)
  | unlock (m : Nat) (held : List Nat)
  | work (n : Nat) (held : List Nat)
  deriving DecidableEq, Repr

/-- What the constructors and destructors of the lock objects call: `lock_guard` mutex.h:120-128; `unique_lock`
mutex.h:79-90 (there is no destructor, and the result of `try_lock()` is dropped), `lock()` and `unlock()` mutex.h:65-67. -/
def compile (held : List Nat) : Prog → List Instr
  | .skip => []
  | .work n => [.work n held]
  | .seq p q => compile held p ++ compile held q
  | .guarded m p => .lock m held :: (compile (m :: held) p ++ [.unlock m (m :: held)])
  | .unique m p => .lock m held :: compile (m :: held) p
  | .tried m p => .tryLock m held :: compile (m :: held) p
  | .deferred p => compile held p
  | .lock m => [.lock m held]
  | .unlock m => [.unlock m held]

/-- who owns each mutex, and what each thread has still to do -/
structure State where
  owner : Nat → Option Nat
  code : Nat → List Instr

def upd {α : Type} (f : Nat → α) (i : Nat) (v : α) : Nat → α := fun j => if j = i then v else f j

/-- threads about to start, all mutexes free -/
def State.init (progs : Nat → Prog) : State := ⟨fun _ => none, fun t => compile [] (progs t)⟩

/-- what happens when thread `t` is scheduled -/
inductive Turn where
  /-- it has finished, or waits -/
  | idle
  | go (s : State) (did : Instr)
  /-- undefined -/
  | ub

/-- one turn of thread `t` -/
def State.turn (s : State) (t : Nat) : Turn :=
  match s.code t with
  | [] => .idle
  | .lock m h :: r => if s.owner m = none then .go ⟨upd s.owner m (some t), upd s.code t r⟩ (.lock m h) else .idle
  | .tryLock m h :: r =>
    .go ⟨if s.owner m = none then upd s.owner m (some t) else s.owner, upd s.code t r⟩ (.tryLock m h)
  | .unlock m h :: r => if s.owner m = some t then .go ⟨upd s.owner m none, upd s.code t r⟩ (.unlock m h) else .ub
  | .work n h :: r => .go ⟨s.owner, upd s.code t r⟩ (.work n h)

/-- something a thread did, and who owned what at that moment -/
structure Event where
  thread : Nat
  instr : Instr
  owner : Nat → Option Nat

/-- the effect of one turn on the state and on the record of what happened -/
def State.after (s : State) (t : Nat) : Turn → Option (State × List Event)
  | .idle => some (s, [])
  | .go s' i => some (s', [⟨t, i, s.owner⟩])
  | .ub => none

/-- a schedule gives turns to threads, in any order -/
def State.run (s : State) : List Nat → Option (State × List Event)
  | [] => some (s, [])
  | t :: ts =>
    match s.after t (s.turn t) with
    | none => none
    | some (s', es) =>
      match State.run s' ts with
      | none => none
      | some (s'', es') => some (s'', es ++ es')

/-! ## The specification -/

/-- only `lock_guard` blocks -/
def Spec.OnlyGuards : Prog → Prop
  | .skip => True
  | .work _ => True
  | .seq p q => OnlyGuards p ∧ OnlyGuards q
  | .guarded _ p => OnlyGuards p
  | _ => False

/-- nested guards lock mutexes in increasing order -/
def Spec.Ordered (held : List Nat) : Prog → Prop
  | .skip => True
  | .work _ => True
  | .seq p q => Ordered held p ∧ Ordered held q
  | .guarded m p => (∀ x ∈ held, x < m) ∧ Ordered (m :: held) p
  | _ => False

/-- whenever a statement inside the scope of lock objects runs, its thread owns their mutexes -/
def Spec.Protected (es : List Event) : Prop :=
  ∀ e ∈ es, ∀ n held, e.instr = .work n held → ∀ m ∈ held, e.owner m = some e.thread

/-! ## Proofs -/

def Instr.held : Instr → List Nat
  | .lock _ h => h
  | .tryLock _ h => h
  | .unlock _ h => h
  | .work _ h => h

def heldAt : List Instr → List Nat
  | [] => []
  | i :: _ => i.held

/-- code made of guards -/
def WF : List Instr → Prop
  | [] => True
  | .lock m h :: r => m ∈ h ∨ (heldAt r = m :: h ∧ WF r)
  | .tryLock _ _ :: _ => False
  | .unlock m h :: r => h = m :: heldAt r ∧ m ∉ heldAt r ∧ WF r
  | .work _ h :: r => heldAt r = h ∧ WF r

theorem compile_held (p : Prog) (hp : Spec.OnlyGuards p) (h : List Nat) (r : List Instr) (hr : heldAt r = h) :
    heldAt (compile h p ++ r) = h := by
  induction p generalizing h r with
  | skip => exact hr
  | work n => rfl
  | seq p q ihp ihq =>
    rw [compile, List.append_assoc]
    exact ihp hp.1 h _ (ihq hp.2 h r hr)
  | guarded m p => rfl
  | unique m p => exact hp.elim
  | tried m p => exact hp.elim
  | deferred p => exact hp.elim
  | lock m => exact hp.elim
  | unlock m => exact hp.elim

theorem compile_wf (p : Prog) (hp : Spec.OnlyGuards p) (h : List Nat) (r : List Instr) (hr : heldAt r = h) (hw : WF r) :
    WF (compile h p ++ r) := by
  induction p generalizing h r with
  | skip => exact hw
  | work n => exact ⟨hr, hw⟩
  | seq p q ihp ihq =>
    rw [compile, List.append_assoc]
    exact ihp hp.1 h _ (compile_held q hp.2 h r hr) (ihq hp.2 h r hr hw)
  | guarded m p ih =>
    by_cases hm : m ∈ h
    · exact Or.inl hm
    · refine Or.inr ?_
      show heldAt (compile (m :: h) p ++ [Instr.unlock m (m :: h)] ++ r) = m :: h ∧
        WF (compile (m :: h) p ++ [Instr.unlock m (m :: h)] ++ r)
      rw [List.append_assoc, List.singleton_append]
      exact ⟨compile_held p hp (m :: h) _ rfl, ih hp (m :: h) _ rfl ⟨by rw [hr], by rw [hr]; exact hm, hw⟩⟩
  | unique m p => exact hp.elim
  | tried m p => exact hp.elim
  | deferred p => exact hp.elim
  | lock m => exact hp.elim
  | unlock m => exact hp.elim

/-- what holds in every reachable state of threads that only use guards -/
structure Inv (s : State) : Prop where
  wf : ∀ t, WF (s.code t)
  own : ∀ t m, s.owner m = some t ↔ m ∈ heldAt (s.code t)

theorem upd_same {α : Type} (f : Nat → α) (i : Nat) (v : α) : upd f i v i = v := by simp [upd]
theorem upd_other {α : Type} (f : Nat → α) {i j : Nat} (v : α) (h : j ≠ i) : upd f i v j = f j := by simp [upd, h]

theorem inv_init (progs : Nat → Prog) (hp : ∀ t, Spec.OnlyGuards (progs t)) : Inv (State.init progs) := by
  have e : ∀ t, compile [] (progs t) = compile [] (progs t) ++ [] := fun t => (List.append_nil _).symm
  refine ⟨fun t => ?_, fun t m => ?_⟩
  · show WF (compile [] (progs t))
    rw [e]; exact compile_wf _ (hp t) [] [] rfl trivial
  · show none = some t ↔ m ∈ heldAt (compile [] (progs t))
    rw [e, compile_held _ (hp t) [] [] rfl]
    simp

theorem inv_turn {s : State} (hi : Inv s) (t : Nat) :
    s.turn t = .idle ∨ ∃ s' i, s.turn t = .go s' i ∧ Inv s' ∧
      (∀ n h, i = .work n h → ∀ m ∈ h, s.owner m = some t) := by
  have hw := hi.wf t
  have ho := hi.own t
  unfold State.turn
  split
  · exact Or.inl rfl
  · rename_i m h r hc
    rw [hc] at hw ho
    split
    · rename_i hn
      refine Or.inr ⟨_, _, rfl, ?_, by intro n h' e; cases e⟩
      have hmh : m ∉ h := by
        intro hm
        have := (ho m).mpr hm
        rw [hn] at this; cases this
      obtain ⟨w1, w2⟩ := hw.resolve_left hmh
      refine ⟨fun t' => ?_, fun t' m' => ?_⟩
      · by_cases ht : t' = t
        · subst ht; simp only [upd_same]; exact w2
        · simp only [upd_other _ _ ht]; exact hi.wf t'
      · by_cases hm : m' = m
        · subst hm
          simp only [upd_same, Option.some.injEq]
          by_cases ht : t' = t
          · subst ht; simp [upd_same, w1]
          · simp only [upd_other _ _ ht]
            rw [← hi.own t' m', hn]
            simp; exact fun e => ht e.symm
        · simp only [upd_other _ _ hm]
          by_cases ht : t' = t
          · subst ht; simp only [upd_same, w1]
            rw [ho m']
            simp [Instr.held, heldAt, hm]
          · simp only [upd_other _ _ ht]; exact hi.own t' m'
    · exact Or.inl rfl
  · rename_i m h r hc
    rw [hc] at hw
    exact hw.elim
  · rename_i m h r hc
    rw [hc] at hw ho
    obtain ⟨w1, w2, w3⟩ := hw
    have hown : s.owner m = some t := (ho m).mpr (by simp [heldAt, Instr.held, w1])
    rw [if_pos hown]
    refine Or.inr ⟨_, _, rfl, ?_, by intro n h' e; cases e⟩
    refine ⟨fun t' => ?_, fun t' m' => ?_⟩
    · by_cases ht : t' = t
      · subst ht; simp only [upd_same]; exact w3
      · simp only [upd_other _ _ ht]; exact hi.wf t'
    · by_cases hm : m' = m
      · subst hm
        simp only [upd_same]
        by_cases ht : t' = t
        · subst ht; simp [upd_same, w2]
        · simp only [upd_other _ _ ht]
          rw [← hi.own t' m', hown]
          simp; exact fun e => ht e.symm
      · simp only [upd_other _ _ hm]
        by_cases ht : t' = t
        · subst ht; simp only [upd_same]
          rw [ho m']
          simp [Instr.held, heldAt, hm, w1]
        · simp only [upd_other _ _ ht]; exact hi.own t' m'
  · rename_i n h r hc
    rw [hc] at hw ho
    obtain ⟨w1, w2⟩ := hw
    refine Or.inr ⟨_, _, rfl, ⟨fun t' => ?_, fun t' m' => ?_⟩, ?_⟩
    · by_cases ht : t' = t
      · subst ht; simp only [upd_same]; exact w2
      · simp only [upd_other _ _ ht]; exact hi.wf t'
    · by_cases ht : t' = t
      · subst ht; simp only [upd_same, w1]; exact ho m'
      · simp only [upd_other _ _ ht]; exact hi.own t' m'
    · intro n' h' e m' hm'
      cases e
      exact (ho m').mpr hm'

theorem inv_run (sched : List Nat) : ∀ s, Inv s →
    ∃ s' es, s.run sched = some (s', es) ∧ Inv s' ∧ Spec.Protected es := by
  induction sched with
  | nil => intro s hi; exact ⟨s, [], rfl, hi, by intro e he; cases he⟩
  | cons t ts ih =>
    intro s hi
    rcases inv_turn hi t with h | ⟨s1, i, h, h1, h2⟩
    · obtain ⟨s', es, r1, r2, r3⟩ := ih s hi
      exact ⟨s', es, by simp [State.run, h, State.after, r1], r2, r3⟩
    · obtain ⟨s', es, r1, r2, r3⟩ := ih s1 h1
      refine ⟨s', ⟨t, i, s.owner⟩ :: es, by simp [State.run, h, State.after, r1], r2, ?_⟩
      intro e he
      rcases List.mem_cons.mp he with rfl | he
      · exact h2
      · exact r3 e he

/-- **C60.**  However many threads run programs whose only lock objects are `lock_guard`s, however the guards are
nested, and under every schedule: no mutex is unlocked by a thread that does not own it, and every statement inside the
scope of guards runs while its thread owns all their mutexes (so two threads are never inside guards of one mutex at
the same time); and when all threads have finished, every mutex is free again. -/
theorem guards_exclude (progs : Nat → Prog) (hp : ∀ t, Spec.OnlyGuards (progs t)) (sched : List Nat) :
    ∃ s es, (State.init progs).run sched = some (s, es) ∧ Spec.Protected es ∧
      ((∀ t, s.code t = []) → ∀ m, s.owner m = none) := by
  obtain ⟨s, es, r1, r2, r3⟩ := inv_run sched _ (inv_init progs hp)
  refine ⟨s, es, r1, r3, fun hd m => ?_⟩
  cases ho : s.owner m with
  | none => rfl
  | some t =>
    have := (r2.own t m).mp ho
    rw [hd t] at this
    cases this

/-- Non-vacuity: two threads, one mutex; the second tries to enter while the first is inside, and waits. -/
example : let progs : Nat → Prog := fun t => if t < 2 then .guarded 5 (.work t) else .skip
    (∀ t, Spec.OnlyGuards (progs t)) ∧
    ((State.init progs).run [0, 1, 0, 1, 0, 1, 1, 1]).map (fun r => (r.2.map fun e => (e.thread, e.instr), r.1.owner 5)) =
      some ([(0, .lock 5 []), (0, .work 0 [5]), (0, .unlock 5 [5]), (1, .lock 5 []), (1, .work 1 [5]), (1, .unlock 5 [5])],
        none) := by
  refine ⟨fun t => ?_, rfl⟩
  by_cases h : t < 2 <;> simp [h, Spec.OnlyGuards]

/-! ### No deadlock when guards are nested in order -/

/-- every lock in the code comes after those it is nested in -/
def Sorted (l : List Instr) : Prop := ∀ i ∈ l, ∀ m h, i = .lock m h → ∀ x ∈ h, x < m

theorem compile_sorted (p : Prog) (h : List Nat) (hp : Spec.Ordered h p) : Sorted (compile h p) := by
  induction p generalizing h with
  | skip => intro i hi; cases hi
  | work n => intro i hi; simp only [compile, List.mem_singleton] at hi; subst hi; intro m h' e; cases e
  | seq p q ihp ihq =>
    intro i hi
    rcases List.mem_append.mp hi with hi | hi
    · exact ihp h hp.1 i hi
    · exact ihq h hp.2 i hi
  | guarded m p ih =>
    intro i hi
    simp only [compile, List.mem_cons, List.mem_append, List.not_mem_nil, or_false] at hi
    rcases hi with rfl | hi | rfl
    · intro m' h' e; cases e; exact hp.1
    · exact ih (m :: h) hp.2 i hi
    · intro m' h' e; cases e
  | unique m p => exact hp.elim
  | tried m p => exact hp.elim
  | deferred p => exact hp.elim
  | lock m => exact hp.elim
  | unlock m => exact hp.elim

theorem Spec.Ordered.onlyGuards (p : Prog) (h : List Nat) (hp : Spec.Ordered h p) : Spec.OnlyGuards p := by
  induction p generalizing h with
  | skip => trivial
  | work n => trivial
  | seq p q ihp ihq => exact ⟨ihp h hp.1, ihq h hp.2⟩
  | guarded m p ih => exact ih (m :: h) hp.2
  | unique m p => exact hp.elim
  | tried m p => exact hp.elim
  | deferred p => exact hp.elim
  | lock m => exact hp.elim
  | unlock m => exact hp.elim

/-- the code of every thread only gets shorter -/
theorem turn_suffix {s s' : State} {t : Nat} {i : Instr} (h : s.turn t = .go s' i) (t' : Nat) :
    s'.code t' <:+ s.code t' := by
  have key : ∀ (r : List Instr) (x : Instr), s.code t = x :: r → upd s.code t r t' <:+ s.code t' := by
    intro r x hc
    by_cases ht : t' = t
    · subst ht; rw [upd_same, hc]; exact List.suffix_cons x r
    · rw [upd_other _ _ ht]; exact List.suffix_refl _
  unfold State.turn at h
  split at h
  · cases h
  · rename_i m h' r hc
    split at h
    · cases h; exact key r _ hc
    · cases h
  · rename_i m h' r hc; cases h; exact key r _ hc
  · rename_i m h' r hc
    split at h
    · cases h; exact key r _ hc
    · cases h
  · rename_i m h' r hc; cases h; exact key r _ hc

theorem run_suffix (sched : List Nat) : ∀ (s s' : State) (es : List Event), s.run sched = some (s', es) →
    ∀ t, s'.code t <:+ s.code t := by
  induction sched with
  | nil => intro s s' es h t; cases h; exact List.suffix_refl _
  | cons a ts ih =>
    intro s s' es h t
    unfold State.run at h
    cases ht : s.turn a with
    | idle =>
      simp only [ht, State.after] at h
      cases hr : s.run ts with
      | none => simp [hr] at h
      | some x => simp only [hr] at h; cases h; exact ih s x.1 x.2 hr t
    | go s1 i =>
      simp only [ht, State.after] at h
      cases hr : s1.run ts with
      | none => simp [hr] at h
      | some x => simp only [hr] at h; cases h; exact (ih s1 x.1 x.2 hr t).trans (turn_suffix ht t)
    | ub => simp [ht, State.after] at h

/-- a maximal element -/
theorem exists_max (l : List Nat) (h : l ≠ []) : ∃ x ∈ l, ∀ y ∈ l, y ≤ x := by
  induction l with
  | nil => exact absurd rfl h
  | cons a l ih =>
    by_cases hl : l = []
    · exact ⟨a, by simp, by simp [hl]⟩
    · obtain ⟨x, x1, x2⟩ := ih hl
      by_cases ha : a ≤ x
      · refine ⟨x, List.mem_cons_of_mem _ x1, fun y hy => ?_⟩
        rcases List.mem_cons.mp hy with rfl | hy
        · exact ha
        · exact x2 y hy
      · refine ⟨a, by simp, fun y hy => ?_⟩
        rcases List.mem_cons.mp hy with rfl | hy
        · exact Nat.le_refl _
        · have := x2 y hy; omega

/-- the mutex a thread's next instruction locks, if it does -/
def wants (s : State) (t : Nat) : List Nat :=
  match s.code t with
  | .lock m _ :: _ => [m]
  | _ => []

/-- **C60, progress.**  If nested guards lock in increasing order, there is never a deadlock: after every schedule of
`N` threads, if some thread has not finished, some thread can go on. -/
theorem ordered_guards_never_deadlock (N : Nat) (progs : Nat → Prog) (hp : ∀ t, t < N → Spec.Ordered [] (progs t))
    (hN : ∀ t, N ≤ t → progs t = .skip) (sched : List Nat) (s : State) (es : List Event)
    (hr : (State.init progs).run sched = some (s, es)) (hu : ∃ t, s.code t ≠ []) :
    ∃ t s' i, s.turn t = .go s' i := by
  have hord : ∀ t, Spec.Ordered [] (progs t) := by
    intro t
    by_cases ht : t < N
    · exact hp t ht
    · rw [hN t (by omega)]; trivial
  obtain ⟨s0, es0, r1, hi, -⟩ := inv_run sched _ (inv_init progs fun t => (hord t).onlyGuards)
  rw [hr] at r1; cases r1
  have hsuf := run_suffix sched _ _ _ hr
  have hsorted : ∀ t, Sorted (s.code t) := fun t i him =>
    compile_sorted (progs t) [] (hord t) i ((hsuf t).subset him)
  have hdone : ∀ t, N ≤ t → s.code t = [] := by
    intro t ht
    have := hsuf t
    simp only [State.init, hN t ht, compile] at this
    exact List.suffix_nil.mp this
  -- suppose nobody can go on
  refine Classical.byContradiction fun hno => ?_
  have hblock : ∀ t, s.code t ≠ [] → ∃ m h r, s.code t = .lock m h :: r ∧ s.owner m ≠ none := by
    intro t ht
    rcases inv_turn hi t with hid | ⟨s', i, hg, -, -⟩
    · unfold State.turn at hid
      split at hid
      · exact absurd (by assumption) ht
      · rename_i m h r hc
        split at hid
        · cases hid
        · exact ⟨m, h, r, hc, by assumption⟩
      · cases hid
      · split at hid <;> cases hid
      · cases hid
    · exact absurd ⟨t, s', i, hg⟩ hno
  obtain ⟨t0, ht0⟩ := hu
  obtain ⟨m0, h0, r0, c0, -⟩ := hblock t0 ht0
  have hlt : ∀ t, s.code t ≠ [] → t < N := by
    intro t ht
    refine Classical.byContradiction fun h => ht (hdone t (by omega))
  have hmem : ∀ t m h r, s.code t = .lock m h :: r → m ∈ (List.range N).flatMap (wants s) := by
    intro t m h r hc
    refine List.mem_flatMap.mpr ⟨t, List.mem_range.mpr (hlt t (by rw [hc]; simp)), ?_⟩
    simp [wants, hc]
  obtain ⟨m, m1, m2⟩ := exists_max ((List.range N).flatMap (wants s))
    (List.ne_nil_of_mem (hmem t0 m0 h0 r0 c0))
  obtain ⟨t, -, hw⟩ := List.mem_flatMap.mp m1
  have hc : ∃ h r, s.code t = .lock m h :: r := by
    unfold wants at hw
    split at hw
    · rename_i m' h r hc
      rw [List.mem_singleton.mp hw]; exact ⟨h, r, hc⟩
    · cases hw
  obtain ⟨h, r, hc⟩ := hc
  obtain ⟨m', h', r', hc', hne⟩ := hblock t (by rw [hc]; simp)
  rw [hc] at hc'; cases hc'
  cases ho : s.owner m with
  | none => exact hne ho
  | some t1 =>
    have hin := (hi.own t1 m).mp ho
    have ht1 : s.code t1 ≠ [] := by intro e; rw [e] at hin; cases hin
    obtain ⟨m1', h1, r1, c1, -⟩ := hblock t1 ht1
    rw [c1] at hin
    have hlt' := hsorted t1 (.lock m1' h1) (by rw [c1]; simp) m1' h1 rfl m hin
    have := m2 m1' (hmem t1 m1' h1 r1 c1)
    omega

/-- Non-vacuity: two threads nesting 1 inside 0; and the classical deadlock when the order differs. -/
example : Spec.Ordered [] (.guarded 0 (.guarded 1 (.work 7))) := by simp [Spec.Ordered]

/-- **Violation.** Any two threads that nest the same two mutexes in opposite orders can get stuck for ever. -/
theorem unordered_guards_deadlock (a b : Nat) (hab : a ≠ b) (p q : Prog) :
    let progs : Nat → Prog := fun t =>
      if t = 0 then .guarded a (.guarded b p) else if t = 1 then .guarded b (.guarded a q) else .skip
    ∃ s es, (State.init progs).run [0, 1] = some (s, es) ∧ s.code 0 ≠ [] ∧ s.code 1 ≠ [] ∧ ∀ t, s.turn t = .idle := by
  intro progs
  have h0 : (State.init progs).code 0 = .lock a [] :: .lock b [a] ::
      (compile [b, a] p ++ [.unlock b [b, a]] ++ [.unlock a [a]]) := by simp [State.init, progs, compile]
  have h1 : (State.init progs).code 1 = .lock b [] :: .lock a [b] ::
      (compile [a, b] q ++ [.unlock a [a, b]] ++ [.unlock b [b]]) := by simp [State.init, progs, compile]
  have t0 : (State.init progs).turn 0 = .go ⟨upd (State.init progs).owner a (some 0), upd (State.init progs).code 0
      (.lock b [a] :: (compile [b, a] p ++ [.unlock b [b, a]] ++ [.unlock a [a]]))⟩ (.lock a []) := by
    unfold State.turn; rw [h0]; exact if_pos rfl
  generalize hs1 : (⟨upd (State.init progs).owner a (some 0), upd (State.init progs).code 0
      (.lock b [a] :: (compile [b, a] p ++ [.unlock b [b, a]] ++ [.unlock a [a]]))⟩ : State) = s1 at t0
  have t1 : s1.turn 1 = .go ⟨upd s1.owner b (some 1), upd s1.code 1
      (.lock a [b] :: (compile [a, b] q ++ [.unlock a [a, b]] ++ [.unlock b [b]]))⟩ (.lock b []) := by
    have hc : s1.code 1 = (State.init progs).code 1 := by rw [← hs1]; rfl
    have ho : s1.owner b = none := by rw [← hs1]; simp [upd, Ne.symm hab, State.init]
    unfold State.turn; rw [hc, h1]; exact if_pos ho
  refine ⟨_, _, by simp only [State.run, t0, t1, State.after]; rfl, ?_, ?_, fun t => ?_⟩
  · simp [upd, ← hs1]
  · simp [upd]
  · by_cases e0 : t = 0
    · subst e0; simp [State.turn, upd, ← hs1]
    · by_cases e1 : t = 1
      · subst e1; simp [State.turn, upd, ← hs1, hab]
      · simp [State.turn, upd, ← hs1, e0, e1, State.init, progs, compile]

/-! ### Violations: `unique_lock` -/

/-- nothing in the code unlocks `m` -/
def NoUnlock (m : Nat) (l : List Instr) : Prop := ∀ h, Instr.unlock m h ∉ l

/-- how often `m` was locked -/
def Spec.locks (m : Nat) (es : List Event) : Nat :=
  (es.filter fun e => match e.instr with | .lock x _ => x == m | _ => false).length

/-- **Violation.**  A `unique_lock` does not unlock when it goes out of scope: a mutex that is used through
`unique_lock` objects (with no explicit `unlock()`, and no guards) is locked at most once, ever, by anyone, under every
schedule. -/
theorem unique_lock_never_unlocks (m : Nat) (progs : Nat → Prog) (hp : ∀ t, NoUnlock m (compile [] (progs t)))
    (sched : List Nat) (s : State) (es : List Event) (hr : (State.init progs).run sched = some (s, es)) :
    Spec.locks m es ≤ 1 := by
  have key : ∀ (sched : List Nat) (s s' : State) (es : List Event), (∀ t, NoUnlock m (s.code t)) →
      s.run sched = some (s', es) → Spec.locks m es ≤ (if s.owner m = none then 1 else 0) := by
    intro sched
    induction sched with
    | nil => intro s s' es _ h; cases h; simp [Spec.locks]
    | cons a ts ih =>
      intro s s' es hn h
      unfold State.run at h
      cases ht : s.turn a with
      | ub => simp [ht, State.after] at h
      | idle =>
        simp only [ht, State.after] at h
        cases hr : s.run ts with
        | none => simp [hr] at h
        | some x => simp only [hr] at h; cases h; exact ih s x.1 x.2 hn hr
      | go s1 i =>
        simp only [ht, State.after] at h
        cases hr : s1.run ts with
        | none => simp [hr] at h
        | some x =>
          simp only [hr] at h
          cases h
          have hn1 : ∀ t, NoUnlock m (s1.code t) := fun t h' hm => hn t h' ((turn_suffix ht t).subset hm)
          have h1 := ih s1 x.1 x.2 hn1 hr
          have hsplit : Spec.locks m ([⟨a, i, s.owner⟩] ++ x.2) =
              (match i with | .lock y _ => if y == m then 1 else 0 | _ => 0) + Spec.locks m x.2 := by
            cases i with
            | lock y h' => by_cases hy : y = m <;> simp [Spec.locks, hy] <;> omega
            | tryLock y h' => simp [Spec.locks]
            | unlock y h' => simp [Spec.locks]
            | work y h' => simp [Spec.locks]
          rw [hsplit]
          unfold State.turn at ht
          split at ht
          · cases ht
          · rename_i y h' r hc
            split at ht
            · rename_i ho
              cases ht
              by_cases hy : y = m
              · subst hy; simp only [upd_same] at h1; simp [ho]; simp at h1; omega
              · simp only [upd_other _ _ (Ne.symm hy)] at h1; simp [hy]; simpa using h1
            · cases ht
          · rename_i y h' r hc
            cases ht
            by_cases hy : y = m
            · subst hy
              by_cases ho : s.owner y = none
              · simp [ho, upd_same] at h1 ⊢; omega
              · simp [ho] at h1 ⊢; exact h1
            · by_cases ho : s.owner y = none
              · simp [ho, upd_other _ _ (Ne.symm hy)] at h1 ⊢; exact h1
              · simp [ho] at h1 ⊢; exact h1
          · rename_i y h' r hc
            split at ht
            · cases ht
              by_cases hy : y = m
              · subst hy
                exact absurd (by rw [hc]; simp) (hn a h')
              · simp only [upd_other _ _ (Ne.symm hy)] at h1; simpa using h1
            · cases ht
          · rename_i y h' r hc
            cases ht
            simpa using h1
  simpa [State.init] using key sched _ s es hp hr

/-- Non-vacuity: two threads that each want a `unique_lock` scope; the second never gets in. -/
example : let progs : Nat → Prog := fun t => if t < 2 then .unique 5 (.work t) else .skip
    (∀ t, NoUnlock 5 (compile [] (progs t))) ∧
    ((State.init progs).run [0, 0, 0, 1, 1, 1]).map (fun r => (r.2.map fun e => (e.thread, e.instr), r.1.code 1)) =
      some ([(0, .lock 5 []), (0, .work 0 [5])], [.lock 5 [], .work 1 [5]]) := by
  refine ⟨fun t h => ?_, rfl⟩
  by_cases ht : t < 2 <;> simp [ht, compile]

/-- **Violation.**  A `unique_lock` with `try_to_lock` drops the result of `try_lock()` and has no `owns_lock()`: if
another thread owns the mutex, the statement behind it runs all the same, and `unlock()` is undefined. -/
theorem try_to_lock_unprotected (s : State) (t t' m n : Nat) (h : List Nat) (r : List Instr) (ho : s.owner m = some t')
    (hne : t' ≠ t) (hc : s.code t = compile h (.tried m (.seq (.work n) (.unlock m))) ++ r) :
    (∃ s' es, s.run [t, t] = some (s', es) ∧ ¬ Spec.Protected es) ∧ s.run [t, t, t] = none := by
  simp only [compile, List.cons_append, List.nil_append] at hc
  have e1 : s.turn t = .go ⟨s.owner, upd s.code t (.work n (m :: h) :: .unlock m (m :: h) :: r)⟩ (.tryLock m h) := by
    simp [State.turn, hc, ho]
  have e2 : (⟨s.owner, upd s.code t (.work n (m :: h) :: .unlock m (m :: h) :: r)⟩ : State).turn t =
      .go ⟨s.owner, upd (upd s.code t (.work n (m :: h) :: .unlock m (m :: h) :: r)) t (.unlock m (m :: h) :: r)⟩
        (.work n (m :: h)) := by
    simp [State.turn, upd_same]
  refine ⟨⟨⟨s.owner, upd (upd s.code t (.work n (m :: h) :: .unlock m (m :: h) :: r)) t (.unlock m (m :: h) :: r)⟩,
    [⟨t, .tryLock m h, s.owner⟩, ⟨t, .work n (m :: h), s.owner⟩], ?_, ?_⟩, ?_⟩
  · simp [State.run, e1, State.after, e2]
  · intro hp
    have := hp ⟨t, .work n (m :: h), s.owner⟩ (by simp) n (m :: h) rfl m (by simp)
    simp only [ho, Option.some.injEq] at this
    exact hne this
  · have e3 : (⟨s.owner, upd (upd s.code t (.work n (m :: h) :: .unlock m (m :: h) :: r)) t
        (.unlock m (m :: h) :: r)⟩ : State).turn t = .ub := by
      simp [State.turn, upd_same, ho, hne]
    simp [State.run, e1, State.after, e2, e3]

/-- Non-vacuity: thread 0 inside a guard of mutex 5, thread 1 trying. -/
example : let progs : Nat → Prog := fun t =>
      if t = 0 then .guarded 5 (.work 0) else if t = 1 then .tried 5 (.seq (.work 1) (.unlock 5)) else .skip
    (State.init progs).run [0, 1, 1, 1] = none := rfl

end Verif.Locks
