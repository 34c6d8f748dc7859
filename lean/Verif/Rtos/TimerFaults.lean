import Verif.Rtos.TimerProps

/-!
# C86: what goes wrong with software timers outside `Spec.legal`, and in their destructors
-/
namespace Verif.Rtos.Timers
open Verif.Rtos

/-- `s` is reached from the start by a program that keeps to `Spec.legal`, and `tr` is what was seen on the way -/
def Spec.Reached (cap hz : Nat) (s : State) (tr : List Ev) : Prop :=
  ∃ ops, Spec.legalRun cap hz ops State.init ∧ run cap hz ops State.init = .ok (s, tr)

theorem Spec.Reached.inv {cap hz : Nat} {s : State} {tr : List Ev} (h : Spec.Reached cap hz s tr) : Inv s tr := by
  obtain ⟨ops, hl, hr⟩ := h
  rcases run_ok cap hz ops State.init [] inv_init hl with ⟨s1, e1, h1, h2⟩ | hb
  · rw [hr] at h1
    simp only [Ker.ok.injEq, Prod.mk.injEq] at h1
    obtain ⟨rfl, rfl⟩ := h1
    exact h2
  · rw [hr] at hb; cases hb

theorem Spec.Reached.living {cap hz : Nat} {s : State} {tr : List Ev} (hr : Spec.Reached cap hz s tr) {h : Nat} {ob : Obj}
    (hl : s.living h = some ob) : s.objs[h]? = some (some ob) ∧ ob.ended = false ∧ ob.handle = some h ∧
      ∃ t, s.tmrs[h]? = some t ∧ ob.owns = t.static ∧ (t.mem = true) ∧ .delete ∉ Spec.accepted h tr := by
  have hi := hr.inv
  obtain ⟨h1, h2⟩ := living_iff.mp hl
  obtain ⟨t, ht⟩ := getElem?_tmrs hi h1
  obtain ⟨done, ti⟩ := hi.each h t _ ht h1
  obtain ⟨h3, h4⟩ := ti.hnd ob rfl
  have h5 := ti.opn ob rfl h2
  refine ⟨h1, h2, h3, t, ht, h4, ?_, h5⟩
  cases hm : t.mem with
  | true => rfl
  | false =>
    cases hst : t.static with
    | true => have := (ti.stat hst).mp hm; cases this
    | false =>
      have := (ti.dyn hst).mp hm
      exact absurd (by rw [ti.acc]; exact List.mem_append_left _ this) h5

/-- The destructor waits for a tenth of a second, in whole ticks. -/
theorem destructor_wait (hz : Nat) (h0 : 0 < hz) (h1 : hz < 2 ^ 32) :
    ticksOf hz ⟨Chrono.i64, ⟨1, 1000⟩, 100⟩ = some (dtorTicks hz) := by
  have hp : Chrono.Ratio.Pos ⟨1, 1000⟩ := ⟨by decide, by decide⟩
  have hq : Chrono.Ratio.Pos ⟨1, hz⟩ := ⟨by simp, by simpa using h0⟩
  obtain ⟨⟨hn, hd⟩, h2⟩ := Chrono.divide_pos hp hq
  obtain ⟨_, _, h3⟩ := Chrono.ratio_divide_spec ⟨1, 1000⟩ ⟨1, hz⟩ (by decide) (by simp)
  simp only [Int.mul_one, Int.one_mul] at h2
  have h4 : (Chrono.ratioDivide ⟨1, 1000⟩ ⟨1, hz⟩).den ∣ 1000 := by
    rw [← Int.natAbs_dvd_natAbs]
    refine Nat.Coprime.dvd_of_dvd_mul_left (m := (Chrono.ratioDivide ⟨1, 1000⟩ ⟨1, hz⟩).num.natAbs) ?_ ?_
    · rw [Nat.Coprime, Nat.gcd_comm]; exact h3
    · rw [← Int.natAbs_mul, Int.natAbs_dvd_natAbs]
      exact ⟨hz, by rw [h2, Int.mul_comm]⟩
  have h5 := Int.le_of_dvd (by decide) h4
  have h6 : (Chrono.ratioDivide ⟨1, 1000⟩ ⟨1, hz⟩).num ≤ hz := by
    have : (hz : Int) * (Chrono.ratioDivide ⟨1, 1000⟩ ⟨1, hz⟩).den ≤ hz * 1000 :=
      Int.mul_le_mul_of_nonneg_left h5 (by omega)
    omega
  obtain ⟨n, e, e1, e2⟩ := timeout_ticks hz h0 ⟨Chrono.i64, ⟨1, 1000⟩, 100⟩ hp (by decide) (by decide) (by decide)
    (by simp only [Chrono.i64, Chrono.Rep.inRange]; simp; omega)
    (by
      simp only [Int.one_mul]
      rw [Int.tdiv_eq_ediv_of_nonneg (by omega)]
      omega)
  rw [e]
  simp only [Int.mul_one] at e1 e2
  congr 1
  unfold dtorTicks
  omega

theorem wait_refused {α : Type} (hz : Nat) (h1 : hz < 2 ^ 32) (r : α) : waitFor (dtorTicks hz) true r = .ok r := by
  unfold waitFor
  split
  · rfl
  · rw [if_pos]
    simp only [Bool.true_and, bne_iff_ne, ne_eq, dtorTicks, maxDelay]
    omega

/-- **Violation.** If the timer task's queue stays full while the destructor waits, the deletion is given up and nobody is
told: the memory of the timer is never released, whatever happens next, and an auto-reload timer that was running goes on
running, its callback with it. -/
theorem refused_destructor_leaks (cap hz : Nat) (hhz : hz < 2 ^ 32) (s : State) (tr : List Ev) (h : Nat) (ob : Obj) (t : Tmr)
    (hr : Spec.Reached cap hz s tr) (hl : s.living h = some ob) (ht : s.tmrs[h]? = some t) (hs : t.static = false)
    (hq : cap ≤ s.queue.length) :
    ∃ s1, step cap hz s (.destroy h true) = .ok (s1, [.sent h .delete false]) ∧
      ∀ ops s2 tr2, Spec.legalRun cap hz ops s1 → run cap hz ops s1 = .ok (s2, tr2) →
        s2.memAt h ∧
        (t.autoReload = true → t.active = true → s.pending h = [] →
          s2.activeAt h ∧ ∃ s3, step cap hz s2 (.expire h) = .ok (s3, [.fired h])) := by
  have hi := hr.inv
  obtain ⟨h1, h2, h3, t', ht', h4, hm, h5⟩ := hr.living hl
  rw [ht] at ht'
  cases ht'
  have hst : step cap hz s (.destroy h true) =
      .ok ({ s with objs := s.objs.set h (some { ob with ended := true }) }, [.sent h .delete false]) := by
    simp only [step, hl, request, h3]
    rw [if_neg (by simp), post, if_neg (by simp only; omega), wait_refused hz hhz]
  refine ⟨_, hst, ?_⟩
  intro ops s2 tr2 hl2 hr2
  have hi1 : Inv { s with objs := s.objs.set h (some { ob with ended := true }) } (tr ++ [.sent h .delete false]) := by
    rcases step_ok cap hz s tr (.destroy h true) hi ⟨ob, hl⟩ with ⟨sx, ex, hx, hix⟩ | hb
    · rw [hst] at hx
      simp only [Ker.ok.injEq, Prod.mk.injEq] at hx
      obtain ⟨rfl, rfl⟩ := hx
      exact hix
    · rw [hst] at hb; cases hb
  have hlo : h < s.objs.length := (List.getElem?_eq_some_iff.mp h1).1
  have hd : State.living { s with objs := s.objs.set h (some { ob with ended := true }) } h = none := by
    unfold State.living
    simp [hlo]
  obtain ⟨b0, b1, b2, ⟨k, b3⟩, t2, b4, b5, b6⟩ := dead_run ops hi1 hl2 ht hd hr2
  obtain ⟨ob2, ho2⟩ := getElem?_objs b0 b4
  obtain ⟨done, ti⟩ := b0.each h t2 ob2 b4 ho2
  have hacc : Spec.accepted h (tr ++ [.sent h .delete false] ++ tr2) = Spec.accepted h tr := by
    rw [accepted_append, accepted_append, b2]
    simp [Spec.accepted]
  have hm2 : t2.mem = true := by
    cases hm2 : t2.mem with
    | true => rfl
    | false =>
      have := (ti.dyn (by rw [b5, hs])).mp hm2
      exact absurd (by rw [← hacc, ti.acc]; exact List.mem_append_left _ this) h5
  refine ⟨⟨t2, b4, hm2⟩, ?_⟩
  intro ha hact hp
  have hp2 : s2.pending h = [] := by
    rw [b3]
    have : State.pending { s with objs := s.objs.set h (some { ob with ended := true }) } h = s.pending h := rfl
    rw [this, hp]; simp
  obtain ⟨done0, ti0⟩ := hi.each h t _ ht h1
  have e0 := ti0.acc
  rw [hp, List.append_nil] at e0
  have e1 := ti.acc
  rw [hp2, List.append_nil, hacc, e0] at e1
  have hact2 : t2.active = true := ti.on (Or.inl (by rw [b6, ha])) (by rw [← e1]; exact ti0.act hact)
  exact ⟨⟨t2, b4, hact2⟩, { s2 with tmrs := s2.tmrs.set h { t2 with active := t2.autoReload } },
    by simp only [step, b4, hact2, hm2, if_true]⟩

/-- **Violation.** The destructor only asks for the deletion: the callback can still run after the wrapper, and with it
whatever the program kept beside it, is gone. -/
theorem fires_after_destructor (cap hz : Nat) (s : State) (tr : List Ev) (h : Nat) (ob : Obj) (t : Tmr) (to : Bool)
    (hr : Spec.Reached cap hz s tr) (hl : s.living h = some ob) (ht : s.tmrs[h]? = some t) (hs : t.static = false)
    (ha : t.active = true) (hq : s.queue.length < cap) :
    ∃ s', run cap hz [.destroy h to, .gone h, .expire h] s = .ok (s', [.sent h .delete true, .fired h]) ∧
      s'.objs[h]? = some none := by
  obtain ⟨h1, h2, h3, t', ht', h4, hm, h5⟩ := hr.living hl
  rw [ht] at ht'
  cases ht'
  obtain ⟨hdl, ow, en⟩ := ob
  simp only at h2 h3 h4
  subst h2 h3
  have hlo : h < s.objs.length := (List.getElem?_eq_some_iff.mp h1).1
  rw [hs] at h4
  subst h4
  refine ⟨⟨s.tmrs.set h { t with active := t.autoReload }, s.queue ++ [(h, .delete)],
    (s.objs.set h (some (Obj.mk (some h) false true))).set h none⟩, ?_, by simp [hlo]⟩
  have hset : (s.objs.set h (some (Obj.mk (some h) false true)))[h]? = some (some (Obj.mk (some h) false true)) := by simp [hlo]
  have h1' : step cap hz s (.destroy h to) =
      .ok (⟨s.tmrs, s.queue ++ [(h, .delete)], s.objs.set h (some (Obj.mk (some h) false true))⟩, [.sent h .delete true]) := by
    simp only [step, hl, request, post]
    rw [if_neg (by simp), if_pos hq]
  have h2' : step cap hz ⟨s.tmrs, s.queue ++ [(h, .delete)], s.objs.set h (some (Obj.mk (some h) false true))⟩ (.gone h) =
      .ok (⟨s.tmrs, s.queue ++ [(h, .delete)], (s.objs.set h (some (Obj.mk (some h) false true))).set h none⟩, []) := by
    simp only [step, hset, if_true]
  have h3' : step cap hz ⟨s.tmrs, s.queue ++ [(h, .delete)], (s.objs.set h (some (Obj.mk (some h) false true))).set h none⟩ (.expire h) =
      .ok (⟨s.tmrs.set h { t with active := t.autoReload }, s.queue ++ [(h, .delete)],
        (s.objs.set h (some (Obj.mk (some h) false true))).set h none⟩, [.fired h]) := by
    simp only [step, ht, ha, hm, if_true]
  simp only [run, h1', Ker.bind]
  simp only [h2', Ker.bind]
  simp only [h3', Ker.bind]
  rfl

/-! ### Draining the queue -/

theorem run_ub_cons {cap hz : Nat} {s s' : State} {e : List Ev} {op : Op} {ops : List Op}
    (h1 : step cap hz s op = .ok (s', e)) (h2 : run cap hz ops s' = .ub) : run cap hz (op :: ops) s = .ub := by
  simp only [run, h1, Ker.bind, h2]

theorem drain_dead (cap hz : Nat) (q : List (Nat × Cmd)) (ts : List Tmr) (os : List (Option Obj)) (h : Nat) (t : Tmr) (c : Cmd)
    (hm : (h, c) ∈ q) (ht : ts[h]? = some t) (hd : t.mem = false) :
    run cap hz (List.replicate q.length .daemon) ⟨ts, q, os⟩ = .ub := by
  induction q generalizing ts with
  | nil => cases hm
  | cons p q ih =>
    obtain ⟨g, d⟩ := p
    rw [List.length_cons, List.replicate_succ]
    cases hg : ts[g]? with
    | none => simp only [run, step, hg, Ker.bind]
    | some u =>
      cases hu : u.mem with
      | false => simp only [run, step, hg, hu, Ker.bind, Bool.false_eq_true, if_false]
      | true =>
        have hne : g ≠ h := by
          rintro rfl
          rw [ht] at hg; cases hg; rw [hd] at hu; cases hu
        have hm' : (h, c) ∈ q := by
          rcases List.mem_cons.mp hm with e | e
          · cases e; exact absurd rfl hne
          · exact e
        refine run_ub_cons (s' := ⟨ts.set g (u.obey d), q, os⟩) (e := []) (by simp only [step, hg, hu, if_true]) ?_
        exact ih _ hm' (by simp [List.getElem?_set, hne, ht])

theorem drain_twice (cap hz : Nat) (q q' : List (Nat × Cmd)) (ts : List Tmr) (os : List (Option Obj)) (h : Nat) (t : Tmr) (c : Cmd)
    (hm : (h, c) ∈ q') (ht : ts[h]? = some t) (hd : t.static = false) :
    run cap hz (List.replicate (q ++ (h, Cmd.delete) :: q').length .daemon) ⟨ts, q ++ (h, .delete) :: q', os⟩ = .ub := by
  induction q generalizing ts t with
  | nil =>
    rw [List.nil_append, List.length_cons, List.replicate_succ]
    cases hu : t.mem with
    | false => simp only [run, step, ht, hu, Ker.bind, Bool.false_eq_true, if_false]
    | true =>
      have hlt := (List.getElem?_eq_some_iff.mp ht).1
      refine run_ub_cons (s' := ⟨ts.set h (t.obey .delete), q', os⟩) (e := []) (by simp only [step, ht, hu, if_true]) ?_
      exact drain_dead cap hz q' _ os h (t.obey .delete) c hm (by simp [hlt]) (by simp [Tmr.obey, hd])
  | cons p q ih =>
    obtain ⟨g, d⟩ := p
    rw [List.cons_append, List.length_cons, List.replicate_succ]
    cases hg : ts[g]? with
    | none => simp only [run, step, hg, Ker.bind]
    | some u =>
      cases hu : u.mem with
      | false => simp only [run, step, hg, hu, Ker.bind, Bool.false_eq_true, if_false]
      | true =>
        refine run_ub_cons (s' := ⟨ts.set g (u.obey d), q ++ (h, .delete) :: q', os⟩) (e := [])
          (by simp only [step, hg, hu, if_true]) ?_
        by_cases e : g = h
        · subst e
          have hlt := (List.getElem?_eq_some_iff.mp ht).1
          rw [ht] at hg
          cases hg
          exact ih _ (t.obey d) (by simp [hlt]) (by cases d <;> exact hd)
        · exact ih _ t (by simp [List.getElem?_set, e, ht]) hd

/-- **Violation.** A static timer's memory is a member of the wrapper: when the wrapper goes out of scope, its storage ends
right after the destructor has asked for the deletion.  The timer task then works on memory that is gone, if the timer expires
first or, at the latest, when it comes to the deletion. -/
theorem static_storage_gone (cap hz : Nat) (s : State) (tr : List Ev) (h : Nat) (ob : Obj) (t : Tmr) (to : Bool)
    (hr : Spec.Reached cap hz s tr) (hl : s.living h = some ob) (ht : s.tmrs[h]? = some t) (hs : t.static = true)
    (hq : s.queue.length < cap) :
    run cap hz ([.destroy h to, .gone h] ++ List.replicate (s.queue.length + 1) .daemon) s = .ub ∧
    (t.active = true → run cap hz [.destroy h to, .gone h, .expire h] s = .ub) := by
  obtain ⟨h1, h2, h3, t', ht', h4, hm, h5⟩ := hr.living hl
  rw [ht] at ht'
  cases ht'
  obtain ⟨hdl, ow, en⟩ := ob
  simp only at h2 h3 h4
  subst h2 h3
  have hlo : h < s.objs.length := (List.getElem?_eq_some_iff.mp h1).1
  have hlt := (List.getElem?_eq_some_iff.mp ht).1
  rw [hs] at h4
  subst h4
  have hset : (s.objs.set h (some (Obj.mk (some h) true true)))[h]? = some (some (Obj.mk (some h) true true)) := by
    simp [hlo]
  have hst1 : step cap hz s (.destroy h to) =
      .ok (⟨s.tmrs, s.queue ++ [(h, .delete)], s.objs.set h (some (Obj.mk (some h) true true))⟩, [.sent h .delete true]) := by
    simp only [step, hl, request, post]
    rw [if_neg (by simp), if_pos hq]
  have hst2 : step cap hz ⟨s.tmrs, s.queue ++ [(h, .delete)], s.objs.set h (some (Obj.mk (some h) true true))⟩ (.gone h) =
      .ok (⟨s.tmrs.set h { t with mem := false }, s.queue ++ [(h, .delete)],
        (s.objs.set h (some (Obj.mk (some h) true true))).set h none⟩, []) := by
    simp only [step, hset, if_true, ht]
  constructor
  · refine run_ub_cons hst1 (run_ub_cons hst2 ?_)
    have := drain_dead cap hz (s.queue ++ [(h, .delete)]) (s.tmrs.set h { t with mem := false })
      ((s.objs.set h (some (Obj.mk (some h) true true))).set h none) h { t with mem := false } .delete
      (by simp) (by simp [hlt]) rfl
    simpa using this
  · intro ha
    refine run_ub_cons hst1 (run_ub_cons hst2 ?_)
    simp only [run, step, List.getElem?_set_self hlt, ha, if_true, Bool.false_eq_true, if_false, Ker.bind]

/-- **Violation.** The destructor also deletes a timer that has been deleted with `free`, and one that a copy of the wrapper
deletes as well: the timer task then works on memory it has released. -/
theorem deleted_twice (cap hz : Nat) (s : State) (tr : List Ev) (h : Nat) (ob : Obj) (t : Tmr) (k : Nat) (to to' : Bool)
    (hr : Spec.Reached cap hz s tr) (hl : s.living h = some ob) (ht : s.tmrs[h]? = some t) (hs : t.static = false)
    (hq : s.queue.length + 1 < cap) :
    run cap hz ([.send h .delete k to, .destroy h to'] ++ List.replicate (s.queue.length + 2) .daemon) s = .ub ∧
    run cap hz ([.copy h, .destroy h to, .destroy s.objs.length to'] ++ List.replicate (s.queue.length + 2) .daemon) s = .ub := by
  obtain ⟨h1, h2, h3, t', ht', h4, hm, h5⟩ := hr.living hl
  rw [ht] at ht'
  cases ht'
  obtain ⟨hdl, ow, en⟩ := ob
  simp only at h2 h3 h4
  subst h2 h3
  have hlo : h < s.objs.length := (List.getElem?_eq_some_iff.mp h1).1
  constructor
  · refine run_ub_cons (s' := ⟨s.tmrs, s.queue ++ [(h, .delete)], s.objs⟩) (e := [.sent h .delete true]) ?_ ?_
    · simp only [step, hl, request, post]
      rw [if_neg (by simp), if_pos (by omega)]
    · refine run_ub_cons (s' := ⟨s.tmrs, s.queue ++ [(h, .delete)] ++ [(h, .delete)],
        s.objs.set h (some (Obj.mk (some h) ow true))⟩) (e := [.sent h .delete true]) ?_ ?_
      · have hl' : State.living ⟨s.tmrs, s.queue ++ [(h, .delete)], s.objs⟩ h = some (Obj.mk (some h) ow false) := hl
        simp only [step, hl', request, post]
        rw [if_neg (by simp), if_pos (by simp; omega)]
      · have := drain_twice cap hz s.queue [(h, .delete)] s.tmrs (s.objs.set h (some (Obj.mk (some h) ow true))) h t .delete
          (by simp) ht hs
        simpa using this
  · refine run_ub_cons (s' := ⟨s.tmrs, s.queue, s.objs ++ [some (Obj.mk (some h) false false)]⟩) (e := []) ?_ ?_
    · simp only [step, hl]
    · have hl1 : State.living ⟨s.tmrs, s.queue, s.objs ++ [some (Obj.mk (some h) false false)]⟩ h = some (Obj.mk (some h) ow false) := by
        unfold State.living
        simp only [List.getElem?_append_left hlo, h1, Bool.false_eq_true, if_false]
      refine run_ub_cons (s' := ⟨s.tmrs, s.queue ++ [(h, .delete)],
        (s.objs ++ [some (Obj.mk (some h) false false)]).set h (some (Obj.mk (some h) ow true))⟩) (e := [.sent h .delete true]) ?_ ?_
      · simp only [step, hl1, request, post]
        rw [if_neg (by simp), if_pos (by omega)]
      · have hl2 : State.living ⟨s.tmrs, s.queue ++ [(h, .delete)],
            (s.objs ++ [some (Obj.mk (some h) false false)]).set h (some (Obj.mk (some h) ow true))⟩ s.objs.length =
            some (Obj.mk (some h) false false) := by
          unfold State.living
          have : h ≠ s.objs.length := by omega
          simp [List.getElem?_set, this]
        refine run_ub_cons (s' := ⟨s.tmrs, s.queue ++ [(h, .delete)] ++ [(h, .delete)],
          ((s.objs ++ [some (Obj.mk (some h) false false)]).set h (some (Obj.mk (some h) ow true))).set s.objs.length
            (some (Obj.mk (some h) false true))⟩) (e := [.sent h .delete true]) ?_ ?_
        · simp only [step, hl2, request, post]
          rw [if_neg (by simp), if_pos (by simp; omega)]
        · have := drain_twice cap hz s.queue [(h, .delete)] s.tmrs
            (((s.objs ++ [some (Obj.mk (some h) false false)]).set h (some (Obj.mk (some h) ow true))).set s.objs.length
            (some (Obj.mk (some h) false true))) h t .delete (by simp) ht hs
          simpa using this

/-- **Violation.** A period that is positive but shorter than a tick becomes 0 ticks, which the kernel does not accept: making
such a timer, or giving a timer such a period, stops the program. -/
theorem short_period_stops (cap hz : Nat) (hhz : 0 < hz) (d : Chrono.Dur) (hp : d.period.Pos) (hd : d.rep.inRange d.count)
    (hdb : 0 < d.rep.bits) (h0 : 0 ≤ d.count) (hI : Chrono.i64.inRange (d.count * (Chrono.ratioDivide d.period ⟨1, hz⟩).num))
    (hsm : d.count * d.period.num * hz < d.period.den) :
    ticksOf hz d = some 0 ∧
    (∀ s st ar mem, step cap hz s (.create st ar 0 mem) = .abort) ∧
    (∀ s o ob k to, s.living o = some ob → step cap hz s (.send o (.period 0) k to) = .abort) := by
  have hnn : 0 ≤ d.count * (d.period.num * hz) := Int.mul_nonneg h0 (Int.mul_nonneg (Int.le_of_lt hp.1) (by omega))
  have hz0 : (d.count * (d.period.num * hz)).tdiv d.period.den = 0 := by
    rw [← Int.mul_assoc] at hnn ⊢
    exact Int.tdiv_eq_zero_of_lt hnn hsm
  refine ⟨?_, ?_, ?_⟩
  · obtain ⟨n, e, h1, -⟩ := timeout_ticks hz hhz d hp hd hdb h0 hI (by rw [hz0]; decide)
    cases n with
    | zero => exact e
    | succ n =>
      exfalso
      have h2 : (d.period.den : Int) ≤ ((n + 1 : Nat) : Int) * d.period.den := by
        have := Int.mul_le_mul_of_nonneg_right (show (1 : Int) ≤ ((n + 1 : Nat) : Int) by omega) (Int.le_of_lt hp.2)
        rwa [Int.one_mul] at this
      exact absurd (Int.lt_of_le_of_lt (Int.le_trans h2 h1) hsm) (Int.lt_irrefl _)
  · intro s st ar mem; simp [step]
  · intro s o ob k to hl
    simp only [step, hl, request]
    cases ob.handle <;> simp

/-- **Violation.** A timer for which the kernel had no memory has a null handle, which the constructor does not report: any
request on it stops the program, and so does its destructor. -/
theorem no_memory_stops (cap hz : Nat) (s : State) (ar : Bool) (p : Nat) (hp : 0 < p) (c : Cmd) (k : Nat) (to : Bool) :
    run cap hz [.create false ar p false, .send s.objs.length c k to] s = .abort ∧
    run cap hz [.create false ar p false, .destroy s.objs.length to] s = .abort := by
  have hl : State.living { s with objs := s.objs ++ [some ⟨none, false, false⟩] } s.objs.length = some ⟨none, false, false⟩ := by
    unfold State.living; simp
  have hne : p ≠ 0 := by omega
  constructor <;>
    simp only [run, step, hne, if_false, Bool.or_self, Bool.false_eq_true, Ker.bind, hl, request]

/-! ### Examples -/

/-- a running timer of each kind, and the queue empty again -/
def exStart : List Op :=
  [.create false true 5 true, .create true false 3 true, .send 0 .start 0 false, .send 1 .start 0 false, .daemon, .daemon]

theorem exStart_run : run 2 100 exStart State.init =
    .ok (⟨[⟨true, false, true, true, 5⟩, ⟨true, true, true, false, 3⟩], [],
      [some ⟨some 0, false, false⟩, some ⟨some 1, true, false⟩]⟩, [.sent 0 .start true, .sent 1 .start true]) := by
  decide +kernel

/-- a legal step that is known -/
theorem legalRun_cons {cap hz : Nat} {s s' : State} {e : List Ev} {op : Op} {ops : List Op} (h1 : Spec.legal s op)
    (h2 : step cap hz s op = .ok (s', e)) (h3 : Spec.legalRun cap hz ops s') : Spec.legalRun cap hz (op :: ops) s := by
  refine ⟨h1, ?_⟩
  intro s2 e2 h
  rw [h2] at h
  simp only [Ker.ok.injEq, Prod.mk.injEq] at h
  rw [← h.1]
  exact h3

theorem exStart_legal : Spec.legalRun 2 100 exStart State.init := by
  refine legalRun_cons ⟨by decide, by decide⟩ (by rfl) ?_
  refine legalRun_cons ⟨by decide, by decide⟩ (by rfl) ?_
  refine legalRun_cons ⟨⟨_, by rfl⟩, by decide, by decide⟩ (by rfl) ?_
  refine legalRun_cons ⟨⟨_, by rfl⟩, by decide, by decide⟩ (by rfl) ?_
  refine legalRun_cons trivial (by rfl) ?_
  exact legalRun_cons trivial (by rfl) trivial

/-- The running timers of `exStart` meet the hypotheses of the theorems on destructors: the first is dynamic and reloads
itself, the second is static; there is room on the queue for two requests. -/
example : ∃ s tr, Spec.Reached 2 100 s tr ∧
    s.tmrs[0]? = some ⟨true, false, true, true, 5⟩ ∧ s.living 0 = some ⟨some 0, false, false⟩ ∧
    s.tmrs[1]? = some ⟨true, true, true, false, 3⟩ ∧ s.living 1 = some ⟨some 1, true, false⟩ ∧
    s.pending 0 = [] ∧ s.queue.length + 1 < 2 :=
  ⟨_, _, ⟨exStart, exStart_legal, exStart_run⟩, rfl, rfl, rfl, rfl, rfl, by decide⟩

/-- The queue full of requests for the second timer, as in `refused_destructor_leaks`. -/
example : ∃ s tr, Spec.Reached 2 100 s tr ∧ s.living 0 = some ⟨some 0, false, false⟩ ∧
    s.tmrs[0]? = some ⟨true, false, true, true, 5⟩ ∧ s.pending 0 = [] ∧ 2 ≤ s.queue.length := by
  refine ⟨_, _, ⟨exStart ++ [.send 1 .stop 0 false, .send 1 .start 0 false], ?_, by rfl⟩, rfl, rfl, rfl, by decide⟩
  refine legalRun_cons ⟨by decide, by decide⟩ (by rfl) ?_
  refine legalRun_cons ⟨by decide, by decide⟩ (by rfl) ?_
  refine legalRun_cons ⟨⟨_, by rfl⟩, by decide, by decide⟩ (by rfl) ?_
  refine legalRun_cons ⟨⟨_, by rfl⟩, by decide, by decide⟩ (by rfl) ?_
  refine legalRun_cons trivial (by rfl) ?_
  refine legalRun_cons trivial (by rfl) ?_
  refine legalRun_cons ⟨⟨_, by rfl⟩, by decide, by decide⟩ (by rfl) ?_
  exact legalRun_cons ⟨⟨_, by rfl⟩, by decide, by decide⟩ (by rfl) trivial

/-- A whole life, legal to the end: the static timer fires once, both are deleted, and the static one's storage ends last. -/
def exLife : List Op :=
  exStart ++ [.expire 0, .expire 1, .expire 0, .destroy 0 false, .gone 0, .destroy 1 false, .daemon, .daemon, .gone 1]

example : Spec.legalRun 2 100 exLife State.init ∧
    ∃ s tr, run 2 100 exLife State.init = .ok (s, tr) ∧ Spec.accepted 0 tr = [.start, .delete] ∧ Spec.firedN 0 tr = 2 ∧
      Spec.firedN 1 tr = 1 ∧ s.pending 0 = [] := by
  constructor
  · refine legalRun_cons ⟨by decide, by decide⟩ (by rfl) ?_
    refine legalRun_cons ⟨by decide, by decide⟩ (by rfl) ?_
    refine legalRun_cons ⟨⟨_, by rfl⟩, by decide, by decide⟩ (by rfl) ?_
    refine legalRun_cons ⟨⟨_, by rfl⟩, by decide, by decide⟩ (by rfl) ?_
    refine legalRun_cons trivial (by rfl) ?_
    refine legalRun_cons trivial (by rfl) ?_
    refine legalRun_cons trivial (by rfl) ?_
    refine legalRun_cons trivial (by rfl) ?_
    refine legalRun_cons trivial (by rfl) ?_
    refine legalRun_cons ⟨_, by rfl⟩ (by rfl) ?_
    refine legalRun_cons ⟨_, by rfl, rfl, by simp⟩ (by rfl) ?_
    refine legalRun_cons ⟨_, by rfl⟩ (by rfl) ?_
    refine legalRun_cons trivial (by rfl) ?_
    refine legalRun_cons trivial (by rfl) ?_
    refine legalRun_cons ⟨_, by rfl, rfl, ?_⟩ (by rfl) trivial
    intro _ h hh
    simp only [Option.some.injEq] at hh
    subst hh
    refine ⟨rfl, ?_⟩
    rintro ⟨t, ht, ha⟩
    simp at ht
    subst ht
    cases ha
  · exact ⟨_, _, by rfl, by decide, by decide, by decide, rfl⟩

/-- 5 ms at 100 Hz. -/
example : ticksOf 100 ⟨Chrono.i64, ⟨1, 1000⟩, 5⟩ = some 0 := by decide +kernel

end Verif.Rtos.Timers
