import Verif.Rtos.Timers

/-!
# C86: properties of FreeRTOS software timers
-/
namespace Verif.Rtos.Timers
open Verif.Rtos

/-- how often the callback of timer `h` ran -/
def Spec.firedN (h : Nat) (tr : List Ev) : Nat := tr.count (.fired h)

theorem accepted_append (h : Nat) (a b : List Ev) : Spec.accepted h (a ++ b) = Spec.accepted h a ++ Spec.accepted h b := by
  induction a with
  | nil => rfl
  | cons e l ih =>
    cases e with
    | fired h' => simpa [Spec.accepted] using ih
    | sent h' c ok =>
      cases ok with
      | false => simpa [Spec.accepted] using ih
      | true =>
        simp only [List.cons_append, Spec.accepted]
        split
        · rw [ih]; rfl
        · exact ih

theorem pending_push (s : State) (h : Nat) (c : Cmd) (i : Nat) :
    State.pending { s with queue := s.queue ++ [(h, c)] } i = if h = i then s.pending i ++ [c] else s.pending i := by
  unfold State.pending
  simp only [List.filter_append, List.map_append]
  by_cases e : h = i <;> simp [e]

theorem pending_cons (ts : List Tmr) (q : List (Nat × Cmd)) (os : List (Option Obj)) (h : Nat) (c : Cmd) (i : Nat) :
    State.pending ⟨ts, (h, c) :: q, os⟩ i = if h = i then c :: State.pending ⟨ts, q, os⟩ i else State.pending ⟨ts, q, os⟩ i := by
  unfold State.pending
  by_cases e : h = i <;> simp [e]

/-- the period last asked for -/
def Spec.lastPeriod : List Cmd → Option Nat
  | [] => none
  | .period p :: l => (Spec.lastPeriod l).or (some p)
  | _ :: l => Spec.lastPeriod l

theorem Spec.lastPeriod_concat (l : List Cmd) (c : Cmd) :
    Spec.lastPeriod (l ++ [c]) = match c with | .period p => some p | _ => Spec.lastPeriod l := by
  induction l with
  | nil => cases c <;> rfl
  | cons x l ih =>
    cases c <;> cases x <;> simp_all [Spec.lastPeriod]

/-- what is true of one timer: `P` pending, `a` accepted, `n` callbacks, `done` carried out -/
structure TI (P a : List Cmd) (n : Nat) (t : Tmr) (ob : Option Obj) (i : Nat) (done : List Cmd) : Prop where
  acc : a = done ++ P
  dlast : .delete ∉ a.dropLast
  hnd : ∀ o, ob = some o → o.handle = some i ∧ o.owns = t.static
  opn : ∀ o, ob = some o → o.ended = false → .delete ∉ a
  stat : t.static = true → (t.mem = false ↔ ob = none)
  dyn : t.static = false → (t.mem = false ↔ .delete ∈ done)
  dead : t.mem = false → P = [] ∧ t.active = false
  act : t.active = true → ∃ c, done.getLast? = some c ∧ Spec.Runs c
  on : (t.autoReload = true ∨ n = 0) → (∃ c, done.getLast? = some c ∧ Spec.Runs c) → t.active = true
  ever : n ≠ 0 → ∃ c ∈ done, Spec.Runs c
  per : ∀ p, Spec.lastPeriod done = some p → t.period = p
  cnt : t.autoReload = false → n + (if t.active then 1 else 0) ≤ done.countP fun c => Spec.Runs c

structure Inv (s : State) (tr : List Ev) : Prop where
  len : s.objs.length = s.tmrs.length
  each : ∀ i t ob, s.tmrs[i]? = some t → s.objs[i]? = some ob →
    ∃ done, TI (s.pending i) (Spec.accepted i tr) (Spec.firedN i tr) t ob i done
  bound : ∀ p ∈ s.queue, p.1 < s.tmrs.length
  fresh : ∀ i, s.tmrs.length ≤ i → Spec.accepted i tr = [] ∧ Spec.firedN i tr = 0

theorem inv_init : Inv State.init [] := ⟨rfl, by simp [State.init], by simp [State.init], fun i _ => ⟨rfl, rfl⟩⟩

/-- changing one timer, its wrapper and its requests -/
theorem Inv.update {s s' : State} {tr e : List Ev} (hi : Inv s tr) (h : Nat) (hh : h < s.tmrs.length)
    (lt : s'.tmrs.length = s.tmrs.length) (lo : s'.objs.length = s.objs.length)
    (et : ∀ i, i ≠ h → s'.tmrs[i]? = s.tmrs[i]?) (eo : ∀ i, i ≠ h → s'.objs[i]? = s.objs[i]?)
    (ep : ∀ i, i ≠ h → s'.pending i = s.pending i)
    (ea : ∀ i, i ≠ h → Spec.accepted i e = []) (ef : ∀ i, i ≠ h → Spec.firedN i e = 0)
    (hq : ∀ p ∈ s'.queue, p ∈ s.queue ∨ p.1 = h)
    (hn : ∀ t ob, s'.tmrs[h]? = some t → s'.objs[h]? = some ob →
      ∃ done, TI (s'.pending h) (Spec.accepted h (tr ++ e)) (Spec.firedN h (tr ++ e)) t ob h done) : Inv s' (tr ++ e) := by
  have keepA : ∀ i, i ≠ h → Spec.accepted i (tr ++ e) = Spec.accepted i tr := by
    intro i hne; rw [accepted_append, ea i hne, List.append_nil]
  have keepF : ∀ i, i ≠ h → Spec.firedN i (tr ++ e) = Spec.firedN i tr := by
    intro i hne
    have := ef i hne
    unfold Spec.firedN at this ⊢
    rw [List.count_append, this]; rfl
  refine ⟨by rw [lo, lt, hi.len], ?_, ?_, ?_⟩
  · intro i t ob ht ho
    by_cases e : i = h
    · subst e; exact hn t ob ht ho
    · rw [ep i e, keepA i e, keepF i e]
      exact hi.each i t ob (et i e ▸ ht) (eo i e ▸ ho)
  · intro p hp
    rw [lt]
    rcases hq p hp with h1 | h1
    · exact hi.bound p h1
    · omega
  · intro i hl
    rw [lt] at hl
    rw [keepA i (by omega), keepF i (by omega)]
    exact hi.fresh i hl

theorem accepted_one (h : Nat) (c : Cmd) (i : Nat) (ok : Bool) :
    Spec.accepted i [.sent h c ok] = if ok = true ∧ h = i then [c] else [] := by
  cases ok <;> simp [Spec.accepted]

theorem getElem?_objs {s : State} {tr : List Ev} (hi : Inv s tr) {i : Nat} {t : Tmr} (ht : s.tmrs[i]? = some t) :
    ∃ ob, s.objs[i]? = some ob := by
  have := (List.getElem?_eq_some_iff.mp ht).1
  exact ⟨s.objs[i]'(by rw [hi.len]; exact this), by simp⟩

theorem getElem?_tmrs {s : State} {tr : List Ev} (hi : Inv s tr) {i : Nat} {ob : Option Obj} (ho : s.objs[i]? = some ob) :
    ∃ t, s.tmrs[i]? = some t := by
  have := (List.getElem?_eq_some_iff.mp ho).1
  exact ⟨s.tmrs[i]'(by rw [← hi.len]; exact this), by simp⟩

theorem living_iff {s : State} {o : Nat} {ob : Obj} : s.living o = some ob ↔ s.objs[o]? = some (some ob) ∧ ob.ended = false := by
  unfold State.living
  cases h : s.objs[o]? with
  | none => simp
  | some x =>
    cases x with
    | none => simp
    | some y =>
      simp only
      split
      · rename_i e
        constructor
        · intro h'; cases h'
        · rintro ⟨h1, h2⟩
          simp only [Option.some.injEq] at h1
          rw [h1, h2] at e; cases e
      · rename_i e
        simp only [Option.some.injEq]
        constructor
        · rintro rfl; exact ⟨rfl, by simpa using e⟩
        · exact fun h => h.1

/-- a step is not undefined and does not stop the system, and keeps the invariant -/
def StepOk (cap hz : Nat) (s : State) (tr : List Ev) (op : Op) : Prop :=
  (∃ s' e, step cap hz s op = .ok (s', e) ∧ Inv s' (tr ++ e)) ∨ step cap hz s op = .blocked

/-- a request on timer `h` by its living wrapper -/
theorem request_ok {cap : Nat} {s s0 : State} {tr : List Ev} (hi : Inv s tr) {h : Nat} {ob ob' : Obj} {c : Cmd} {k : Nat}
    {to : Bool} (ho : s.objs[h]? = some (some ob)) (hend : ob.ended = false) (hc : c ≠ .period 0)
    (hs0 : s0 = { s with objs := s.objs.set h (some ob') }) (hh : ob'.handle = ob.handle) (hw : ob'.owns = ob.owns)
    (hdel : c = .delete → ob'.ended = true) :
    (∃ s' e, request cap s0 ob c k to = .ok (s', e) ∧ Inv s' (tr ++ e)) ∨ request cap s0 ob c k to = .blocked := by
  obtain ⟨t, ht⟩ := getElem?_tmrs hi ho
  have hlt := (List.getElem?_eq_some_iff.mp ht).1
  obtain ⟨done, ti⟩ := hi.each h t _ ht ho
  have hhd := (ti.hnd ob rfl).1
  have hq0 : s0.queue = s.queue := by rw [hs0]
  have ht0 : s0.tmrs = s.tmrs := by rw [hs0]
  have ho0 : s0.objs = s.objs.set h (some ob') := by rw [hs0]
  have hp0 : ∀ i, s0.pending i = s.pending i := by intro i; unfold State.pending; rw [hq0]
  have hmem : t.mem = true := by
    cases hm : t.mem with
    | true => rfl
    | false =>
      cases hst : t.static with
      | true => have := (ti.stat hst).mp hm; cases this
      | false =>
        have := (ti.dyn hst).mp hm
        exact absurd (by rw [ti.acc]; exact List.mem_append_left _ this) (ti.opn ob rfl hend)
  unfold request
  rw [hhd]
  simp only
  rw [if_neg hc]
  unfold post
  have hnd' : ∀ o, some ob' = some o → o.handle = some h ∧ o.owns = t.static := by
    intro o ho'
    cases ho'
    exact ⟨by rw [hh]; exact hhd, by rw [hw]; exact (ti.hnd ob rfl).2⟩
  by_cases hr : s0.queue.length < cap
  · rw [if_pos hr]
    left
    refine ⟨_, _, rfl, ?_⟩
    apply hi.update h hlt (by simp [ht0]) (by simp [ho0])
    · intro i _; simp [ht0]
    · intro i hne; simp [ho0, List.getElem?_set, Ne.symm hne]
    · intro i hne; rw [pending_push, if_neg (Ne.symm hne), hp0]
    · intro i hne; rw [accepted_one, if_neg (fun h => hne h.2.symm)]
    · intro i hne; simp [Spec.firedN]
    · intro p hp
      simp only [List.mem_append, List.mem_singleton, hq0] at hp
      rcases hp with h1 | rfl
      · exact Or.inl h1
      · exact Or.inr rfl
    · intro t' o' ht' ho'
      have e1 : t' = t := by
        simp only [ht0] at ht'; rw [ht] at ht'; exact (Option.some.inj ht').symm
      have e2 : o' = some ob' := by
        have hl : h < s.objs.length := by rw [hi.len]; exact hlt
        simp only [ho0, List.getElem?_set, hl, if_true] at ho'
        exact (Option.some.inj ho').symm
      subst e1 e2
      have e3 : Spec.firedN h (tr ++ [.sent h c true]) = Spec.firedN h tr := by simp [Spec.firedN]
      rw [pending_push, if_pos rfl, hp0, accepted_append, accepted_one, if_pos ⟨rfl, rfl⟩, e3]
      refine ⟨done, ?_⟩
      have hnodel := ti.opn ob rfl hend
      exact {
        acc := by rw [ti.acc, List.append_assoc]
        dlast := by rw [List.dropLast_concat]; exact hnodel
        hnd := hnd'
        opn := by
          intro o ho'' he
          cases ho''
          simp only [List.mem_append, List.mem_singleton, not_or]
          refine ⟨hnodel, ?_⟩
          rintro rfl
          rw [hdel rfl] at he; cases he
        stat := by intro hs; rw [hmem]; simp
        dyn := ti.dyn
        dead := by rw [hmem]; simp
        act := ti.act
        on := ti.on
        ever := ti.ever
        per := ti.per
        cnt := ti.cnt }
  · rw [if_neg hr]
    have hwf : waitFor k to (s0, [Ev.sent h c false]) = .ok (s0, [Ev.sent h c false]) ∨
        waitFor k to (s0, [Ev.sent h c false]) = .blocked := by
      unfold waitFor
      split
      · exact Or.inl rfl
      · split
        · exact Or.inl rfl
        · exact Or.inr rfl
    rcases hwf with hwf | hwf
    · left
      refine ⟨_, _, hwf, ?_⟩
      apply hi.update h hlt (by simp [ht0]) (by simp [ho0])
      · intro i _; simp [ht0]
      · intro i hne; simp [ho0, List.getElem?_set, Ne.symm hne]
      · intro i _; exact hp0 i
      · intro i _; rw [accepted_one, if_neg (fun h => by cases h.1)]
      · intro i _; simp [Spec.firedN]
      · intro p hp; left; rw [hq0] at hp; exact hp
      · intro t' o' ht' ho'
        have e1 : t' = t := by
          simp only [ht0] at ht'; rw [ht] at ht'; exact (Option.some.inj ht').symm
        have e2 : o' = some ob' := by
          have hl : h < s.objs.length := by rw [hi.len]; exact hlt
          simp only [ho0, List.getElem?_set, hl, if_true] at ho'
          exact (Option.some.inj ho').symm
        subst e1 e2
        have e3 : Spec.firedN h (tr ++ [.sent h c false]) = Spec.firedN h tr := by simp [Spec.firedN]
        rw [hp0, accepted_append, accepted_one, if_neg (fun h => by cases h.1), List.append_nil, e3]
        exact ⟨done, { ti with
          hnd := hnd'
          opn := fun o ho'' he => ti.opn ob rfl hend
          stat := by intro hs; rw [hmem]; simp }⟩
    · exact Or.inr hwf

theorem step_ok (cap hz : Nat) (s : State) (tr : List Ev) (op : Op) (hi : Inv s tr) (hl : Spec.legal s op) :
    StepOk cap hz s tr op := by
  cases op with
  | create static auto period memory =>
    left
    obtain ⟨hp, hm⟩ := hl
    refine ⟨⟨s.tmrs ++ [⟨true, static, false, auto, period⟩], s.queue,
        s.objs ++ [some ⟨some s.tmrs.length, static, false⟩]⟩, [], ?_, ?_⟩
    · simp only [step]
      rw [if_neg (by omega), if_pos (by rcases hm with h | h <;> simp [h])]
    · rw [List.append_nil]
      refine ⟨by simp [hi.len], ?_, ?_, ?_⟩
      · intro i t ob ht ho
        have hpe : ∀ j, State.pending ⟨s.tmrs ++ [⟨true, static, false, auto, period⟩], s.queue,
          s.objs ++ [some ⟨some s.tmrs.length, static, false⟩]⟩ j = s.pending j := fun _ => rfl
        rw [hpe]
        by_cases hlt : i < s.tmrs.length
        · simp only [List.getElem?_append_left hlt] at ht
          simp only [List.getElem?_append_left (show i < s.objs.length by rw [hi.len]; exact hlt)] at ho
          exact hi.each i t ob ht ho
        · have hil : i = s.tmrs.length := by
            have := (List.getElem?_eq_some_iff.mp ht).1
            simp at this; omega
          subst hil
          obtain ⟨f1, f2⟩ := hi.fresh s.tmrs.length (Nat.le_refl _)
          have hpn : s.pending s.tmrs.length = [] := by
            unfold State.pending
            rw [List.map_eq_nil_iff, List.filter_eq_nil_iff]
            intro p hp
            have := hi.bound p hp
            simp; omega
          simp only [List.getElem?_append_right (Nat.le_refl _), Nat.sub_self, List.getElem?_cons_zero,
            Option.some.injEq] at ht
          have ho' := ho
          simp only [List.getElem?_append_right (show s.objs.length ≤ s.tmrs.length by rw [hi.len]; exact Nat.le_refl _), hi.len,
            Nat.sub_self, List.getElem?_cons_zero, Option.some.injEq] at ho'
          subst ht ho'
          rw [f1, f2, hpn]
          exact ⟨[], { acc := rfl, dlast := by simp, hnd := by intro o h; cases h; exact ⟨rfl, rfl⟩
                       opn := by simp, stat := by simp, dyn := by simp, dead := by simp, act := by simp
                       on := by simp, ever := by simp, per := by simp [Spec.lastPeriod], cnt := by simp }⟩
      · intro p hp
        have := hi.bound p hp
        simp; omega
      · intro i hl'
        simp at hl'
        exact hi.fresh i (by omega)
  | send o c ticks to =>
    obtain ⟨⟨ob, hob⟩, hc1, hc2⟩ := hl
    have ⟨ho, he⟩ := living_iff.mp hob
    have : s = { s with objs := s.objs.set o (some ob) } := by
      have : s.objs.set o (some ob) = s.objs := by
        apply List.ext_getElem?
        intro i
        rw [List.getElem?_set]
        split
        · rename_i e; subst e
          rw [if_pos (List.getElem?_eq_some_iff.mp ho).1, ho]
        · rfl
      rw [this]
    unfold StepOk
    simp only [step, hob]
    exact request_ok hi ho he hc2 this rfl rfl (fun h => absurd h hc1)
  | copy o => exact absurd hl id
  | destroy o to =>
    obtain ⟨ob, hob⟩ := hl
    have ⟨ho, he⟩ := living_iff.mp hob
    unfold StepOk
    simp only [step, hob]
    exact request_ok hi ho he (by simp) rfl rfl rfl (fun _ => rfl)
  | gone o =>
    obtain ⟨ob, ho, he, hw⟩ := hl
    obtain ⟨t, ht⟩ := getElem?_tmrs hi ho
    have hlt := (List.getElem?_eq_some_iff.mp ht).1
    have hlo := (List.getElem?_eq_some_iff.mp ho).1
    obtain ⟨done, ti⟩ := hi.each o t _ ht ho
    obtain ⟨hhd, how⟩ := ti.hnd ob rfl
    left
    cases hst : t.static with
    | true =>
      rw [hst] at how
      obtain ⟨hp, ha⟩ := hw how o hhd
      have ha' : t.active = false := by
        cases h : t.active with
        | false => rfl
        | true => exact absurd ⟨t, ht, h⟩ ha
      refine ⟨⟨s.tmrs.set o { t with mem := false }, s.queue, s.objs.set o none⟩, [], ?_, ?_⟩
      · simp only [step, ho, he, if_true, hhd, how, ht]
      · apply hi.update o hlt (by simp) (by simp)
        · intro i hne; simp [List.getElem?_set, Ne.symm hne]
        · intro i hne; simp [List.getElem?_set, Ne.symm hne]
        · intro i _; rfl
        · intro i _; rfl
        · intro i _; rfl
        · intro p hp; exact Or.inl hp
        · intro t' o' ht' ho'
          simp only [List.getElem?_set, hlt, hlo, if_true, Option.some.injEq] at ht' ho'
          subst ht' ho'
          rw [List.append_nil]
          have : State.pending ⟨s.tmrs.set o { t with mem := false }, s.queue, s.objs.set o none⟩ o = s.pending o := rfl
          rw [this]
          exact ⟨done, { ti with
            hnd := by simp
            opn := by simp
            stat := by simp
            dyn := by simp [hst]
            dead := fun _ => ⟨hp, ha'⟩ }⟩
    | false =>
      rw [hst] at how
      refine ⟨{ s with objs := s.objs.set o none }, [], ?_, ?_⟩
      · simp only [step, ho, he, if_true, hhd, how]
      · apply hi.update o hlt (by simp) (by simp)
        · intro i hne; rfl
        · intro i hne; simp [List.getElem?_set, Ne.symm hne]
        · intro i _; rfl
        · intro i _; rfl
        · intro i _; rfl
        · intro p hp; exact Or.inl hp
        · intro t' o' ht' ho'
          simp only [List.getElem?_set, hlo, if_true, Option.some.injEq] at ho'
          rw [ht] at ht'
          cases ht'
          subst ho'
          rw [List.append_nil]
          have : State.pending { s with objs := s.objs.set o none } o = s.pending o := rfl
          rw [this]
          exact ⟨done, { ti with hnd := by simp, opn := by simp, stat := by simp [hst] }⟩
  | daemon =>
    obtain ⟨ts, q, os⟩ := s
    cases q with
    | nil => right; rfl
    | cons p q =>
      obtain ⟨h, c⟩ := p
      have hlt := hi.bound (h, c) (List.mem_cons_self ..)
      simp only at hlt
      obtain ⟨t, ht⟩ : ∃ t, ts[h]? = some t := ⟨ts[h], by simp⟩
      obtain ⟨ob, ho⟩ := getElem?_objs hi ht
      obtain ⟨done, ti⟩ := hi.each h t ob ht ho
      rw [pending_cons, if_pos rfl] at ti
      have hmem : t.mem = true := by
        cases hm : t.mem with
        | true => rfl
        | false => have := (ti.dead hm).1; cases this
      left
      refine ⟨⟨ts.set h (t.obey c), q, os⟩, [], by simp only [step, ht, hmem, if_true], ?_⟩
      apply hi.update h hlt (by simp) (by simp)
      · intro i hne; simp [List.getElem?_set, Ne.symm hne]
      · intro i hne; rfl
      · intro i hne; rw [pending_cons, if_neg (Ne.symm hne)]; rfl
      · intro i _; rfl
      · intro i _; rfl
      · intro p hp; left; exact List.mem_cons_of_mem _ hp
      · intro t' o' ht' ho'
        simp only [List.getElem?_set, hlt, if_true, Option.some.injEq] at ht'
        simp only at ho
        simp only at ho'
        rw [ho] at ho'
        cases ho'
        subst ht'
        rw [List.append_nil]
        have hpe : State.pending ⟨ts.set h (t.obey c), q, os⟩ h = State.pending ⟨ts, q, os⟩ h := rfl
        rw [hpe]
        refine ⟨done ++ [c], ?_⟩
        have hstat : (t.obey c).static = t.static := by cases c <;> rfl
        have hauto : (t.obey c).autoReload = t.autoReload := by cases c <;> rfl
        have hact : (t.obey c).active = decide (Spec.Runs c) := by cases c <;> rfl
        have hmem' : c ≠ .delete → (t.obey c).mem = true := by intro hne; cases c <;> first | exact hmem | exact absurd rfl hne
        have hPnil : c = .delete → State.pending ⟨ts, q, os⟩ h = [] := by
          rintro rfl
          have hd := ti.dlast
          rw [ti.acc] at hd
          cases hP : State.pending ⟨ts, q, os⟩ h with
          | nil => rfl
          | cons x l =>
            exfalso
            apply hd
            rw [hP]
            have : done ++ Cmd.delete :: x :: l = (done ++ [Cmd.delete]) ++ (x :: l) := by simp
            rw [this, List.dropLast_append_of_ne_nil (by simp)]
            simp
        have hnone : c ≠ .delete → .delete ∉ done → .delete ∉ done ++ [c] := by
          intro h1 h2
          simp only [List.mem_append, List.mem_singleton, not_or]
          exact ⟨h2, fun h => h1 h.symm⟩
        exact {
          acc := by rw [ti.acc]; simp
          dlast := ti.dlast
          hnd := by rw [hstat]; exact ti.hnd
          opn := ti.opn
          stat := by
            rw [hstat]; intro hs
            by_cases hc : c = .delete
            · subst hc
              simp only [Tmr.obey, hs]
              have := ti.stat hs
              rw [hmem] at this
              exact this
            · rw [hmem' hc]
              have := ti.stat hs
              rw [hmem] at this
              exact this
          dyn := by
            rw [hstat]; intro hs
            by_cases hc : c = .delete
            · subst hc; simp [Tmr.obey, hs]
            · rw [hmem' hc]
              have := ti.dyn hs
              rw [hmem] at this
              simp only [List.mem_append, List.mem_singleton]
              constructor
              · intro h; cases h
              · rintro (h | h)
                · exact this.mpr h
                · exact absurd h.symm hc
          dead := by
            intro hm
            by_cases hc : c = .delete
            · subst hc; exact ⟨hPnil rfl, rfl⟩
            · rw [hmem' hc] at hm; cases hm
          act := by
            rw [hact]; intro h
            exact ⟨c, by simp, by simpa using h⟩
          on := by
            rw [hact]
            rintro - ⟨c', h1, h2⟩
            simp only [List.getLast?_append, List.getLast?_singleton, Option.some_or, Option.some.injEq] at h1
            subst h1
            simpa using h2
          cnt := by
            rw [hauto, hact]
            intro ha
            have := ti.cnt ha
            rw [List.countP_append, List.countP_singleton]
            split at this <;> split <;> omega
          ever := fun hn => by
            obtain ⟨c', h1, h2⟩ := ti.ever hn
            exact ⟨c', List.mem_append_left _ h1, h2⟩
          per := by
            intro p hp
            rw [Spec.lastPeriod_concat] at hp
            cases c with
            | period q => simp only [Option.some.injEq] at hp; simp [Tmr.obey, hp]
            | _ => simpa [Tmr.obey] using ti.per p hp }
  | expire h =>
    cases ht : s.tmrs[h]? with
    | none => right; simp only [step, ht]
    | some t =>
      cases ha : t.active with
      | false => right; simp only [step, ht, ha]; rfl
      | true =>
        have hlt := (List.getElem?_eq_some_iff.mp ht).1
        obtain ⟨ob, ho⟩ := getElem?_objs hi ht
        obtain ⟨done, ti⟩ := hi.each h t ob ht ho
        have hmem : t.mem = true := by
          cases hm : t.mem with
          | true => rfl
          | false => have := (ti.dead hm).2; rw [ha] at this; cases this
        left
        refine ⟨{ s with tmrs := s.tmrs.set h { t with active := t.autoReload } }, [.fired h], ?_, ?_⟩
        · simp only [step, ht, ha, hmem, if_true]
        · apply hi.update h hlt (by simp) (by simp)
          · intro i hne; simp [List.getElem?_set, Ne.symm hne]
          · intro i hne; rfl
          · intro i hne; rfl
          · intro i _; rfl
          · intro i hne; simp [Spec.firedN, Ne.symm hne]
          · intro p hp; exact Or.inl hp
          · intro t' o' ht' ho'
            simp only [List.getElem?_set, hlt, if_true, Option.some.injEq] at ht'
            simp only at ho'
            rw [ho] at ho'
            cases ho'
            subst ht'
            have e1 : Spec.accepted h (tr ++ [.fired h]) = Spec.accepted h tr := by
              rw [accepted_append]; simp [Spec.accepted]
            have e2 : Spec.firedN h (tr ++ [.fired h]) = Spec.firedN h tr + 1 := by simp [Spec.firedN]
            have e3 : State.pending { s with tmrs := s.tmrs.set h { t with active := t.autoReload } } h = s.pending h := rfl
            rw [e1, e2, e3]
            refine ⟨done, { ti with
              dead := by intro h; rw [hmem] at h; cases h
              act := fun _ => ti.act ha
              on := ?_
              ever := fun _ => by
                obtain ⟨c, h1, h2⟩ := ti.act ha
                exact ⟨c, List.mem_of_getLast? h1, h2⟩
              cnt := ?_ }⟩
            · rintro (h | h) -
              · exact h
              · cases h
            · intro hau
              have := ti.cnt hau
              simp only [ha, if_true] at this
              simp only at hau
              simp [hau]; omega

theorem run_ok (cap hz : Nat) (ops : List Op) (s : State) (tr : List Ev) (hi : Inv s tr) (hl : Spec.legalRun cap hz ops s) :
    (∃ s' e, run cap hz ops s = .ok (s', e) ∧ Inv s' (tr ++ e)) ∨ run cap hz ops s = .blocked := by
  induction ops generalizing s tr with
  | nil => left; exact ⟨s, [], rfl, by rw [List.append_nil]; exact hi⟩
  | cons op ops ih =>
    obtain ⟨h1, h2⟩ := hl
    rcases step_ok cap hz s tr op hi h1 with ⟨s1, e1, hs, hi1⟩ | hb
    · rcases ih s1 (tr ++ e1) hi1 (h2 s1 e1 hs) with ⟨s2, e2, hr, hi2⟩ | hb
      · left
        exact ⟨s2, e1 ++ e2, by simp [run, hs, Ker.bind, hr], by rw [← List.append_assoc]; exact hi2⟩
      · right; simp [run, hs, Ker.bind, hb]
    · right; simp [run, hb, Ker.bind]

/-! ## Properties -/

/-- **C86 (partial).** In every schedule of a program that keeps to `Spec.legal`: nothing undefined happens and no assertion
fails; a callback runs only if a request to run that timer was accepted, for a one-shot timer at most once per such request;
once the requests on a timer have been carried out, it is running only if the last one was to run it, and certainly runs if
moreover it reloads itself or has never fired; its period is the one last asked for; and it has been deleted exactly if its
destructor's request was accepted.

Missing: destructors whose request is refused (`refused_destructor_leaks`), callbacks between the destructor and the deletion
(`fires_after_destructor`), static timers whose storage ends before the deletion (`static_storage_gone`), copies and `free`
(`deleted_twice`), periods of less than a tick (`short_period_stops`) and creation without memory (`no_memory_stops`). -/
theorem timers_partial (cap hz : Nat) (ops : List Op) (hl : Spec.legalRun cap hz ops State.init) :
    run cap hz ops State.init ≠ .ub ∧ run cap hz ops State.init ≠ .abort ∧
    ∀ s tr, run cap hz ops State.init = .ok (s, tr) → ∀ h t, s.tmrs[h]? = some t →
      (Spec.firedN h tr ≠ 0 → ∃ c ∈ Spec.accepted h tr, Spec.Runs c) ∧
      (t.autoReload = false → Spec.firedN h tr ≤ (Spec.accepted h tr).countP fun c => Spec.Runs c) ∧
      (s.pending h = [] →
        (t.active = true → ∃ c, (Spec.accepted h tr).getLast? = some c ∧ Spec.Runs c) ∧
        ((t.autoReload = true ∨ Spec.firedN h tr = 0) → (∃ c, (Spec.accepted h tr).getLast? = some c ∧ Spec.Runs c) →
          t.active = true) ∧
        (∀ p, Spec.lastPeriod (Spec.accepted h tr) = some p → t.period = p) ∧
        (t.static = false → (t.mem = false ↔ Cmd.delete ∈ Spec.accepted h tr))) := by
  rcases run_ok cap hz ops State.init [] inv_init hl with ⟨s', e, hr, hi⟩ | hb
  · refine ⟨by simp [hr], by simp [hr], ?_⟩
    intro s tr hr' h t ht
    rw [hr] at hr'
    simp only [Ker.ok.injEq, Prod.mk.injEq] at hr'
    obtain ⟨rfl, rfl⟩ := hr'
    rw [List.nil_append] at hi
    obtain ⟨ob, ho⟩ := getElem?_objs hi ht
    obtain ⟨done, ti⟩ := hi.each h t ob ht ho
    refine ⟨?_, ?_, ?_⟩
    · intro hn
      obtain ⟨c, h1, h2⟩ := ti.ever hn
      exact ⟨c, by rw [ti.acc]; exact List.mem_append_left _ h1, h2⟩
    · intro ha
      have := ti.cnt ha
      rw [ti.acc, List.countP_append]
      omega
    · intro hp
      have hacc := ti.acc
      rw [hp, List.append_nil] at hacc
      rw [hacc]
      exact ⟨ti.act, ti.on, ti.per, ti.dyn⟩
  · exact ⟨by simp [hb], by simp [hb], by simp [hb]⟩

/-! ### What later steps can do to a timer -/

theorem post_cases {cap : Nat} {s s' : State} {h : Nat} {c : Cmd} {k : Nat} {to : Bool} {e : List Ev}
    (hp : post cap s h c k to = .ok (s', e)) :
    (s' = { s with queue := s.queue ++ [(h, c)] } ∧ e = [.sent h c true]) ∨ (s' = s ∧ e = [.sent h c false]) := by
  unfold post at hp
  split at hp
  · left; simp only [Ker.ok.injEq, Prod.mk.injEq] at hp; exact ⟨hp.1.symm, hp.2.symm⟩
  · right
    have := waitFor_ok hp
    simp only [Prod.mk.injEq] at this
    exact this

theorem request_cases {cap : Nat} {s s' : State} {ob : Obj} {c : Cmd} {k : Nat} {to : Bool} {e : List Ev}
    (hr : request cap s ob c k to = .ok (s', e)) : ∃ h, ob.handle = some h ∧
    ((s' = { s with queue := s.queue ++ [(h, c)] } ∧ e = [.sent h c true]) ∨ (s' = s ∧ e = [.sent h c false])) := by
  unfold request at hr
  cases hh : ob.handle with
  | none => rw [hh] at hr; cases hr
  | some h =>
    rw [hh] at hr
    simp only at hr
    split at hr
    · cases hr
    · exact ⟨h, rfl, post_cases hr⟩

/-- a callback runs only in a step that is the expiry of an active timer -/
theorem fired_step {cap hz : Nat} {s s' : State} {op : Op} {e : List Ev} {h : Nat} (hs : step cap hz s op = .ok (s', e))
    (hf : .fired h ∈ e) : s.activeAt h := by
  cases op with
  | create a b c d =>
    simp only [step] at hs
    split at hs
    · cases hs
    · split at hs <;> (simp only [Ker.ok.injEq, Prod.mk.injEq] at hs; rw [← hs.2] at hf; simp at hf)
  | send o c k to =>
    simp only [step] at hs
    cases hl : s.living o with
    | none => rw [hl] at hs; cases hs
    | some ob =>
      rw [hl] at hs
      obtain ⟨h', -, ⟨-, rfl⟩ | ⟨-, rfl⟩⟩ := request_cases hs <;> simp at hf
  | copy o =>
    simp only [step] at hs
    cases hl : s.living o with
    | none => rw [hl] at hs; cases hs
    | some ob => rw [hl] at hs; simp only [Ker.ok.injEq, Prod.mk.injEq] at hs; rw [← hs.2] at hf; simp at hf
  | destroy o to =>
    simp only [step] at hs
    cases hl : s.living o with
    | none => rw [hl] at hs; cases hs
    | some ob =>
      rw [hl] at hs
      obtain ⟨h', -, ⟨-, rfl⟩ | ⟨-, rfl⟩⟩ := request_cases hs <;> simp at hf
  | gone o =>
    simp only [step] at hs
    repeat' (split at hs)
    all_goals first | (cases hs; done) | (simp only [Ker.ok.injEq, Prod.mk.injEq] at hs; rw [← hs.2] at hf; simp at hf)
  | daemon =>
    simp only [step] at hs
    repeat' (split at hs)
    all_goals first | (cases hs; done) | (simp only [Ker.ok.injEq, Prod.mk.injEq] at hs; rw [← hs.2] at hf; simp at hf)
  | expire h' =>
    simp only [step] at hs
    cases ht : s.tmrs[h']? with
    | none => rw [ht] at hs; cases hs
    | some t =>
      rw [ht] at hs
      simp only at hs
      split at hs
      · rename_i ha
        split at hs
        · simp only [Ker.ok.injEq, Prod.mk.injEq] at hs
          rw [← hs.2] at hf
          simp only [List.mem_singleton, Ev.fired.injEq] at hf
          subst hf
          exact ⟨t, ht, ha⟩
        · cases hs
      · cases hs

/-- a timer whose wrapper's destructor has begun gets no more requests, and stays as it is apart from what is pending -/
theorem dead_step {cap hz : Nat} {s s' : State} {tr e : List Ev} {op : Op} {h : Nat} {t : Tmr} (hi : Inv s tr)
    (hl : Spec.legal s op) (ht : s.tmrs[h]? = some t) (hd : s.living h = none) (hs : step cap hz s op = .ok (s', e)) :
    s'.living h = none ∧ Spec.accepted h e = [] ∧ (∃ k, s'.pending h = (s.pending h).drop k) ∧
      ∃ t', s'.tmrs[h]? = some t' ∧ t'.static = t.static ∧ t'.autoReload = t.autoReload := by
  have hlt := (List.getElem?_eq_some_iff.mp ht).1
  have hlo : h < s.objs.length := by rw [hi.len]; exact hlt
  have keep : ∀ ts : List Tmr, ts = s.tmrs → ∃ t', ts[h]? = some t' ∧ t'.static = t.static ∧ t'.autoReload = t.autoReload :=
    fun ts e => ⟨t, by rw [e]; exact ht, rfl, rfl⟩
  have nreq : ∀ o ob, s.living o = some ob → o ≠ h ∧ ob.handle = some o := by
    intro o ob ho
    refine ⟨by rintro rfl; rw [hd] at ho; contradiction, ?_⟩
    obtain ⟨h1, h2⟩ := living_iff.mp ho
    obtain ⟨t2, ht2⟩ := getElem?_tmrs hi h1
    obtain ⟨done, ti⟩ := hi.each o t2 _ ht2 h1
    exact (ti.hnd ob rfl).1
  have liv : ∀ os : List (Option Obj), os[h]? = s.objs[h]? → ∀ ts q, State.living ⟨ts, q, os⟩ h = none := by
    intro os e ts q
    unfold State.living at hd ⊢
    simp only
    rw [e]
    exact hd
  cases op with
  | create a b c d =>
    simp only [step] at hs
    obtain ⟨h1, h2⟩ := hl
    rw [if_neg (by omega), if_pos (by rcases h2 with h | h <;> simp [h])] at hs
    simp only [Ker.ok.injEq, Prod.mk.injEq] at hs
    obtain ⟨rfl, rfl⟩ := hs
    exact ⟨liv _ (List.getElem?_append_left hlo) _ _, rfl, ⟨0, rfl⟩, t,
      by simp only [List.getElem?_append_left hlt]; exact ht, rfl, rfl⟩
  | send o c k to =>
    simp only [step] at hs
    cases hob : s.living o with
    | none => rw [hob] at hs; cases hs
    | some ob =>
      rw [hob] at hs
      obtain ⟨hne, hhd⟩ := nreq o ob hob
      obtain ⟨h', hh', hc⟩ := request_cases hs
      rw [hhd] at hh'
      cases hh'
      rcases hc with ⟨rfl, rfl⟩ | ⟨rfl, rfl⟩
      · refine ⟨liv _ rfl _ _, by rw [accepted_one, if_neg (fun x => hne x.2)], ⟨0, ?_⟩, keep _ rfl⟩
        rw [pending_push, if_neg hne]; rfl
      · exact ⟨hd, by rw [accepted_one, if_neg (fun x => by cases x.1)], ⟨0, rfl⟩, keep _ rfl⟩
  | copy o => exact absurd hl id
  | destroy o to =>
    simp only [step] at hs
    cases hob : s.living o with
    | none => rw [hob] at hs; cases hs
    | some ob =>
      rw [hob] at hs
      obtain ⟨hne, hhd⟩ := nreq o ob hob
      obtain ⟨h', hh', hc⟩ := request_cases hs
      rw [hhd] at hh'
      cases hh'
      have hset : (s.objs.set o (some { ob with ended := true }))[h]? = s.objs[h]? := by
        simp [List.getElem?_set, hne]
      rcases hc with ⟨rfl, rfl⟩ | ⟨rfl, rfl⟩
      · refine ⟨liv _ hset _ _, by rw [accepted_one, if_neg (fun x => hne x.2)], ⟨0, ?_⟩, keep _ rfl⟩
        rw [pending_push, if_neg hne]; rfl
      · exact ⟨liv _ hset _ _, by rw [accepted_one, if_neg (fun x => by cases x.1)], ⟨0, rfl⟩, keep _ rfl⟩
  | gone o =>
    obtain ⟨ob, ho, he, -⟩ := hl
    obtain ⟨t2, ht2⟩ := getElem?_tmrs hi ho
    obtain ⟨done, ti⟩ := hi.each o t2 _ ht2 ho
    obtain ⟨hhd, -⟩ := ti.hnd ob rfl
    have hset : ∀ ts q, State.living ⟨ts, q, s.objs.set o none⟩ h = none := by
      intro ts q
      by_cases e : o = h
      · subst e; unfold State.living; simp [hlo]
      · exact liv _ (by simp [List.getElem?_set, e]) _ _
    simp only [step, ho, he, if_true, hhd] at hs
    cases how : ob.owns with
    | false =>
      rw [how] at hs
      simp only [Ker.ok.injEq, Prod.mk.injEq] at hs
      obtain ⟨rfl, rfl⟩ := hs
      exact ⟨hset _ _, rfl, ⟨0, rfl⟩, keep _ rfl⟩
    | true =>
      rw [how] at hs
      simp only [ht2, Ker.ok.injEq, Prod.mk.injEq] at hs
      obtain ⟨rfl, rfl⟩ := hs
      refine ⟨hset _ _, rfl, ⟨0, rfl⟩, ?_⟩
      by_cases e : o = h
      · subst e
        rw [ht] at ht2
        cases ht2
        exact ⟨{ t with mem := false }, by simp [hlt], rfl, rfl⟩
      · exact ⟨t, by simp [List.getElem?_set, e, ht], rfl, rfl⟩
  | daemon =>
    obtain ⟨ts, q, os⟩ := s
    cases q with
    | nil => simp only [step] at hs; cases hs
    | cons p q =>
      obtain ⟨g, c⟩ := p
      simp only [step] at hs
      cases hg : ts[g]? with
      | none => rw [hg] at hs; cases hs
      | some t2 =>
        rw [hg] at hs
        simp only at hs
        split at hs
        · simp only [Ker.ok.injEq, Prod.mk.injEq] at hs
          obtain ⟨rfl, rfl⟩ := hs
          refine ⟨liv _ rfl _ _, rfl, ?_, ?_⟩
          · rw [pending_cons]
            by_cases e : g = h
            · rw [if_pos e]; exact ⟨1, rfl⟩
            · rw [if_neg e]; exact ⟨0, rfl⟩
          · by_cases e : g = h
            · subst e
              simp only at ht hlt
              rw [ht] at hg
              cases hg
              exact ⟨t.obey c, by simp [hlt], by cases c <;> rfl, by cases c <;> rfl⟩
            · exact ⟨t, by simp [List.getElem?_set, e]; exact ht, rfl, rfl⟩
        · cases hs
  | expire g =>
    simp only [step] at hs
    cases hg : s.tmrs[g]? with
    | none => rw [hg] at hs; cases hs
    | some t2 =>
      rw [hg] at hs
      simp only at hs
      split at hs
      · split at hs
        · simp only [Ker.ok.injEq, Prod.mk.injEq] at hs
          obtain ⟨rfl, rfl⟩ := hs
          refine ⟨liv _ rfl _ _, by simp [Spec.accepted], ⟨0, rfl⟩, ?_⟩
          by_cases e : g = h
          · subst e
            rw [ht] at hg
            cases hg
            exact ⟨{ t with active := t.autoReload }, by simp [hlt], rfl, rfl⟩
          · exact ⟨t, by simp [List.getElem?_set, e, ht], rfl, rfl⟩
        · cases hs
      · cases hs

theorem dead_run {cap hz : Nat} (ops : List Op) {s s' : State} {tr e : List Ev} {h : Nat} {t : Tmr} (hi : Inv s tr)
    (hl : Spec.legalRun cap hz ops s) (ht : s.tmrs[h]? = some t) (hd : s.living h = none)
    (hs : run cap hz ops s = .ok (s', e)) :
    Inv s' (tr ++ e) ∧ s'.living h = none ∧ Spec.accepted h e = [] ∧ (∃ k, s'.pending h = (s.pending h).drop k) ∧
      ∃ t', s'.tmrs[h]? = some t' ∧ t'.static = t.static ∧ t'.autoReload = t.autoReload := by
  induction ops generalizing s tr e t with
  | nil =>
    simp only [run, Ker.ok.injEq, Prod.mk.injEq] at hs
    obtain ⟨rfl, rfl⟩ := hs
    exact ⟨by rw [List.append_nil]; exact hi, hd, rfl, ⟨0, rfl⟩, t, ht, rfl, rfl⟩
  | cons op ops ih =>
    obtain ⟨h1, h2⟩ := hl
    rcases step_ok cap hz s tr op hi h1 with ⟨s1, e1, hs1, hi1⟩ | hb
    · simp only [run, hs1, Ker.bind] at hs
      cases hr : run cap hz ops s1 with
      | ok p =>
        obtain ⟨s2, e2⟩ := p
        rw [hr] at hs
        simp only [Ker.ok.injEq, Prod.mk.injEq] at hs
        obtain ⟨rfl, rfl⟩ := hs
        obtain ⟨a1, a2, ⟨k1, a3⟩, t1, a4, a5, a6⟩ := dead_step hi h1 ht hd hs1
        obtain ⟨b0, b1, b2, ⟨k2, b3⟩, t2, b4, b5, b6⟩ := ih hi1 (h2 s1 e1 hs1) a4 a1 hr
        refine ⟨by rw [← List.append_assoc]; exact b0, b1, by rw [accepted_append, a2, b2]; rfl,
          ⟨k1 + k2, by rw [b3, a3, List.drop_drop]⟩, t2, b4, by rw [b5, a5], by rw [b6, a6]⟩
      | blocked => rw [hr] at hs; cases hs
      | abort => rw [hr] at hs; cases hs
      | ub => rw [hr] at hs; cases hs
    · simp only [run, hb, Ker.bind] at hs
      cases hs

/-- when the deletion has been carried out, the timer is dormant -/
theorem deleted_dormant {s : State} {tr : List Ev} {h : Nat} (hi : Inv s tr) (ha : Cmd.delete ∈ Spec.accepted h tr)
    (hp : s.pending h = []) : ¬ s.activeAt h ∧ s.living h = none := by
  constructor
  · rintro ⟨t, ht, hact⟩
    obtain ⟨ob, ho⟩ := getElem?_objs hi ht
    obtain ⟨done, ti⟩ := hi.each h t ob ht ho
    obtain ⟨c, h1, h2⟩ := ti.act hact
    have hacc := ti.acc
    rw [hp, List.append_nil] at hacc
    have hd := ti.dlast
    rw [hacc] at ha hd
    have hne : done ≠ [] := by rintro rfl; cases ha
    have hsplit := List.dropLast_concat_getLast hne
    rw [List.getLast?_eq_some_getLast hne] at h1
    simp only [Option.some.injEq] at h1
    rw [← hsplit, h1] at ha
    simp only [List.mem_append, List.mem_singleton] at ha
    rcases ha with h3 | h3
    · exact hd h3
    · rw [← h3] at h2
      rcases h2 with h | h | ⟨_, h⟩ <;> cases h
  · cases hl : s.living h with
    | none => rfl
    | some ob =>
      obtain ⟨h1, h2⟩ := living_iff.mp hl
      obtain ⟨t, ht⟩ := getElem?_tmrs hi h1
      obtain ⟨done, ti⟩ := hi.each h t _ ht h1
      exact absurd ha (ti.opn ob rfl h2)

/-- Once the deletion asked for by the destructor has been carried out, the callback never runs again, whatever happens
next. -/
theorem silent_after_deletion (cap hz : Nat) (ops ops' : List Op) (s s' : State) (tr tr' : List Ev) (h : Nat)
    (hl : Spec.legalRun cap hz ops State.init) (hr : run cap hz ops State.init = .ok (s, tr))
    (ha : Cmd.delete ∈ Spec.accepted h tr) (hp : s.pending h = [])
    (hl' : Spec.legalRun cap hz ops' s) (hr' : run cap hz ops' s = .ok (s', tr')) : Ev.fired h ∉ tr' := by
  have hi : Inv s tr := by
    rcases run_ok cap hz ops State.init [] inv_init hl with ⟨s1, e1, h1, h2⟩ | hb
    · rw [hr] at h1
      simp only [Ker.ok.injEq, Prod.mk.injEq] at h1
      obtain ⟨rfl, rfl⟩ := h1
      exact h2
    · rw [hr] at hb; cases hb
  clear hr hl
  have hlt : h < s.tmrs.length := by
    by_cases hc : h < s.tmrs.length
    · exact hc
    · have := (hi.fresh h (by omega)).1
      rw [this] at ha; cases ha
  obtain ⟨t, ht⟩ : ∃ t, s.tmrs[h]? = some t := ⟨s.tmrs[h], by simp⟩
  clear hlt
  induction ops' generalizing s tr tr' t with
  | nil =>
    simp only [run, Ker.ok.injEq, Prod.mk.injEq] at hr'
    rw [← hr'.2]; simp
  | cons op ops' ih =>
    obtain ⟨hna, hnl⟩ := deleted_dormant hi ha hp
    obtain ⟨h1, h2⟩ := hl'
    rcases step_ok cap hz s tr op hi h1 with ⟨s1, e1, hs1, hi1⟩ | hb
    · simp only [run, hs1, Ker.bind] at hr'
      cases hr2 : run cap hz ops' s1 with
      | ok p =>
        obtain ⟨s2, e2⟩ := p
        rw [hr2] at hr'
        simp only [Ker.ok.injEq, Prod.mk.injEq] at hr'
        obtain ⟨rfl, rfl⟩ := hr'
        obtain ⟨a1, a2, ⟨k1, a3⟩, t1, a4, -, -⟩ := dead_step hi h1 ht hnl hs1
        rw [List.mem_append, not_or]
        refine ⟨fun hf => hna (fired_step hs1 hf), ?_⟩
        exact ih s1 (tr ++ e1) e2 (by rw [accepted_append]; exact List.mem_append_left _ ha)
          (by rw [a3, hp]; simp) (h2 s1 e1 hs1) hr2 hi1 t1 a4
      | blocked => rw [hr2] at hr'; cases hr'
      | abort => rw [hr2] at hr'; cases hr'
      | ub => rw [hr2] at hr'; cases hr'
    · simp only [run, hb, Ker.bind] at hr'
      cases hr'

end Verif.Rtos.Timers
