import Verif.SharedPtr.Model

/-!
# Shared pointers used by several tasks (C109)

`shared_count` of `src/estd/memory.h` is a plain `uint16_t`: counting an owner up or down is a fetch and a store, and
after the store the count is fetched again to see whether it is zero.  Any number of tasks share one object through a
master (`layer2::shared_ptr`, never destroyed) and handles (`layer3::shared_ptr`) of their own.  Their calls are taken
apart into single accesses of `shared_count` and `is_active`, which any schedule may interleave.
-/
namespace Verif.SharedPtr.Tasks
open Verif Verif.SharedPtr

/-! ## Model -/

/-- where a task is in its call -/
inductive Pc where
  /-- between calls -/
  | idle
  /-- copy from the master: fetch `is_active`, memory.h:551, 556 -/
  | fromCheck
  /-- copy: fetch `is_active`, memory.h:312 -/
  | copyCheck
  /-- copy: fetch `shared_count`, memory.h:313 -/
  | copyLoad
  /-- copy: store `shared_count`, memory.h:313 -/
  | copyStore (v : Nat)
  /-- reset of the master: fetch `is_active`, memory.h:261 -/
  | resetCheck
  /-- reset of the master: clear `is_active`, memory.h:234, 464 -/
  | resetFlag
  /-- fetch `shared_count`, memory.h:236 -/
  | dropLoad
  /-- store `shared_count`, memory.h:236 -/
  | dropStore (v : Nat)
  /-- fetch `shared_count` again and compare it with zero, memory.h:236; `v` is what was stored -/
  | dropTest (v : Nat)
  /-- call `Deleter()`, memory.h:238 -/
  | dropDel
  deriving DecidableEq, Repr

/-- a task and the number of handles it has -/
structure Task where
  pc : Pc
  own : Nat
  deriving DecidableEq, Repr

/-- the control block (memory.h:58-88), the calls of `Deleter()` so far, and the tasks -/
structure St where
  count : Nat
  active : Bool
  deletes : Nat
  tasks : List Task
  deriving DecidableEq, Repr

/-- the state with task `i` replaced -/
def St.put (s : St) (i : Nat) (t : Task) : St := { s with tasks := s.tasks.set i t }

/-- the next access of task `i`, memory.h:220-240, 259-262, 309-314, 548-559 -/
def tick (s : St) (i : Nat) : St :=
  match s.tasks[i]? with
  | none => s
  | some t =>
    match t.pc with
    | .idle => s
    | .fromCheck => s.put i { t with pc := if s.active then .copyCheck else .idle }
    | .copyCheck => s.put i (if s.active then { t with pc := .copyLoad } else ⟨.idle, t.own + 1⟩)
    | .copyLoad => s.put i { t with pc := .copyStore s.count }
    | .copyStore v => ({ s with count := (v + 1) % 65536 } : St).put i ⟨.idle, t.own + 1⟩
    | .resetCheck => s.put i { t with pc := if s.active then .resetFlag else .idle }
    | .resetFlag => ({ s with active := false } : St).put i { t with pc := .dropLoad }
    | .dropLoad => s.put i { t with pc := .dropStore s.count }
    | .dropStore v =>
      ({ s with count := (v + 65535) % 65536 } : St).put i { t with pc := .dropTest ((v + 65535) % 65536) }
    | .dropTest _ => s.put i { t with pc := if s.count = 0 then .dropDel else .idle }
    | .dropDel => ({ s with deletes := s.deletes + 1 } : St).put i { t with pc := .idle }

/-- `shared_count` is not volatile: the comparison may use the value just stored; memory.h:236 -/
def reuse (s : St) (i : Nat) : St :=
  match s.tasks[i]? with
  | none => s
  | some t =>
    match t.pc with
    | .dropTest v => s.put i { t with pc := if v = 0 then .dropDel else .idle }
    | _ => s

/-- what happens next; memory.h:259-262, 309-329, 548-577 -/
inductive Act where
  /-- task `i` copies one of its handles -/
  | copy (i : Nat)
  /-- task `i` copies the master -/
  | fromMaster (i : Nat)
  /-- task `i` destroys or resets one of its handles -/
  | drop (i : Nat)
  /-- task `i` resets the master -/
  | reset (i : Nat)
  /-- task `i` makes its next access -/
  | tick (i : Nat)
  /-- task `i` does without its next access, see `reuse` -/
  | reuse (i : Nat)
  /-- task `i` hands one of its handles over to task `j` (the move constructor, which leaves the count alone) -/
  | give (i j : Nat)
  /-- task `i` copies one of its handles and destroys the copy, and no other task runs meanwhile -/
  | peek (i : Nat)
  deriving DecidableEq, Repr

/-- task `i` starts a call; a call while one is in progress is not one, and does nothing -/
def begin (s : St) (i : Nat) (f : Task → Task) : St :=
  match s.tasks[i]? with
  | none => s
  | some t => if t.pc = .idle then s.put i (f t) else s

/-- copy and destroy a handle at one go, memory.h:236-239, 312-313 -/
def peek (s : St) : St :=
  let up := if s.active then (s.count + 1) % 65536 else s.count
  let n := (up + 65535) % 65536
  { s with count := n, deletes := if n = 0 then s.deletes + 1 else s.deletes }

/-- hand a handle over, memory.h:574-577 -/
def give (s : St) (i j : Nat) : St :=
  match s.tasks[i]? with
  | none => s
  | some t =>
    let s1 := s.put i { t with own := t.own - 1 }
    match s1.tasks[j]? with
    | none => s
    | some u => s1.put j { u with own := u.own + 1 }

/-- one action; memory.h:259-262, 309-329, 548-577.  A handle given up is no longer the task's from the start of the
call, a copy is the task's from the end of the call. -/
def step (s : St) : Act → St
  | .copy i => begin s i fun t => { t with pc := .copyCheck }
  | .fromMaster i => begin s i fun t => { t with pc := .fromCheck }
  | .drop i => begin s i fun t => ⟨.dropLoad, t.own - 1⟩
  | .reset i => begin s i fun t => { t with pc := .resetCheck }
  | .tick i => tick s i
  | .reuse i => reuse s i
  | .give i j => give s i j
  | .peek _ => peek s

/-- a sequence of actions -/
def run (s : St) : List Act → St
  | [] => s
  | a :: as => run (step s a) as

/-- `n` tasks and a `layer2::shared_ptr` made from an object, memory.h:79-87, 458-459, 483-485 -/
def start (n : Nat) : St := ⟨1, true, 0, List.replicate n ⟨.idle, 0⟩⟩

/-! ## Specification -/

/-- handles, and the master while it was not reset -/
def owners (s : St) : Nat := (s.tasks.map Task.own).sum + (if s.active then 1 else 0)

/-- the handles of task `i` -/
def held (s : St) (i : Nat) : Nat := ((s.tasks[i]?).map Task.own).getD 0

/-- no task is in the middle of a call -/
def quiet (s : St) : Prop := ∀ t ∈ s.tasks, t.pc = .idle

/-- The programs covered: a call is begun only while no other task is in the middle of one (calls are made in critical
sections) except for `peek`, which may come at any time; handles are copied only while the master was not reset (C29)
and there are fewer than 65534 owners. -/
def allowed (s : St) : Act → Prop
  | .copy i => quiet s ∧ 0 < held s i ∧ s.active = true ∧ owners s < 65534
  | .fromMaster _ => quiet s ∧ owners s < 65534
  | .drop i => quiet s ∧ 0 < held s i
  | .reset _ => quiet s
  | .tick _ | .reuse _ => True
  | .give i j => 0 < held s i ∧ j < s.tasks.length
  | .peek i => 0 < held s i ∧ s.active = true

def legal (s : St) : List Act → Prop
  | [] => True
  | a :: as => allowed s a ∧ legal (step s a) as

/-- the states such programs reach -/
def Reached (s : St) : Prop := ∃ n as, legal (start n) as ∧ run (start n) as = s

/-! ## Proofs -/

theorem sum_set (l : List Task) (i : Nat) (x y : Task) (h : l[i]? = some x) :
    ((l.set i y).map Task.own).sum + x.own = (l.map Task.own).sum + y.own := by
  induction l generalizing i with
  | nil => simp at h
  | cons a l ih =>
    cases i with
    | zero =>
      simp only [List.getElem?_cons_zero, Option.some.injEq] at h
      subst h
      simp only [List.set_cons_zero, List.map_cons, List.sum_cons]; omega
    | succ i =>
      have := ih i (by simpa using h)
      simp only [List.set_cons_succ, List.map_cons, List.sum_cons]; omega

/-- handles of which one is being given up -/
def pend : Pc → Nat
  | .dropLoad | .dropStore _ => 1
  | _ => 0

/-- where task `i` is -/
def pcOf (s : St) (i : Nat) : Pc := ((s.tasks[i]?).map Task.pc).getD .idle

/-- what holds of the control block while a task is at `pc` and the others are between calls; `k` is how much too large
the count is, `d` how often the object was deleted when it still had owners -/
def Mid (k d : Nat) (s : St) (pc : Pc) : Prop :=
  s.count < 65536 ∧ s.count = owners s + pend pc + k ∧
  match pc with
  | .idle | .fromCheck | .resetCheck => s.deletes = d + (if s.count = 0 then 1 else 0)
  | .copyCheck | .copyLoad => s.active = true ∧ s.deletes = d
  | .copyStore v => s.active = true ∧ v = s.count ∧ s.deletes = d
  | .resetFlag => s.active = true ∧ s.deletes = d
  | .dropLoad => s.deletes = d
  | .dropStore v => v = s.count ∧ s.deletes = d
  | .dropTest v => v = s.count ∧ s.deletes = d
  | .dropDel => s.count = 0 ∧ s.deletes = d

/-- room for copies in progress -/
def room (s : St) : Pc → Prop
  | .fromCheck | .copyCheck | .copyLoad | .copyStore _ => owners s < 65534
  | _ => True

/-- What holds between any two actions: at most task `i` is in the middle of a call. -/
def TInv (k d : Nat) (s : St) : Prop :=
  ∃ i, (∀ j t, s.tasks[j]? = some t → j ≠ i → t.pc = .idle) ∧ Mid k d s (pcOf s i) ∧ room s (pcOf s i)

theorem others_put {s : St} {i : Nat} {t : Task} (h : ∀ j t, s.tasks[j]? = some t → j ≠ i → t.pc = .idle) :
    ∀ j u, (s.put i t).tasks[j]? = some u → j ≠ i → u.pc = .idle := by
  intro j u hj hne
  simp only [St.put, List.getElem?_set_ne (Ne.symm hne)] at hj
  exact h j u hj hne

theorem pcOf_put {s : St} {i : Nat} {t u : Task} (h : s.tasks[i]? = some t) : pcOf (s.put i u) i = u.pc := by
  obtain ⟨hl, hv⟩ := List.getElem?_eq_some_iff.mp h
  simp [pcOf, St.put, hl]

theorem owners_put {s : St} {i : Nat} {t u : Task} (h : s.tasks[i]? = some t) :
    owners (s.put i u) + t.own = owners s + u.own := by
  obtain ⟨c, a, d, ts⟩ := s
  have := sum_set ts i t u h
  cases a <;> simp only [owners, St.put, if_true, Bool.false_eq_true, if_false] <;> omega

theorem owners_count (s : St) (c : Nat) : owners { s with count := c } = owners s := rfl

theorem active_owners {s : St} (h : s.active = true) : 0 < owners s := by simp [owners, h]

theorem held_owners {s : St} {i : Nat} (h : 0 < held s i) : 0 < owners s := by
  unfold held at h
  cases ht : s.tasks[i]? with
  | none => simp [ht] at h
  | some t =>
    simp only [ht, Option.map_some, Option.getD_some] at h
    have := sum_set s.tasks i t ⟨.idle, 0⟩ ht
    simp only at this
    unfold owners; omega

theorem inv_tick {k d : Nat} (hk : k ≤ 1) {s : St} (h : TInv k d s) (j : Nat) : TInv k d (tick s j) := by
  obtain ⟨i, h1, h2, h3⟩ := h
  unfold tick
  split
  · exact ⟨i, h1, h2, h3⟩
  · rename_i t ht
    by_cases hji : j ≠ i
    · rw [h1 j t ht hji]
      exact ⟨i, h1, h2, h3⟩
    have hji : j = i := Decidable.not_not.mp hji
    subst hji
    have hpc : pcOf s j = t.pc := by simp [pcOf, ht]
    rw [hpc] at h2 h3
    have ho := fun u => owners_put (u := u) ht
    obtain ⟨c1, c2, c3⟩ := h2
    cases e : t.pc with
    | idle => exact ⟨j, h1, by rw [hpc]; exact ⟨c1, c2, c3⟩, by rw [hpc]; exact h3⟩
    | fromCheck =>
      simp only
      rw [e] at c2 c3 h3
      refine ⟨j, others_put h1, ?_⟩
      rw [pcOf_put ht]
      have := ho { t with pc := if s.active then .copyCheck else .idle }
      simp only at this
      by_cases ha : s.active = true
      · have hpos := active_owners ha
        simp only [pend] at c2
        simp only [show s.count ≠ 0 by omega, if_false] at c3
        simp only [ha, if_true] at this ⊢
        refine ⟨⟨c1, ?_, ha, c3⟩, ?_⟩
        · simp only [pend]; rw [show (s.put j { pc := .copyCheck, own := t.own }).count = s.count from rfl]; omega
        · simp only [room] at h3 ⊢; omega
      · simp only [ha, Bool.false_eq_true, if_false] at this ⊢
        refine ⟨⟨c1, ?_, c3⟩, trivial⟩
        simp only [pend] at c2 ⊢; rw [show (s.put j { pc := .idle, own := t.own }).count = s.count from rfl]; omega
    | copyCheck =>
      simp only
      rw [e] at c2 c3 h3
      obtain ⟨ha, c4⟩ := c3
      refine ⟨j, others_put h1, ?_⟩
      rw [pcOf_put ht]
      have := ho { t with pc := .copyLoad }
      simp only [ha, if_true] at this ⊢
      refine ⟨⟨c1, ?_, ha, c4⟩, ?_⟩
      · simp only [pend] at c2 ⊢; rw [show (s.put j { pc := .copyLoad, own := t.own }).count = s.count from rfl]; omega
      · simp only [room] at h3 ⊢; omega
    | copyLoad =>
      simp only
      rw [e] at c2 c3 h3
      obtain ⟨ha, c4⟩ := c3
      refine ⟨j, others_put h1, ?_⟩
      rw [pcOf_put ht]
      have := ho { t with pc := .copyStore s.count }
      simp only at this ⊢
      refine ⟨⟨c1, ?_, ha, rfl, c4⟩, ?_⟩
      · simp only [pend] at c2 ⊢; rw [show (s.put j { pc := .copyStore s.count, own := t.own }).count = s.count from rfl]; omega
      · simp only [room] at h3 ⊢; omega
    | copyStore v =>
      simp only
      rw [e] at c2 c3 h3
      obtain ⟨ha, hv, c4⟩ := c3
      subst hv
      simp only [room] at h3
      simp only [pend] at c2
      have hm : (s.count + 1) % 65536 = s.count + 1 := by omega
      refine ⟨j, others_put (s := { s with count := (s.count + 1) % 65536 }) h1, ?_⟩
      rw [pcOf_put (s := { s with count := (s.count + 1) % 65536 }) ht]
      have := owners_put (s := { s with count := (s.count + 1) % 65536 }) (u := ⟨.idle, t.own + 1⟩) ht
      rw [owners_count s] at this
      simp only at this ⊢
      rw [hm] at this ⊢
      refine ⟨⟨?_, ?_, ?_⟩, trivial⟩
      · show s.count + 1 < 65536
        omega
      · show s.count + 1 = _
        simp only [pend]; omega
      · show s.deletes = d + if s.count + 1 = 0 then 1 else 0
        simp [c4]
    | resetCheck =>
      simp only
      rw [e] at c2 c3
      refine ⟨j, others_put h1, ?_⟩
      rw [pcOf_put ht]
      have := ho { t with pc := if s.active then .resetFlag else .idle }
      simp only at this
      by_cases ha : s.active = true
      · have hpos := active_owners ha
        simp only [pend] at c2
        simp only [show s.count ≠ 0 by omega, if_false] at c3
        simp only [ha, if_true] at this ⊢
        refine ⟨⟨c1, ?_, ha, c3⟩, trivial⟩
        simp only [pend]; rw [show (s.put j { pc := .resetFlag, own := t.own }).count = s.count from rfl]; omega
      · simp only [ha, Bool.false_eq_true, if_false] at this ⊢
        refine ⟨⟨c1, ?_, c3⟩, trivial⟩
        simp only [pend] at c2 ⊢; rw [show (s.put j { pc := .idle, own := t.own }).count = s.count from rfl]; omega
    | resetFlag =>
      simp only
      rw [e] at c2 c3
      obtain ⟨ha, c4⟩ := c3
      refine ⟨j, others_put (s := { s with active := false }) h1, ?_⟩
      rw [pcOf_put (s := { s with active := false }) ht]
      have := owners_put (s := { s with active := false }) (u := { t with pc := .dropLoad }) ht
      have hoa : owners { s with active := false } + 1 = owners s := by simp [owners, ha]
      simp only at this ⊢
      refine ⟨⟨c1, ?_, c4⟩, trivial⟩
      simp only [pend] at c2 ⊢
      show s.count = _
      omega
    | dropLoad =>
      simp only
      rw [e] at c2 c3
      refine ⟨j, others_put h1, ?_⟩
      rw [pcOf_put ht]
      have := ho { t with pc := .dropStore s.count }
      simp only at this ⊢
      refine ⟨⟨c1, ?_, rfl, c3⟩, trivial⟩
      simp only [pend] at c2 ⊢
      show s.count = _
      omega
    | dropStore v =>
      simp only
      rw [e] at c2 c3
      obtain ⟨hv, c4⟩ := c3
      subst hv
      simp only [pend] at c2
      have hm : (s.count + 65535) % 65536 = s.count - 1 := by omega
      refine ⟨j, others_put (s := { s with count := (s.count + 65535) % 65536 }) h1, ?_⟩
      rw [pcOf_put (s := { s with count := (s.count + 65535) % 65536 }) ht]
      have := owners_put (s := { s with count := (s.count + 65535) % 65536 })
        (u := { t with pc := .dropTest ((s.count + 65535) % 65536) }) ht
      rw [owners_count s] at this
      simp only at this ⊢
      rw [hm] at this ⊢
      refine ⟨⟨?_, ?_, rfl, c4⟩, trivial⟩
      · show s.count - 1 < 65536
        omega
      · show s.count - 1 = _
        simp only [pend]; omega
    | dropTest v =>
      simp only
      rw [e] at c2 c3
      obtain ⟨hv, c4⟩ := c3
      refine ⟨j, others_put h1, ?_⟩
      rw [pcOf_put ht]
      have := ho { t with pc := if s.count = 0 then .dropDel else .idle }
      simp only at this
      simp only [pend] at c2
      by_cases hz : s.count = 0
      · simp only [hz, if_true] at this ⊢
        refine ⟨⟨c1, ?_, hz, c4⟩, trivial⟩
        simp only [pend]
        show s.count = _
        omega
      · simp only [hz, if_false] at this ⊢
        refine ⟨⟨c1, ?_, ?_⟩, trivial⟩
        · simp only [pend]
          show s.count = _
          omega
        · show s.deletes = d + if s.count = 0 then 1 else 0
          simp [hz, c4]
    | dropDel =>
      simp only
      rw [e] at c2 c3
      obtain ⟨hz, c4⟩ := c3
      refine ⟨j, others_put (s := { s with deletes := s.deletes + 1 }) h1, ?_⟩
      rw [pcOf_put (s := { s with deletes := s.deletes + 1 }) ht]
      have := owners_put (s := { s with deletes := s.deletes + 1 }) (u := { t with pc := .idle }) ht
      rw [show owners { s with deletes := s.deletes + 1 } = owners s from rfl] at this
      simp only at this ⊢
      refine ⟨⟨c1, ?_, ?_⟩, trivial⟩
      · simp only [pend] at c2 ⊢
        show s.count = _
        omega
      · show s.deletes + 1 = d + if s.count = 0 then 1 else 0
        simp [hz, c4]

theorem inv_reuse {k d : Nat} (hk : k ≤ 1) {s : St} (h : TInv k d s) (j : Nat) : TInv k d (reuse s j) := by
  have ht := inv_tick hk h j
  unfold reuse
  split
  · exact h
  · rename_i t e
    split
    · rename_i v hv
      obtain ⟨i, h1, h2, h3⟩ := h
      by_cases hji : j = i
      · subst hji
        have hpc : pcOf s j = .dropTest v := by simp [pcOf, e, hv]
        rw [hpc] at h2
        have hc : v = s.count := h2.2.2.1
        simp only [tick, e, hv] at ht
        rw [hc]; exact ht
      · have := h1 j t e hji
        rw [hv] at this; cases this
    · exact h

theorem quiet_mid {k d : Nat} {s : St} (h : TInv k d s) (hq : quiet s) : Mid k d s .idle := by
  obtain ⟨i, _, h2, _⟩ := h
  have : pcOf s i = .idle := by
    unfold pcOf
    cases ht : s.tasks[i]? with
    | none => rfl
    | some t => simpa using hq t (List.mem_of_getElem? ht)
  rw [this] at h2; exact h2

theorem inv_step {k d : Nat} (hk : k ≤ 1) {s : St} (h : TInv k d s) (a : Act) (ha : allowed s a) :
    TInv k d (step s a) := by
  cases a with
  | tick i => exact inv_tick hk h i
  | reuse i => exact inv_reuse hk h i
  | copy i =>
    obtain ⟨hq, hh, hac, hr⟩ := ha
    obtain ⟨c1, c2, c3⟩ := quiet_mid h hq
    simp only [step, begin]
    split
    · exact h
    · rename_i t ht
      rw [if_pos (hq t (List.mem_of_getElem? ht))]
      have := owners_put (u := { t with pc := .copyCheck }) ht
      have hpos := active_owners hac
      simp only [pend] at c2
      simp only at this
      simp only [show s.count ≠ 0 by omega, if_false] at c3
      refine ⟨i, others_put fun j t hj _ => hq t (List.mem_of_getElem? hj), ?_⟩
      rw [pcOf_put ht]
      refine ⟨⟨c1, ?_, hac, c3⟩, ?_⟩
      · simp only [pend]
        show s.count = _
        omega
      · simp only [room]; omega
  | fromMaster i =>
    obtain ⟨hq, hr⟩ := ha
    obtain ⟨c1, c2, c3⟩ := quiet_mid h hq
    simp only [step, begin]
    split
    · exact h
    · rename_i t ht
      rw [if_pos (hq t (List.mem_of_getElem? ht))]
      have := owners_put (u := { t with pc := .fromCheck }) ht
      simp only [pend] at c2
      simp only at this
      refine ⟨i, others_put fun j t hj _ => hq t (List.mem_of_getElem? hj), ?_⟩
      rw [pcOf_put ht]
      refine ⟨⟨c1, ?_, c3⟩, ?_⟩
      · simp only [pend]
        show s.count = _
        omega
      · simp only [room]; omega
  | reset i =>
    have hq : quiet s := ha
    obtain ⟨c1, c2, c3⟩ := quiet_mid h hq
    simp only [step, begin]
    split
    · exact h
    · rename_i t ht
      rw [if_pos (hq t (List.mem_of_getElem? ht))]
      have := owners_put (u := { t with pc := .resetCheck }) ht
      simp only [pend] at c2
      simp only at this
      refine ⟨i, others_put fun j t hj _ => hq t (List.mem_of_getElem? hj), ?_⟩
      rw [pcOf_put ht]
      refine ⟨⟨c1, ?_, c3⟩, trivial⟩
      simp only [pend]
      show s.count = _
      omega
  | drop i =>
    obtain ⟨hq, hh⟩ := ha
    obtain ⟨c1, c2, c3⟩ := quiet_mid h hq
    have hpos := held_owners hh
    simp only [step, begin]
    split
    · exact h
    · rename_i t ht
      rw [if_pos (hq t (List.mem_of_getElem? ht))]
      simp only [held, ht, Option.map_some, Option.getD_some] at hh
      have := owners_put (u := ⟨.dropLoad, t.own - 1⟩) ht
      simp only [pend] at c2
      simp only at this
      simp only [show s.count ≠ 0 by omega, if_false] at c3
      refine ⟨i, others_put fun j t hj _ => hq t (List.mem_of_getElem? hj), ?_⟩
      rw [pcOf_put ht]
      refine ⟨⟨c1, ?_, c3⟩, trivial⟩
      simp only [pend]
      show s.count = _
      omega
  | give i j =>
    obtain ⟨hh, hj⟩ := ha
    simp only [step, give]
    split
    · exact h
    · rename_i t ht
      simp only [held, ht, Option.map_some, Option.getD_some] at hh
      split
      · exact h
      · rename_i u hu
        have o1 := owners_put (u := { t with own := t.own - 1 }) ht
        have o2 := owners_put (u := { u with own := u.own + 1 }) hu
        simp only at o1 o2
        -- only the numbers of handles change
        have hpcs : ∀ m : Nat, (((s.put i { t with own := t.own - 1 }).put j { u with own := u.own + 1 }).tasks[m]?).map Task.pc
            = (s.tasks[m]?).map Task.pc := by
          intro m
          have e1 : ∀ m : Nat, ((s.put i { t with own := t.own - 1 }).tasks[m]?).map Task.pc = (s.tasks[m]?).map Task.pc := by
            intro m
            by_cases hm : i = m
            · subst hm
              obtain ⟨hl, _⟩ := List.getElem?_eq_some_iff.mp ht
              rw [ht]; simp [St.put, hl]
            · simp [St.put, List.getElem?_set_ne hm]
          rw [← e1 m]
          by_cases hm : j = m
          · subst hm
            obtain ⟨hl, _⟩ := List.getElem?_eq_some_iff.mp hu
            rw [hu]
            rw [show ((s.put i { t with own := t.own - 1 }).put j { u with own := u.own + 1 }).tasks =
              (s.put i { t with own := t.own - 1 }).tasks.set j { u with own := u.own + 1 } from rfl, List.getElem?_set_self hl]
            rfl
          · rw [show ((s.put i { t with own := t.own - 1 }).put j { u with own := u.own + 1 }).tasks =
              (s.put i { t with own := t.own - 1 }).tasks.set j { u with own := u.own + 1 } from rfl, List.getElem?_set_ne hm]
        obtain ⟨b, h1, h2, h3⟩ := h
        refine ⟨b, fun m w hw hne => ?_, ?_⟩
        · have := hpcs m
          rw [hw] at this
          cases hs : s.tasks[m]? with
          | none => simp [hs] at this
          | some x =>
            simp only [hs, Option.map_some, Option.some.injEq] at this
            rw [this]; exact h1 m x hs hne
        · have hpb : pcOf ((s.put i { t with own := t.own - 1 }).put j { u with own := u.own + 1 }) b = pcOf s b := by
            unfold pcOf; rw [hpcs b]
          have hoo : owners ((s.put i { t with own := t.own - 1 }).put j { u with own := u.own + 1 }) = owners s := by omega
          rw [hpb]
          constructor
          · unfold Mid at h2 ⊢
            rw [hoo]; exact h2
          · unfold room at h3 ⊢
            rw [hoo]; exact h3
  | peek i =>
    obtain ⟨hh, hac⟩ := ha
    obtain ⟨b, h1, h2, h3⟩ := h
    have hpos := held_owners hh
    have hc : (((s.count + 1) % 65536) + 65535) % 65536 = s.count := by have := h2.1; omega
    have hne : s.count ≠ 0 := by have := h2.2.1; omega
    have : peek s = s := by
      obtain ⟨c, a, d, ts⟩ := s
      simp only at hac hc hne
      simp [peek, hac, hc, hne]
    simp only [step, this]
    exact ⟨b, h1, h2, h3⟩

theorem inv_run {k d : Nat} (hk : k ≤ 1) {s : St} (h : TInv k d s) (as : List Act) (ha : legal s as) :
    TInv k d (run s as) := by
  induction as generalizing s with
  | nil => exact h
  | cons a as ih => exact ih (inv_step hk h a ha.1) ha.2

theorem inv_start (n : Nat) : TInv 0 0 (start n) := by
  have hsum : ∀ n : Nat, ((List.replicate n (⟨.idle, 0⟩ : Task)).map Task.own).sum = 0 := by
    intro n; simp
  refine ⟨n, fun j t hj _ => ?_, ?_⟩
  · have := List.mem_of_getElem? hj
    simp only [start, List.mem_replicate] at this
    rw [this.2]
  · have : pcOf (start n) n = .idle := by simp [pcOf, start]
    rw [this]
    refine ⟨⟨by simp [start], ?_, by simp [start]⟩, trivial⟩
    simp [start, owners, pend]

theorem inv_reached {s : St} (h : Reached s) : TInv 0 0 s := by
  obtain ⟨n, as, h1, rfl⟩ := h
  exact inv_run (by omega) (inv_start n) as h1

/-- **Sharing in critical sections is sound**, for any number of tasks, even if tasks may copy a handle and destroy the
copy at any time: the object is never deleted while it has an owner, never twice, and between calls `use_count()` is the
number of owners and the object was deleted exactly if there is none.  The full property has no critical sections: see
`copies_miscount`, `drops_miscount`, `drops_delete_twice` and `copy_during_reset`. -/
theorem tasks_share_partial (n : Nat) (as : List Act) (h : legal (start n) as) :
    let s := run (start n) as
    (0 < owners s → s.deletes = 0) ∧ s.deletes ≤ 1 ∧
      (quiet s → s.count = owners s ∧ (s.deletes = 1 ↔ owners s = 0)) := by
  intro s
  have hi : TInv 0 0 s := inv_run (by omega) (inv_start n) as h
  refine ⟨fun hp => ?_, ?_, fun hq => ?_⟩
  · obtain ⟨i, _, ⟨_, c2, c3⟩, _⟩ := hi
    have hne : s.count ≠ 0 := by omega
    cases e : pcOf s i <;> simp only [e, hne, if_false] at c3 <;> omega
  · obtain ⟨i, _, ⟨_, c2, c3⟩, _⟩ := hi
    cases e : pcOf s i <;> simp only [e] at c3 <;> (try split at c3) <;> omega
  · obtain ⟨_, c2, c3⟩ := quiet_mid hi hq
    simp only [pend] at c2
    refine ⟨by omega, ?_⟩
    simp only at c3
    split at c3 <;> omega

/-- Meets the hypotheses: two tasks; both copy the master, one copies and destroys a handle in the middle of the other's
call, the master is reset, and both handles go. -/
def demo : List Act :=
  [.fromMaster 0, .tick 0, .tick 0, .tick 0, .tick 0, .fromMaster 1, .tick 1, .tick 1, .tick 1, .peek 0, .tick 1,
    .reset 0, .tick 0, .tick 0, .tick 0, .tick 0, .reuse 0, .drop 0, .tick 0, .tick 0, .tick 0,
    .drop 1, .tick 1, .tick 1, .tick 1, .tick 1]

example : legal (start 2) demo ∧ run (start 2) demo = ⟨0, false, 1, [⟨.idle, 0⟩, ⟨.idle, 0⟩]⟩ := by
  refine ⟨?_, by decide +kernel⟩
  simp [demo, legal, allowed, quiet, held, owners, step, begin, tick, reuse, peek, St.put, start]

/-- the control block as C29 has it -/
def St.block (s : St) : Block := ⟨s.count, s.active, true, 1, s.deletes⟩

/-- **Without interference** the accesses of a copy amount to the copy of C29 … -/
theorem copy_alone (s : St) (i : Nat) (a : Nat) (h : s.tasks[i]? = some ⟨.idle, a⟩) :
    incRef [s.block] (some 0) = some [(run s [.copy i, .tick i, .tick i, .tick i]).block] ∧
      (run s [.copy i, .tick i, .tick i, .tick i]).tasks = s.tasks.set i ⟨.idle, a + 1⟩ := by
  obtain ⟨hl, hv⟩ := List.getElem?_eq_some_iff.mp h
  cases ha : s.active <;>
    simp [run, step, begin, h, tick, St.put, hl, hv, ha, incRef, deref, St.block, rd, wr]

/-- … and those of giving up a handle to that of C29, whether or not the compiler fetches the count again. -/
theorem drop_alone (s : St) (i : Nat) (a : Nat) (h : s.tasks[i]? = some ⟨.idle, a + 1⟩)
    (x : Act) (hx : x = .tick i ∨ x = .reuse i) :
    decRef [s.block] 0 = some [(run s [.drop i, .tick i, .tick i, x, .tick i]).block] ∧
      (run s [.drop i, .tick i, .tick i, x, .tick i]).tasks = s.tasks.set i ⟨.idle, a⟩ := by
  obtain ⟨hl, hv⟩ := List.getElem?_eq_some_iff.mp h
  by_cases hz : (s.count + 65535) % 65536 = 0 <;> rcases hx with rfl | rfl <;>
    simp [run, step, begin, h, tick, reuse, St.put, hl, hv, hz, decRef, deref, St.block, rd, wr]

/-! ## Where the code departs from the property -/

theorem run_append (s : St) (as bs : List Act) : run s (as ++ bs) = run (run s as) bs := by
  induction as generalizing s with
  | nil => rfl
  | cons a as ih => exact ih (step s a)

theorem held_task {s : St} {i : Nat} (hq : quiet s) (h : 0 < held s i) :
    ∃ a, s.tasks[i]? = some ⟨.idle, a + 1⟩ := by
  unfold held at h
  cases ht : s.tasks[i]? with
  | none => simp [ht] at h
  | some t =>
    obtain ⟨pc, own⟩ := t
    have := hq _ (List.mem_of_getElem? ht)
    simp only [ht, Option.map_some, Option.getD_some] at h this
    exact ⟨own - 1, by rw [this]; congr 2; omega⟩

theorem quiet_set {s : St} {i a : Nat} {c d : Nat} {b : Bool} (hq : quiet s) :
    quiet ⟨c, b, d, s.tasks.set i ⟨.idle, a⟩⟩ := by
  intro t ht
  rcases List.mem_or_eq_of_mem_set ht with h | rfl
  · exact hq t h
  · rfl

/-- a call that gives up a handle, uninterrupted -/
theorem whole_drop (s : St) (i a : Nat) (h : s.tasks[i]? = some ⟨.idle, a + 1⟩) (h0 : 0 < s.count) (h1 : s.count < 65536) :
    run s [.drop i, .tick i, .tick i, .tick i, .tick i] =
      ⟨s.count - 1, s.active, if s.count = 1 then s.deletes + 1 else s.deletes, s.tasks.set i ⟨.idle, a⟩⟩ := by
  obtain ⟨hl, hv⟩ := List.getElem?_eq_some_iff.mp h
  have hm : (s.count + 65535) % 65536 = s.count - 1 := by omega
  by_cases hz : s.count = 1
  · simp [run, step, begin, h, tick, St.put, hl, hv, hz]
  · have : s.count - 1 ≠ 0 := by omega
    simp [run, step, begin, h, tick, St.put, hl, hv, hz, hm, this]

theorem exists_held {s : St} (h : 0 < (s.tasks.map Task.own).sum) : ∃ i, 0 < held s i := by
  obtain ⟨c, b, d, ts⟩ := s
  simp only at h
  induction ts with
  | nil => simp at h
  | cons t ts ih =>
    by_cases ht : 0 < t.own
    · exact ⟨0, by simpa [held] using ht⟩
    · simp only [List.map_cons, List.sum_cons] at h
      obtain ⟨i, hi⟩ := ih (by omega)
      exact ⟨i + 1, by simpa [held] using hi⟩

/-- when the count is too small, the owners that go first delete the object under the others -/
theorem short_count_deletes (s : St) (hq : quiet s) (h0 : 0 < s.count) (h1 : s.count < owners s) (h2 : s.count < 65536) :
    ∃ as, (run s as).deletes = s.deletes + 1 ∧ 0 < owners (run s as) := by
  generalize hc : s.count = c
  induction c generalizing s with
  | zero => omega
  | succ c ih =>
    have hsum : 0 < (s.tasks.map Task.own).sum := by
      unfold owners at h1
      split at h1 <;> omega
    obtain ⟨i, hi⟩ := exists_held hsum
    obtain ⟨a, ha⟩ := held_task hq hi
    have hw := whole_drop s i a ha h0 h2
    have hs := sum_set s.tasks i _ ⟨.idle, a⟩ ha
    simp only at hs
    have hown : owners ⟨s.count - 1, s.active, if s.count = 1 then s.deletes + 1 else s.deletes,
        s.tasks.set i ⟨.idle, a⟩⟩ + 1 = owners s := by
      simp only [owners]
      split <;> omega
    by_cases hz : c = 0
    · refine ⟨_, by rw [hw]; simp [hc, hz], ?_⟩
      rw [hw]; omega
    · obtain ⟨as, e1, e2⟩ := ih _ (quiet_set (i := i) (a := a) (c := s.count - 1)
        (d := if s.count = 1 then s.deletes + 1 else s.deletes) (b := s.active) hq)
        (by simp only; omega) (by simp only; omega) (by simp only; omega) (by simp only; omega)
      refine ⟨[.drop i, .tick i, .tick i, .tick i, .tick i] ++ as, ?_, ?_⟩
      · rw [run_append, hw, e1]
        have : s.count ≠ 1 := by omega
        simp [this]
      · rw [run_append, hw]; exact e2

/-- **Violation.**  Two tasks copy a handle each, the second between the first one's fetch and store of the count: one
owner is not counted, and the object can be deleted under an owner. -/
theorem copies_miscount {s : St} (h : Reached s) (hq : quiet s) (ha : s.active = true) (i j : Nat) (hij : i ≠ j)
    (hi : 0 < held s i) (hj : 0 < held s j) (hr : owners s < 65534) :
    let s' := run s [.copy i, .tick i, .tick i, .copy j, .tick j, .tick j, .tick j, .tick i]
    quiet s' ∧ owners s' = owners s + 2 ∧ s'.count = owners s + 1 ∧
      ∃ as, (run s' as).deletes = 1 ∧ 0 < owners (run s' as) := by
  obtain ⟨c1, c2, c3⟩ := quiet_mid (inv_reached h) hq
  obtain ⟨a, hta⟩ := held_task hq hi
  obtain ⟨b, htb⟩ := held_task hq hj
  obtain ⟨hla, hva⟩ := List.getElem?_eq_some_iff.mp hta
  obtain ⟨hlb, hvb⟩ := List.getElem?_eq_some_iff.mp htb
  have hpos := active_owners ha
  simp only [pend] at c2
  simp only [show s.count ≠ 0 by omega, if_false] at c3
  have e : run s [.copy i, .tick i, .tick i, .copy j, .tick j, .tick j, .tick j, .tick i] =
      ⟨(s.count + 1) % 65536, true, s.deletes, (s.tasks.set j ⟨.idle, b + 2⟩).set i ⟨.idle, a + 2⟩⟩ := by
    simp [run, step, begin, tick, St.put, hta, htb, hla, hlb, hva, hvb, ha, List.getElem?_set, hij, Ne.symm hij, List.set_comm _ _ hij]
  have hm : (s.count + 1) % 65536 = s.count + 1 := by omega
  intro s'
  have e' : s' = ⟨s.count + 1, true, s.deletes, (s.tasks.set j ⟨.idle, b + 2⟩).set i ⟨.idle, a + 2⟩⟩ := by
    rw [← hm]; exact e
  have hqq : quiet s' := by
    rw [e']
    exact quiet_set (s := ⟨s.count, s.active, s.deletes, s.tasks.set j ⟨.idle, b + 2⟩⟩) (quiet_set hq)
  have s1 := sum_set s.tasks j _ ⟨.idle, b + 2⟩ htb
  have s2 := sum_set (s.tasks.set j ⟨.idle, b + 2⟩) i _ ⟨.idle, a + 2⟩ (by rw [List.getElem?_set_ne (Ne.symm hij)]; exact hta)
  simp only at s1 s2
  have ho : owners s' = owners s + 2 := by
    rw [e']; simp only [owners, ha, if_true]; omega
  have hc : s'.count = s.count + 1 := by rw [e']
  have hd : s'.deletes = 0 := by rw [e']; exact c3
  refine ⟨hqq, ho, by omega, ?_⟩
  obtain ⟨as, e1, e2⟩ := short_count_deletes s' hqq (by omega) (by omega) (by omega)
  exact ⟨as, by rw [e1, hd], e2⟩

/-- **Violation.**  Two tasks give up a handle each, the second between the first one's fetch and store of the count: one
owner too many stays counted, and the object is never deleted, whatever follows. -/
theorem drops_miscount {s : St} (h : Reached s) (hq : quiet s) (i j : Nat) (hij : i ≠ j)
    (hi : 0 < held s i) (hj : 0 < held s j) :
    let s' := run s [.drop i, .tick i, .drop j, .tick j, .tick j, .tick j, .tick i, .tick i]
    quiet s' ∧ owners s' + 2 = owners s ∧ s'.count = owners s' + 1 ∧
      ∀ as, legal s' as → (run s' as).deletes = 0 := by
  obtain ⟨c1, c2, c3⟩ := quiet_mid (inv_reached h) hq
  obtain ⟨a, hta⟩ := held_task hq hi
  obtain ⟨b, htb⟩ := held_task hq hj
  obtain ⟨hla, hva⟩ := List.getElem?_eq_some_iff.mp hta
  obtain ⟨hlb, hvb⟩ := List.getElem?_eq_some_iff.mp htb
  have s1 := sum_set s.tasks j _ ⟨.idle, b⟩ htb
  have s2 := sum_set (s.tasks.set j ⟨.idle, b⟩) i _ ⟨.idle, a⟩ (by rw [List.getElem?_set_ne (Ne.symm hij)]; exact hta)
  simp only at s1 s2
  have hge : 2 ≤ owners s := by unfold owners; omega
  simp only [pend] at c2
  simp only [show s.count ≠ 0 by omega, if_false] at c3
  have hm : (s.count + 65535) % 65536 = s.count - 1 := by omega
  have hz : s.count - 1 ≠ 0 := by omega
  have e : run s [.drop i, .tick i, .drop j, .tick j, .tick j, .tick j, .tick i, .tick i] =
      ⟨s.count - 1, s.active, s.deletes, (s.tasks.set j ⟨.idle, b⟩).set i ⟨.idle, a⟩⟩ := by
    simp [run, step, begin, tick, St.put, hta, htb, hla, hlb, hva, hvb, hm, hz, List.getElem?_set, hij, Ne.symm hij, List.set_comm _ _ hij]
  intro s'
  have e' : s' = _ := e
  have hqq : quiet s' := by
    rw [e']
    exact quiet_set (s := ⟨s.count, s.active, s.deletes, s.tasks.set j ⟨.idle, b⟩⟩) (quiet_set hq)
  have ho : owners s' + 2 = owners s := by
    rw [e']; simp only [owners]
    split <;> omega
  have hc : s'.count = s.count - 1 := by rw [e']
  have hd : s'.deletes = 0 := by rw [e']; exact c3
  refine ⟨hqq, ho, by omega, fun as hl => ?_⟩
  have hi : TInv 1 0 s' := by
    refine ⟨s'.tasks.length, fun m t hm _ => hqq t (List.mem_of_getElem? hm), ?_⟩
    have : pcOf s' s'.tasks.length = .idle := by simp [pcOf]
    rw [this]
    refine ⟨⟨by omega, by simp only [pend]; omega, ?_⟩, trivial⟩
    simp only
    rw [if_neg (by omega), hd]
  obtain ⟨m, _, ⟨_, d2, d3⟩, _⟩ := inv_run (by omega) hi as hl
  have hne : (run s' as).count ≠ 0 := by omega
  cases e : pcOf (run s' as) m <;> simp only [e, hne, if_false] at d3 <;> omega

/-- **Violation.**  The last two owners go at the same time: both find that the count is zero, and the object is deleted
twice. -/
theorem drops_delete_twice {s : St} (h : Reached s) (hq : quiet s) (i j : Nat) (hij : i ≠ j)
    (hi : 0 < held s i) (hj : 0 < held s j) (htwo : owners s = 2) :
    (run s [.drop i, .drop j, .tick i, .tick i, .tick j, .tick j, .tick i, .tick i, .tick j, .tick j]).deletes = 2 := by
  obtain ⟨c1, c2, c3⟩ := quiet_mid (inv_reached h) hq
  obtain ⟨a, hta⟩ := held_task hq hi
  obtain ⟨b, htb⟩ := held_task hq hj
  obtain ⟨hla, hva⟩ := List.getElem?_eq_some_iff.mp hta
  obtain ⟨hlb, hvb⟩ := List.getElem?_eq_some_iff.mp htb
  simp only [pend] at c2
  have hc : s.count = 2 := by omega
  simp only [hc] at c3
  simp [run, step, begin, tick, St.put, hta, htb, hla, hlb, hva, hvb, hc, List.getElem?_set, hij, Ne.symm hij, c3]

/-- **Violation.**  The master is the only owner.  A task that copies it has seen that it is active, another resets it
and so deletes the object: the first goes on to make a handle to the deleted object. -/
theorem copy_during_reset {s : St} (h : Reached s) (hq : quiet s) (ha : s.active = true) (hone : owners s = 1)
    (i j : Nat) (hij : i ≠ j) (hi : i < s.tasks.length) (hj : j < s.tasks.length) :
    let s' := run s [.fromMaster i, .tick i, .tick i, .reset j, .tick j, .tick j, .tick j, .tick j, .tick j, .tick j,
      .tick i, .tick i]
    quiet s' ∧ s'.deletes = 1 ∧ 0 < held s' i ∧ s'.count = 1 := by
  obtain ⟨c1, c2, c3⟩ := quiet_mid (inv_reached h) hq
  simp only [pend] at c2
  have hc : s.count = 1 := by omega
  simp only [hc] at c3
  have hta : s.tasks[i]? = some ⟨.idle, s.tasks[i].own⟩ := by
    rw [List.getElem?_eq_getElem hi]
    congr 1
    rw [← hq s.tasks[i] (List.getElem_mem hi)]
  have htb : s.tasks[j]? = some ⟨.idle, s.tasks[j].own⟩ := by
    rw [List.getElem?_eq_getElem hj]
    congr 1
    rw [← hq s.tasks[j] (List.getElem_mem hj)]
  generalize s.tasks[i].own = a at hta
  generalize s.tasks[j].own = b at htb
  have hva := (List.getElem?_eq_some_iff.mp hta).2
  have hvb := (List.getElem?_eq_some_iff.mp htb).2
  have e : run s [.fromMaster i, .tick i, .tick i, .reset j, .tick j, .tick j, .tick j, .tick j, .tick j, .tick j,
      .tick i, .tick i] = ⟨1, false, 1, (s.tasks.set j ⟨.idle, b⟩).set i ⟨.idle, a + 1⟩⟩ := by
    simp [run, step, begin, tick, St.put, hta, htb, hi, hj, hva, hvb, hc, ha, List.getElem?_set, hij, Ne.symm hij, c3,
      List.set_comm _ _ hij]
  intro s'
  have e' : s' = _ := e
  refine ⟨?_, by rw [e'], ?_, by rw [e']⟩
  · rw [e']
    exact quiet_set (s := ⟨s.count, s.active, s.deletes, s.tasks.set j ⟨.idle, b⟩⟩) (quiet_set hq)
  · rw [e']; simp [held, hi]

/-- Meets the hypotheses of the first two: two tasks with a handle each, and the master. -/
example : ∃ s, Reached s ∧ quiet s ∧ s.active = true ∧ 0 < held s 0 ∧ 0 < held s 1 ∧ owners s < 65534 := by
  refine ⟨_, ⟨2, demo.take 11, ?_, rfl⟩, ?_⟩
  · simp [demo, legal, allowed, quiet, held, owners, step, begin, tick, reuse, peek, St.put, start]
  · simp [demo, run, quiet, held, owners, step, begin, tick, reuse, peek, St.put, start]

/-- Meets the hypotheses of the third: the same after the reset of the master. -/
example : ∃ s, Reached s ∧ quiet s ∧ 0 < held s 0 ∧ 0 < held s 1 ∧ owners s = 2 := by
  refine ⟨_, ⟨2, demo.take 17, ?_, rfl⟩, ?_⟩
  · simp [demo, legal, allowed, quiet, held, owners, step, begin, tick, reuse, peek, St.put, start]
  · simp [demo, run, quiet, held, owners, step, begin, tick, reuse, peek, St.put, start]

/-- Meets the hypotheses of the last: the start. -/
example : Reached (start 2) ∧ quiet (start 2) ∧ (start 2).active = true ∧ owners (start 2) = 1 ∧ 1 < (start 2).tasks.length :=
  ⟨⟨2, [], trivial, rfl⟩, by simp [quiet, start], rfl, rfl, by simp [start]⟩

end Verif.SharedPtr.Tasks
