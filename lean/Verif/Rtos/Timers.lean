import Verif.Rtos.More

/-!
# C86: FreeRTOS software timers

Modelled from `src/estd/port/freertos/timer.h` and `src/estd/port/freertos/wrapper/timer.h`.

The timer service of the kernel (`xTimerCreate`, `xTimerStart`, …) is not in the repository and is modelled by what the
FreeRTOS kernel documents, as in C73: every request is put on a queue of `configTIMER_QUEUE_LENGTH` (`cap`) commands and
carried out later, in order, by the timer task; a request that finds the queue full waits for its block time and is then
refused; the callback of an active timer runs when the timer expires, after which a one-shot timer is dormant.  When a timer
expires is left to the schedule.  A schedule is the list of the calls that have returned, of the commands carried out and of
the expiries, in the order in which they took effect.
-/
namespace Verif.Rtos.Timers
open Verif.Rtos

/-- the commands of the timer task that the wrappers send; wrapper/timer.h:53-61, 69-72, 94-97, 109-112 -/
inductive Cmd where
  | start
  | reset
  | stop
  | period (ticks : Nat)
  | delete
  deriving DecidableEq, Repr

/-- a timer of the kernel -/
structure Tmr where
  /-- its memory is there -/
  mem : Bool
  /-- its memory is a `StaticTimer_t` inside the wrapper -/
  static : Bool
  active : Bool
  autoReload : Bool
  period : Nat
  deriving DecidableEq, Repr

/-- a wrapper: the handle (`none` is a null handle), whether the timer's memory is its member `storage` (timer.h:40), and
whether its destructor has run -/
structure Obj where
  handle : Option Nat
  owns : Bool
  ended : Bool
  deriving DecidableEq, Repr

structure State where
  tmrs : List Tmr
  queue : List (Nat × Cmd)
  objs : List (Option Obj)
  deriving DecidableEq, Repr

def State.init : State := ⟨[], [], []⟩

/-- what can be seen of an execution -/
inductive Ev where
  /-- a request on a timer returned -/
  | sent (h : Nat) (c : Cmd) (accepted : Bool)
  /-- the callback of a timer ran -/
  | fired (h : Nat)
  deriving DecidableEq, Repr

inductive Op where
  /-- constructor of `timer<static>`, timer.h:16-21, 43-48; `memory` says whether the kernel's heap has room -/
  | create (static autoReload : Bool) (period : Nat) (memory : Bool)
  /-- `start`, `stop`, `reset`, `period(…)` and `free` of wrapper `o`, wrapper/timer.h:160-163, 170-173, 177-190 -/
  | send (o : Nat) (c : Cmd) (ticks : Nat) (timedOut : Bool)
  /-- the implicit copy constructor -/
  | copy (o : Nat)
  /-- the destructor `~timer()`, timer.h:23-27, 50-54 -/
  | destroy (o : Nat) (timedOut : Bool)
  /-- the storage of the wrapper ends, after its destructor -/
  | gone (o : Nat)
  /-- the timer task carries out the next command -/
  | daemon
  /-- a timer expires -/
  | expire (h : Nat)
  deriving DecidableEq, Repr

/-- `xTimerGenericCommand` -/
def post (cap : Nat) (s : State) (h : Nat) (c : Cmd) (ticks : Nat) (timedOut : Bool) : Ker (State × List Ev) :=
  if s.queue.length < cap then .ok ({ s with queue := s.queue ++ [(h, c)] }, [.sent h c true])
  else waitFor ticks timedOut (s, [.sent h c false])

/-- a request through a wrapper; a null handle fails `configASSERT`, as does a period of 0 -/
def request (cap : Nat) (s : State) (o : Obj) (c : Cmd) (ticks : Nat) (timedOut : Bool) : Ker (State × List Ev) :=
  match o.handle with
  | none => .abort
  | some h => if c = .period 0 then .abort else post cap s h c ticks timedOut

/-- a wrapper whose destructor has not begun -/
def State.living (s : State) (o : Nat) : Option Obj :=
  match s.objs[o]? with
  | some (some ob) => if ob.ended then none else some ob
  | _ => none

/-- what the timer task does with a command (kernel) -/
def Tmr.obey (t : Tmr) : Cmd → Tmr
  | .start => { t with active := true }
  | .reset => { t with active := true }
  | .stop => { t with active := false }
  | .period p => { t with active := true, period := p }
  | .delete => { t with active := false, mem := t.static }

/-- the ticks of `estd::chrono::milliseconds(100)`, timer.h:26, 53; see `destructor_wait` -/
def dtorTicks (hz : Nat) : Nat := hz / 10

def step (cap hz : Nat) (s : State) : Op → Ker (State × List Ev)
  | .create static autoReload period memory =>
    if period = 0 then .abort
    else if static || memory then
      .ok (⟨s.tmrs ++ [⟨true, static, false, autoReload, period⟩], s.queue,
        s.objs ++ [some ⟨some s.tmrs.length, static, false⟩]⟩, [])
    else .ok ({ s with objs := s.objs ++ [some ⟨none, false, false⟩] }, [])
  | .send o c ticks timedOut =>
    match s.living o with
    | some ob => request cap s ob c ticks timedOut
    | none => .ub
  | .copy o =>
    match s.living o with
    | some ob => .ok ({ s with objs := s.objs ++ [some { ob with owns := false }] }, [])
    | none => .ub
  | .destroy o timedOut =>
    match s.living o with
    | some ob => request cap { s with objs := s.objs.set o (some { ob with ended := true }) } ob .delete (dtorTicks hz) timedOut
    | none => .ub
  | .gone o =>
    match s.objs[o]? with
    | some (some ob) =>
      if ob.ended then
        match ob.handle, ob.owns with
        | some h, true =>
          match s.tmrs[h]? with
          | some t => .ok (⟨s.tmrs.set h { t with mem := false }, s.queue, s.objs.set o none⟩, [])
          | none => .ub
        | _, _ => .ok ({ s with objs := s.objs.set o none }, [])
      else .ub
    | _ => .ub
  | .daemon =>
    match s.queue with
    | [] => .blocked
    | (h, c) :: q =>
      match s.tmrs[h]? with
      | some t => if t.mem then .ok ({ s with tmrs := s.tmrs.set h (t.obey c), queue := q }, []) else .ub
      | none => .ub
  | .expire h =>
    match s.tmrs[h]? with
    | some t =>
      if t.active then
        if t.mem then .ok ({ s with tmrs := s.tmrs.set h { t with active := t.autoReload } }, [.fired h]) else .ub
      else .blocked
    | none => .blocked

def run (cap hz : Nat) : List Op → State → Ker (State × List Ev)
  | [], s => .ok (s, [])
  | op :: ops, s => (step cap hz s op).bind fun p => (run cap hz ops p.1).bind fun r => .ok (r.1, p.2 ++ r.2)

/-! ## Specification -/

/-- the requests on timer `h` that were accepted, in order -/
def Spec.accepted (h : Nat) : List Ev → List Cmd
  | [] => []
  | .sent h' c true :: l => if h' = h then c :: Spec.accepted h l else Spec.accepted h l
  | _ :: l => Spec.accepted h l

/-- a request that makes a timer run -/
def Spec.Runs (c : Cmd) : Prop := c = .start ∨ c = .reset ∨ ∃ p, c = .period p

instance : DecidablePred Spec.Runs := fun c => by
  cases c with
  | start => exact isTrue (Or.inl rfl)
  | reset => exact isTrue (Or.inr (Or.inl rfl))
  | stop => exact isFalse (by rintro (h | h | ⟨_, h⟩) <;> cases h)
  | period p => exact isTrue (Or.inr (Or.inr ⟨p, rfl⟩))
  | delete => exact isFalse (by rintro (h | h | ⟨_, h⟩) <;> cases h)

/-- the requests on timer `h` not yet carried out -/
def State.pending (s : State) (h : Nat) : List Cmd := (s.queue.filter (·.1 = h)).map (·.2)

def State.activeAt (s : State) (h : Nat) : Prop := ∃ t, s.tmrs[h]? = some t ∧ t.active = true
def State.memAt (s : State) (h : Nat) : Prop := ∃ t, s.tmrs[h]? = some t ∧ t.mem = true

/-- What a program that avoids the defects below does: it does not copy timers, makes requests only on timers whose
destructor has not begun, does not call `free` itself, uses periods of at least one tick, has memory for its timers, and
(for a static timer) lets the storage end only when the timer task has carried out the deletion. -/
def Spec.legal (s : State) : Op → Prop
  | .create static _ period memory => 0 < period ∧ (static = true ∨ memory = true)
  | .send o c _ _ => (∃ ob, s.living o = some ob) ∧ c ≠ .delete ∧ c ≠ .period 0
  | .copy _ => False
  | .destroy o _ => ∃ ob, s.living o = some ob
  | .gone o => ∃ ob, s.objs[o]? = some (some ob) ∧ ob.ended = true ∧
      (ob.owns = true → ∀ h, ob.handle = some h → s.pending h = [] ∧ ¬ s.activeAt h)
  | .daemon => True
  | .expire _ => True

def Spec.legalRun (cap hz : Nat) : List Op → State → Prop
  | [], _ => True
  | op :: ops, s => Spec.legal s op ∧ ∀ s' e, step cap hz s op = .ok (s', e) → Spec.legalRun cap hz ops s'

end Verif.Rtos.Timers
