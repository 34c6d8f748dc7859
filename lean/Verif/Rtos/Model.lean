import Verif.Chrono.Duration

/-!
# Model of the FreeRTOS wrappers: mutexes, semaphores, queues, event groups

Modelled from `src/estd/port/freertos/{semaphore,mutex,queue,event_groups,chrono,thread}.h` and
`src/estd/port/freertos/wrapper/{semphr,queue,event_groups}.h`.

The kernel calls (`xSemaphoreTake`, `xSemaphoreGive`, `xQueueSend`, …) are not in the repository.  They are modelled here by
what the FreeRTOS kernel documents, each one atomic; this is an assumption, named in DESIGN.md.  A call that would have to
wait is `blocked`: the scheduler may run the task again later, so a schedule is the list of the calls *that have returned*, in
the order in which they took effect, each with the task that made it.  A call with a finite timeout may also return because
time ran out, which the schedule says (`timedOut`).  `TickType_t` has 32 bits, `INCLUDE_vTaskSuspend` is 1 (so
`portMAX_DELAY` waits for ever).
-/
namespace Verif.Rtos

abbrev Tid := Nat

/-- What becomes of a kernel call: it returns, it has to wait, `configASSERT` stops the system, or the behaviour is
undefined. -/
inductive Ker (α : Type) where
  | ok (a : α)
  | blocked
  | abort
  | ub
  deriving DecidableEq, Repr

def Ker.bind {α β : Type} (x : Ker α) (f : α → Ker β) : Ker β :=
  match x with
  | .ok a => f a
  | .blocked => .blocked
  | .abort => .abort
  | .ub => .ub

/-- `portMAX_DELAY` -/
def maxDelay : Nat := 4294967295

/-- a kernel call that cannot be served now: returns at once without a timeout, later if the timeout passes, and never with
`portMAX_DELAY` -/
def waitFor {α : Type} (ticks : Nat) (timedOut : Bool) (r : α) : Ker α :=
  if ticks = 0 then .ok r else if timedOut && ticks != maxDelay then .ok r else .blocked

/-! ## Semaphores and mutexes -/

/-- The kernel objects behind a `SemaphoreHandle_t`: counting (and binary) semaphores, and mutexes.  (Recursive mutexes are
used through other calls and are modelled below.) -/
inductive Sem where
  | plain (max count : Nat)
  | mutex (holder : Option Tid)
  deriving DecidableEq, Repr

/-- kernel `xSemaphoreTake` -/
def xTake (s : Sem) (t : Tid) (ticks : Nat) (timedOut : Bool) : Ker (Sem × Bool) :=
  match s with
  | .plain m (n + 1) => .ok (.plain m n, true)
  | .plain m 0 => waitFor ticks timedOut (.plain m 0, false)
  | .mutex none => .ok (.mutex (some t), true)
  | .mutex (some h) => waitFor ticks timedOut (.mutex (some h), false)

/-- kernel `xSemaphoreGive`: refused when full.  A mutex given by a task that does not hold it fails
`configASSERT( pxTCB == pxCurrentTCB )`; without asserts it is released all the same. -/
def xGive (asserts : Bool) (s : Sem) (t : Tid) : Ker (Sem × Bool) :=
  match s with
  | .plain m n => if n < m then .ok (.plain m (n + 1), true) else .ok (.plain m n, false)
  | .mutex none => .ok (.mutex none, false)
  | .mutex (some h) => if h = t then .ok (.mutex none, true) else if asserts then .abort else .ok (.mutex none, true)

/-- kernel `xSemaphoreCreateBinary`: created empty -/
def xCreateBinary : Sem := .plain 1 0

/-- kernel `xSemaphoreCreateMutex`: created available -/
def xCreateMutex : Sem := .mutex none

/-- kernel `xSemaphoreCreateCounting`: null when the initial count exceeds the maximum or the maximum is 0 -/
def xCreateCounting (asserts : Bool) (max initial : Nat) : Ker (Option Sem) :=
  if max ≠ 0 ∧ initial ≤ max then .ok (some (.plain max initial)) else if asserts then .abort else .ok none

/-- `wrapper::semaphore::take`, wrapper/semphr.h:127-130 -/
def take (s : Sem) (t : Tid) (ticks : Nat) (timedOut : Bool) : Ker (Sem × Bool) := xTake s t ticks timedOut

/-- `wrapper::semaphore::give`, wrapper/semphr.h:112-115 -/
def give (asserts : Bool) (s : Sem) (t : Tid) : Ker (Sem × Bool) := xGive asserts s t

/-- `mutex(bool binary)`, mutex.h:64-69 and, statically allocated, 83-88 -/
def mkMutex (binary : Bool) : Sem := if binary then xCreateBinary else xCreateMutex

/-- `counting_semaphore<max>(desired)` with `max ≠ 1`, semaphore.h:124-126, 148-151 -/
def mkCounting (asserts : Bool) (max desired : Nat) : Ker (Option Sem) := xCreateCounting asserts max desired

/-- `counting_semaphore<1>()`, semaphore.h:133-135, 163-167 -/
def mkBinary : Sem := xCreateBinary

/-! `mutex_base` and `timed_mutex` -/

/-- `lock()`, mutex.h:18-21: returns nothing, so it just returns. -/
def lock (s : Sem) (t : Tid) : Ker Sem := (take s t maxDelay false).bind fun p => .ok p.1

/-- `try_lock()`, mutex.h:23-26 -/
def tryLock (s : Sem) (t : Tid) : Ker (Sem × Bool) := take s t 0 false

/-- `unlock()`, mutex.h:28-31 -/
def unlock (asserts : Bool) (s : Sem) (t : Tid) : Ker (Sem × Bool) := give asserts s t

/-- `estd::chrono::freertos_clock::duration d = timeout_duration; … d.count()`, semaphore.h:74-76, mutex.h:107-110,
thread.h:110-111, with `rep` = `TickType_t` and `period` = 1/configTICK_RATE_HZ (chrono.h:30, 37-39) -/
def ticksOf (hz : Nat) (d : Chrono.Dur) : Option Nat :=
  (d.convert ⟨32, false⟩ ⟨1, hz⟩).map fun r => r.count.toNat

/-- `try_lock_for(d)` of a `timed_mutex`, mutex.h:100-111 -/
def tryLockFor (hz : Nat) (s : Sem) (t : Tid) (d : Chrono.Dur) (timedOut : Bool) : Ker (Sem × Bool) :=
  match ticksOf hz d with
  | some n => take s t n timedOut
  | none => .ub

/-- the calls on a mutex -/
inductive MOp where
  | lock
  | tryLock
  | tryLockFor (d : Chrono.Dur) (timedOut : Bool)
  | unlock
  deriving DecidableEq, Repr

/-- one returned call, with its result (`true` for `lock()`, which has none) -/
def MOp.step (asserts : Bool) (hz : Nat) (s : Sem) (t : Tid) : MOp → Ker (Sem × Bool)
  | .lock => (Rtos.lock s t).bind fun s' => .ok (s', true)
  | .tryLock => Rtos.tryLock s t
  | .tryLockFor d o => Rtos.tryLockFor hz s t d o
  | .unlock => Rtos.unlock asserts s t

/-- a schedule of returned calls, with their results -/
def runMutex (asserts : Bool) (hz : Nat) : List (Tid × MOp) → Sem → Ker (Sem × List (Tid × MOp × Bool))
  | [], s => .ok (s, [])
  | (t, op) :: es, s =>
    (op.step asserts hz s t).bind fun p =>
      (runMutex asserts hz es p.1).bind fun q => .ok (q.1, (t, op, p.2) :: q.2)

/-! `semaphore` -/

/-- `acquire()`, semaphore.h:61-64 -/
def acquire (s : Sem) (t : Tid) : Ker Sem := (take s t maxDelay false).bind fun p => .ok p.1

/-- `try_acquire()`, semaphore.h:66-69 -/
def tryAcquire (s : Sem) (t : Tid) : Ker (Sem × Bool) := take s t 0 false

/-- `try_acquire_for(d)`, semaphore.h:71-77 -/
def tryAcquireFor (hz : Nat) (s : Sem) (t : Tid) (d : Chrono.Dur) (timedOut : Bool) : Ker (Sem × Bool) :=
  match ticksOf hz d with
  | some n => take s t n timedOut
  | none => .ub

/-- `release()`, semaphore.h:85-88: the result of `give` is dropped. -/
def release (asserts : Bool) (s : Sem) (t : Tid) : Ker Sem := (give asserts s t).bind fun p => .ok p.1

/-- the calls on a semaphore -/
inductive SOp where
  | acquire
  | tryAcquire
  | tryAcquireFor (d : Chrono.Dur) (timedOut : Bool)
  | release
  deriving DecidableEq, Repr

/-- one returned call, with its result (`true` for the two that have none) -/
def SOp.step (asserts : Bool) (hz : Nat) (s : Sem) (t : Tid) : SOp → Ker (Sem × Bool)
  | .acquire => (Rtos.acquire s t).bind fun s' => .ok (s', true)
  | .tryAcquire => Rtos.tryAcquire s t
  | .tryAcquireFor d o => Rtos.tryAcquireFor hz s t d o
  | .release => (Rtos.release asserts s t).bind fun s' => .ok (s', true)

def runSem (asserts : Bool) (hz : Nat) : List (Tid × SOp) → Sem → Ker (Sem × List (Tid × SOp × Bool))
  | [], s => .ok (s, [])
  | (t, op) :: es, s =>
    (op.step asserts hz s t).bind fun p =>
      (runSem asserts hz es p.1).bind fun q => .ok (q.1, (t, op, p.2) :: q.2)

/-! ## Recursive mutexes -/

/-- kernel recursive mutex: who holds it, and how many times -/
structure RMutex where
  holder : Option Tid
  depth : Nat
  deriving DecidableEq, Repr

/-- kernel `xSemaphoreCreateRecursiveMutex`; `recursive_mutex()`, mutex.h:124-126, 137-139 -/
def mkRecursive : RMutex := ⟨none, 0⟩

/-- kernel `xSemaphoreTakeRecursive`; `wrapper::semaphore::take_recursive`, wrapper/semphr.h:132-135 -/
def takeRecursive (s : RMutex) (t : Tid) (ticks : Nat) (timedOut : Bool) : Ker (RMutex × Bool) :=
  match s.holder with
  | none => .ok (⟨some t, 1⟩, true)
  | some h => if h = t then .ok (⟨some h, s.depth + 1⟩, true) else waitFor ticks timedOut (s, false)

/-- kernel `xSemaphoreGiveRecursive`; `wrapper::semaphore::give_recursive`, wrapper/semphr.h:117-120: refused unless held by
the caller -/
def giveRecursive (s : RMutex) (t : Tid) : RMutex × Bool :=
  if s.holder = some t then (if s.depth ≤ 1 then ⟨none, 0⟩ else ⟨s.holder, s.depth - 1⟩, true) else (s, false)

/-- the calls on a recursive mutex -/
inductive ROp where
  | lock
  | tryLock
  | unlock
  deriving DecidableEq, Repr

/-- `recursive_mutex_base`: `lock`, `try_lock`, `unlock`, mutex.h:42-55 -/
def ROp.step (s : RMutex) (t : Tid) : ROp → Ker (RMutex × Bool)
  | .lock => (takeRecursive s t maxDelay false).bind fun p => .ok (p.1, true)
  | .tryLock => takeRecursive s t 0 false
  | .unlock => .ok (giveRecursive s t)

def runRecursive : List (Tid × ROp) → RMutex → Ker (RMutex × List (Tid × ROp × Bool))
  | [], s => .ok (s, [])
  | (t, op) :: es, s =>
    (op.step s t).bind fun p =>
      (runRecursive es p.1).bind fun q => .ok (q.1, (t, op, p.2) :: q.2)

/-! ## Queues -/

/-- kernel queue of items, first the oldest -/
structure Queue (α : Type) where
  cap : Nat
  items : List α
  deriving DecidableEq, Repr

/-- `queue(queue_length)`, queue.h:71-76; with storage 91-99; `layer1::queue`, 121 -/
def mkQueue {α : Type} (n : Nat) : Queue α := ⟨n, []⟩

/-- kernel `xQueueSend`; `wrapper::queue::send`, wrapper/queue.h:78-81: a copy goes to the back -/
def xSend {α : Type} (q : Queue α) (v : α) (ticks : Nat) (timedOut : Bool) : Ker (Queue α × Bool) :=
  if q.items.length < q.cap then .ok ({ q with items := q.items ++ [v] }, true) else waitFor ticks timedOut (q, false)

/-- kernel `xQueueReceive`; `wrapper::queue::receive`, wrapper/queue.h:93-96: the front is copied to the caller's buffer -/
def xReceive {α : Type} (q : Queue α) (buf : α) (ticks : Nat) (timedOut : Bool) : Ker (Queue α × Bool × α) :=
  match q.items with
  | v :: rest => .ok ({ q with items := rest }, true, v)
  | [] => waitFor ticks timedOut (q, false, buf)

/-- the calls on a queue: `send(v)`, `send(v, timeout)`, `receive(&buf)`, `receive(&buf, timeout)`,
`send_from_isr(v)`, `messages_waiting()`; timeouts are in ticks. -/
inductive QOp (α : Type) where
  | send (v : α)
  | sendFor (v : α) (ticks : Nat) (timedOut : Bool)
  | receive (buf : α)
  | receiveFor (buf : α) (ticks : Nat) (timedOut : Bool)
  | sendFromIsr (v : α)
  | waiting
  deriving DecidableEq, Repr

/-- what a returned call reports: a verdict, what is then in the buffer of a receive, and a count -/
structure QRes (α : Type) where
  done : Bool
  got : Option α
  count : Nat
  deriving DecidableEq, Repr

/-- the members of `detail::queue`, queue.h:29-57 -/
def QOp.step {α : Type} (q : Queue α) : QOp α → Ker (Queue α × QRes α)
  | .send v => (xSend q v maxDelay false).bind fun p => .ok (p.1, ⟨p.2, none, 0⟩)
  | .sendFor v n o => (xSend q v n o).bind fun p => .ok (p.1, ⟨p.2, none, 0⟩)
  | .receive b => (xReceive q b maxDelay false).bind fun p => .ok (p.1, ⟨p.2.1, some p.2.2, 0⟩)
  | .receiveFor b n o => (xReceive q b n o).bind fun p => .ok (p.1, ⟨p.2.1, some p.2.2, 0⟩)
  | .sendFromIsr v => (xSend q v 0 false).bind fun p => .ok (p.1, ⟨p.2, none, 0⟩)
  | .waiting => .ok (q, ⟨true, none, q.items.length⟩)

def runQueue {α : Type} : List (Tid × QOp α) → Queue α → Ker (Queue α × List (Tid × QOp α × QRes α))
  | [], q => .ok (q, [])
  | (t, op) :: es, q =>
    (op.step q).bind fun p =>
      (runQueue es p.1).bind fun r => .ok (r.1, (t, op, p.2) :: r.2)

/-! ## Event groups -/

/-- the bits of a kernel event group -/
abbrev Bits := BitVec 24

/-- kernel `xEventGroupWaitBits(h, w, clearOnExit, waitForAll, ticks)` -/
def xWaitBits (s w : Bits) (clearOnExit waitForAll : Bool) (ticks : Nat) (timedOut : Bool) : Ker (Bits × Bits) :=
  if (if waitForAll then s &&& w = w else s &&& w ≠ 0) then .ok (if clearOnExit then s &&& ~~~w else s, s)
  else waitFor ticks timedOut (s, s)

/-- `event_group::wait_bits`, event_groups.h:20-27 with wrapper/event_groups.h:56-63 -/
def waitBits (s w : Bits) (clearOnExit waitForAll : Bool) (ticks : Nat) (timedOut : Bool) : Ker (Bits × Bits) :=
  xWaitBits s w clearOnExit waitForAll ticks timedOut

/-- the calls on an event group: `set_bits`, `clear_bits`, `wait_bits`; wrapper/event_groups.h:46-49, 56-68 -/
inductive EOp where
  | set (b : Bits)
  | clear (b : Bits)
  | wait (w : Bits) (clearOnExit waitForAll : Bool) (ticks : Nat) (timedOut : Bool)
  deriving DecidableEq, Repr

/-- one returned call with the value it returns: `set_bits` the bits afterwards, `clear_bits` the bits before -/
def EOp.step (s : Bits) : EOp → Ker (Bits × Bits)
  | .set b => .ok (s ||| b, s ||| b)
  | .clear b => .ok (s &&& ~~~b, s)
  | .wait w c a n o => waitBits s w c a n o

def runEvents : List (Tid × EOp) → Bits → Ker (Bits × List (Tid × EOp × Bits))
  | [], s => .ok (s, [])
  | (t, op) :: es, s =>
    (op.step s).bind fun p =>
      (runEvents es p.1).bind fun r => .ok (r.1, (t, op, p.2) :: r.2)

/-! ## Lifetimes

`semaphore_base` (semaphore.h:19-32), `detail::queue` (queue.h:20-26) and `event_group` (event_groups.h:49-50) hold a kernel
handle, delete it in the destructor, and leave the copy constructor to the compiler. -/

/-- wrapper objects (alive ones know their handle) and which kernel objects exist -/
structure World where
  objs : List (Option Nat)
  kernel : List Bool
  deriving DecidableEq, Repr

inductive LOp where
  | create
  | copy (i : Nat)
  | destroy (i : Nat)
  deriving DecidableEq, Repr

/-- constructor: semaphore.h:124-126, mutex.h:64-69, queue.h:71-76, event_groups.h:49; implicit copy constructor; destructor:
semaphore.h:24-32, queue.h:23-26, event_groups.h:50.  Deleting a handle that no longer exists is undefined. -/
def LOp.step (w : World) : LOp → Ker World
  | .create => .ok ⟨w.objs ++ [some w.kernel.length], w.kernel ++ [true]⟩
  | .copy i =>
    match w.objs[i]? with
    | some (some h) => .ok ⟨w.objs ++ [some h], w.kernel⟩
    | _ => .ub
  | .destroy i =>
    match w.objs[i]? with
    | some (some h) =>
      match w.kernel[h]? with
      | some true => .ok ⟨w.objs.set i none, w.kernel.set h false⟩
      | _ => .ub
    | _ => .ub

def runLife : List LOp → World → Ker World
  | [], w => .ok w
  | op :: ops, w => (op.step w).bind (runLife ops)

end Verif.Rtos
