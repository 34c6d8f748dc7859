import Verif.Deque.Props

/-!
# Model of a queue shared by the main program and an interrupt handler

`layer1::queue` (`src/estd/queue.h`) has one end for the producer and one for the consumer, and neither takes a lock.
One of them is the main program here; its calls are taken apart into single accesses of the members of the deque and
of single elements of its array, in the order of the source.  The other is an interrupt handler: it may run between any
two of these accesses, any number of times, and its own calls run to the end.  Caches and reordered writes are not
modelled: both run on one core.  Elements are trivial (destroying one is no access).

`In` below is the main program taking elements out and the handler putting them in, `Out` the other way round.
-/
namespace Verif.Deque.Handler
open Verif Verif.Deque
variable {α : Type u}

/-! ## The main program takes elements out -/

/-- where the main program is in `if(!q.empty()) { x = q.front(); q.pop(); }`; a number is a value already fetched, `x`
the element already read -/
inductive InPc (α : Type u) where
  /-- between calls -/
  | idle
  /-- queue.h:343, fetch `m_front` -/
  | front
  /-- queue.h:347, the caller reads the element -/
  | cell (f : Nat)
  /-- queue.h:332, fetch `m_front` -/
  | incLoad (x : α)
  /-- queue.h:332, store `m_front` -/
  | incStore (x : α) (f : Nat)
  /-- queue.h:123 called from 334, fetch `m_front` and compare with `end()` -/
  | rollLoad (x : α)
  /-- queue.h:124 called from 334, store `m_front` -/
  | rollStore (x : α)
  /-- queue.h:336, fetch `m_front` -/
  | cmpFront (x : α)
  /-- queue.h:336, fetch `m_back` and compare -/
  | cmpBack (x : α) (f : Nat)
  /-- queue.h:336, store `m_empty` -/
  | setEmpty (x : α)
  deriving DecidableEq, Repr

/-- the shared deque, the main program's place in its calls, all the elements that the handler pushed and all that the
main program has taken; queue.h:99-117 -/
structure InSt (α : Type u) where
  d : Deque α
  pc : InPc α
  acc : List α
  out : List α
  deriving DecidableEq, Repr

/-- the pop is over: the element is the caller's; queue.h:338 -/
def InSt.done (s : InSt α) (x : α) : InSt α := { s with pc := .idle, out := s.out ++ [x] }

/-- one access of the main program; queue.h:328-348 with 121-125.  `none` is a read outside the array. -/
def inTick (s : InSt α) : Option (InSt α) :=
  match s.pc with
  | .idle => some s
  | .front => some { s with pc := .cell s.d.front }
  | .cell f => (rd s.d.arr f).map fun x => { s with pc := .incLoad x }
  | .incLoad x => some { s with pc := .incStore x s.d.front }
  | .incStore x f => some { s with pc := .rollLoad x, d := { s.d with front := f + 1 } }
  | .rollLoad x => some { s with pc := if s.d.front = s.d.arr.length then .rollStore x else .cmpFront x }
  | .rollStore x => some { s with pc := .cmpFront x, d := { s.d with front := 0 } }
  | .cmpFront x => some { s with pc := .cmpBack x s.d.front }
  | .cmpBack x f => if f = s.d.back then some { s with pc := .setEmpty x } else some (s.done x)
  | .setEmpty x => some (({ s with d := { s.d with empty := true } } : InSt α).done x)

/-- what happens next: the main program asks `empty()` and, if it is not, starts to take an element; it makes its next
access; or the handler runs and offers `v`; queue.h:446-479 -/
inductive InAct (α : Type u) where
  | start
  | tick
  | irq (v : α)
  deriving DecidableEq, Repr

/-- one action; queue.h:269, 284-292, 271-280.  A start while a call is in progress is not one, and does nothing.  The
handler does `if(q.size() < q.max_size()) q.push(v)`. -/
def inStep (s : InSt α) : InAct α → Option (InSt α)
  | .start =>
    match s.pc with
    | .idle => some (if s.d.empty then s else { s with pc := .front })
    | _ => some s
  | .tick => inTick s
  | .irq v =>
    if size s.d < s.d.arr.length then (pushBack s.d v).map fun d' => { s with d := d', acc := s.acc ++ [v] }
    else some s

/-- a sequence of actions -/
def inRun (s : InSt α) : List (InAct α) → Option (InSt α)
  | [] => some s
  | a :: as => (inStep s a).bind fun s' => inRun s' as

/-- a fresh queue, queue.h:184-189 -/
def inInit (arr : List α) : InSt α := ⟨init arr, .idle, [], []⟩

/-! ## The main program puts elements in -/

/-- where the main program is in `if(q.size() < q.max_size()) q.push(v);` -/
inductive OutPc where
  /-- between calls -/
  | idle
  /-- queue.h:269 called from 273, fetch `m_empty` -/
  | szEmpty
  /-- queue.h:177 called from 275, fetch `m_front` -/
  | szFront
  /-- queue.h:177 called from 275, fetch `m_back` and compare -/
  | szBack (f : Nat)
  /-- queue.h:178 or 180 called from 275, fetch `m_front` -/
  | szFront2 (gt : Bool)
  /-- queue.h:178 or 180 called from 275, fetch `m_back`; then the caller compares with the capacity -/
  | szBack2 (gt : Bool) (f : Nat)
  /-- queue.h:286, fetch `m_back` -/
  | pushLoad
  /-- queue.h:286, store `m_back`, the element not yet written -/
  | store1 (b : Nat)
  /-- queue.h:286, write the element, `m_back` already stored -/
  | cell2 (b : Nat)
  /-- queue.h:286, write the element, `m_back` not yet stored -/
  | cell1 (b : Nat)
  /-- queue.h:286, store `m_back`, the element already written -/
  | store2 (b : Nat)
  /-- queue.h:287, store `m_empty` -/
  | setEmpty
  /-- queue.h:123 called from 289, fetch `m_back` and compare with `end()` -/
  | rollLoad
  /-- queue.h:124 called from 289, store `m_back` -/
  | rollStore
  deriving DecidableEq, Repr

/-- the shared deque, the main program's place in its calls, the element it is pushing, all the elements whose push has
returned, and all the elements the handler has taken; queue.h:99-117 -/
structure OutSt (α : Type u) where
  d : Deque α
  pc : OutPc
  v : α
  acc : List α
  out : List α
  deriving DecidableEq, Repr

/-- the push is over; queue.h:291 -/
def OutSt.done (s : OutSt α) : OutSt α := { s with pc := .idle, acc := s.acc ++ [s.v] }

/-- what `size()` computes from the values it fetched, queue.h:175-181: a negative difference is an enormous `size_t` -/
def fetchedSize (N : Nat) (gt : Bool) (f b : Nat) : Int := if gt then N - ((f : Int) - b) else (b : Int) - f

/-- one access of the main program; queue.h:269-292 with 121-125, 175-181.  `cellFirst`: in which order the compiler
makes the two stores of `*m_back++ = value` (queue.h:286).  `none` is a write outside the array. -/
def outTick (cellFirst : Bool) (s : OutSt α) : Option (OutSt α) :=
  match s.pc with
  | .idle => some s
  | .szEmpty => some { s with pc := if s.d.empty then .pushLoad else .szFront }
  | .szFront => some { s with pc := .szBack s.d.front }
  | .szBack f => some { s with pc := .szFront2 (f > s.d.back) }
  | .szFront2 gt => some { s with pc := .szBack2 gt s.d.front }
  | .szBack2 gt f =>
    let k := fetchedSize s.d.arr.length gt f s.d.back
    some { s with pc := if 0 < k ∧ k < s.d.arr.length then .pushLoad else .idle }
  | .pushLoad => some { s with pc := if cellFirst then .cell1 s.d.back else .store1 s.d.back }
  | .store1 b => some { s with pc := .cell2 b, d := { s.d with back := b + 1 } }
  | .cell2 b => (wr s.d.arr b s.v).map fun m => { s with pc := .setEmpty, d := { s.d with arr := m } }
  | .cell1 b => (wr s.d.arr b s.v).map fun m => { s with pc := .store2 b, d := { s.d with arr := m } }
  | .store2 b => some { s with pc := .setEmpty, d := { s.d with back := b + 1 } }
  | .setEmpty => some { s with pc := .rollLoad, d := { s.d with empty := false } }
  | .rollLoad => if s.d.back = s.d.arr.length then some { s with pc := .rollStore } else some s.done
  | .rollStore => some ({ s with d := { s.d with back := 0 } } : OutSt α).done

/-- what happens next: the main program starts to push `v`, makes its next access, or the handler runs and takes an
element; queue.h:446-479 -/
inductive OutAct (α : Type u) where
  | start (v : α)
  | tick
  | irq
  deriving DecidableEq, Repr

/-- one action; queue.h:269, 328-348.  A start while a call is in progress is not one, and does nothing.  The handler
does `if(!q.empty()) { x = q.front(); q.pop(); }`. -/
def outStep (cellFirst : Bool) (s : OutSt α) : OutAct α → Option (OutSt α)
  | .start v => if s.pc = .idle then some { s with pc := .szEmpty, v := v } else some s
  | .tick => outTick cellFirst s
  | .irq =>
    if s.d.empty then some s
    else
      match frontVal s.d, popFront s.d with
      | some x, some d' => some { s with d := d', out := s.out ++ [x] }
      | _, _ => none

/-- a sequence of actions -/
def outRun (cellFirst : Bool) (s : OutSt α) : List (OutAct α) → Option (OutSt α)
  | [] => some s
  | a :: as => (outStep cellFirst s a).bind fun s' => outRun cellFirst s' as

/-- a fresh queue, queue.h:184-189 -/
def outInit (arr : List α) (v : α) : OutSt α := ⟨init arr, .idle, v, [], []⟩

/-! ## Specification -/

/-- What a program that is alone with the queue sees of it: it holds exactly `l`. -/
def Reports (d : Deque α) (l : List α) : Prop :=
  size d = l.length ∧ (d.empty = true ↔ l = []) ∧
    ∃ d', qrun (List.replicate l.length .pop) d = some (d', l) ∧ d'.empty = true

/-- The main program is in `pop()`, between the store to `m_front` and the comparison with `m_back`. -/
def InSt.popping (s : InSt α) : Prop :=
  match s.pc with
  | .rollLoad _ | .rollStore _ | .cmpFront _ | .cmpBack _ _ => True
  | _ => False

/-- The schedules for which a handler that pushes is safe: in that window it does not fill the queue. -/
def inLegal (s : InSt α) : List (InAct α) → Prop
  | [] => True
  | a :: as =>
    (∀ v, a = .irq v → s.popping → size s.d + 1 ≠ s.d.arr.length) ∧ ∀ s', inStep s a = some s' → inLegal s' as

/-- The main program is in `push()`, after the store to `m_back`. -/
def OutSt.pushing (s : OutSt α) : Prop :=
  match s.pc with
  | .cell2 _ | .setEmpty | .rollLoad | .rollStore => True
  | _ => False

/-- The schedules for which a handler that pops is safe: in that window it does not take the last element. -/
def outLegal (cellFirst : Bool) (s : OutSt α) : List (OutAct α) → Prop
  | [] => True
  | a :: as =>
    (a = .irq → s.pushing → size s.d ≠ 1) ∧ ∀ s', outStep cellFirst s a = some s' → outLegal cellFirst s' as

theorem rep_reports {N : Nat} {d : Deque α} {l : List α} (h : Rep N d l) : Reports d l := by
  refine ⟨rep_size h, h.empty, ?_⟩
  have hleg : ∀ n, Spec.QLegal (α := α) N (List.replicate n .pop) n := by
    intro n
    induction n with
    | zero => exact trivial
    | succ n ih => exact ⟨by omega, by simpa using ih⟩
  have hp : ∀ n, Spec.qpushed (List.replicate n (QOp.pop (α := α))) = [] := by
    intro n
    induction n with
    | zero => rfl
    | succ n ih => simpa [List.replicate_succ, Spec.qpushed] using ih
  obtain ⟨d', out, l', e1, e2, e3⟩ := rep_qrun h _ (hleg l.length)
  rw [hp, List.append_nil] at e3
  have hlen : ∀ (n : Nat) (d d' : Deque α) out, qrun (List.replicate n .pop) d = some (d', out) → out.length = n := by
    intro n
    induction n with
    | zero => intro d d' out h; simp [qrun] at h; simp [← h.2]
    | succ n ih =>
      intro d d' out h
      simp only [List.replicate_succ, qrun] at h
      split at h
      · rename_i x d1 _ _
        cases hq : qrun (List.replicate n .pop) d1 with
        | none => simp [hq] at h
        | some r =>
          simp only [hq, Option.map_some, Option.some.injEq, Prod.mk.injEq] at h
          rw [← h.2]
          simp [ih d1 r.1 r.2 hq]
      · simp at h
  have h1 := hlen _ _ _ _ e1
  have h2 : l' = [] := by
    have := congrArg List.length e3
    simp only [List.length_append, h1] at this
    exact List.length_eq_zero_iff.mp (by omega)
  subst h2
  rw [List.append_nil] at e3
  subst e3
  exact ⟨d', e1, e2.empty.mpr rfl⟩

end Verif.Deque.Handler
