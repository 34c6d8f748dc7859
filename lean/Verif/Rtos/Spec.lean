import Verif.Rtos.Model

/-!
# Specification of the FreeRTOS wrappers

Everything is read off what the calls *returned*, in the order in which they did.
-/
namespace Verif.Rtos

/-- the tasks inside a mutex: they have come back from `lock()`, or been told `true` by `try_lock…`, and not yet been told
`true` by `unlock()` -/
def Spec.inside : List (Tid × MOp × Bool) → List Tid → List Tid
  | [], l => l
  | (_, _, false) :: tr, l => Spec.inside tr l
  | (t, .unlock, true) :: tr, l => Spec.inside tr (l.erase t)
  | (t, _, true) :: tr, l => Spec.inside tr (t :: l)

/-- nobody unlocks a mutex they are not inside of -/
def Spec.Owned : List (Tid × MOp × Bool) → List Tid → Prop
  | [], _ => True
  | (t, op, r) :: tr, l => (op = .unlock → t ∈ l) ∧ Spec.Owned tr (Spec.inside [(t, op, r)] l)

/-- how many acquisitions of a semaphore succeeded -/
def Spec.acquired : List (Tid × SOp × Bool) → Nat
  | [] => 0
  | (_, .release, _) :: tr => Spec.acquired tr
  | (_, _, true) :: tr => Spec.acquired tr + 1
  | (_, _, false) :: tr => Spec.acquired tr

/-- how often a semaphore was released -/
def Spec.released : List (Tid × SOp × Bool) → Nat
  | [] => 0
  | (_, .release, _) :: tr => Spec.released tr + 1
  | _ :: tr => Spec.released tr

/-- no release when there are already `max` units -/
def Spec.Within (max : Nat) : List (Tid × SOp × Bool) → Nat → Prop
  | [], _ => True
  | (_, .release, _) :: tr, n => n < max ∧ Spec.Within max tr (n + 1)
  | (_, _, true) :: tr, n => Spec.Within max tr (n - 1)
  | (_, _, false) :: tr, n => Spec.Within max tr n

/-- how many times a task is inside a recursive mutex -/
def Spec.level (t : Tid) : List (Tid × ROp × Bool) → Int
  | [] => 0
  | (u, .unlock, r) :: tr => (if u = t ∧ r = true then -1 else 0) + Spec.level t tr
  | (u, _, r) :: tr => (if u = t ∧ r = true then 1 else 0) + Spec.level t tr

/-- the values whose sending was accepted, in order -/
def Spec.sent {α : Type} : List (Tid × QOp α × QRes α) → List α
  | [] => []
  | (_, .send v, r) :: tr => if r.done then v :: Spec.sent tr else Spec.sent tr
  | (_, .sendFor v _ _, r) :: tr => if r.done then v :: Spec.sent tr else Spec.sent tr
  | (_, .sendFromIsr v, r) :: tr => if r.done then v :: Spec.sent tr else Spec.sent tr
  | _ :: tr => Spec.sent tr

/-- the values received, in order -/
def Spec.got {α : Type} : List (Tid × QOp α × QRes α) → List α
  | [] => []
  | (_, .receive _, r) :: tr => if r.done then r.got.toList ++ Spec.got tr else Spec.got tr
  | (_, .receiveFor _ _ _, r) :: tr => if r.done then r.got.toList ++ Spec.got tr else Spec.got tr
  | _ :: tr => Spec.got tr

/-- the bits a wait asked for were there -/
def Spec.Met (v w : Bits) (waitForAll : Bool) : Prop :=
  if waitForAll then ∀ i, w.getLsbD i = true → v.getLsbD i = true else ∃ i, w.getLsbD i = true ∧ v.getLsbD i = true

/-- what has last been done to bit `i` of an event group: set, cleared, or consumed by a wait that clears on exit and was
met -/
def Spec.bit (i : Nat) : List (Tid × EOp × Bits) → Prop → Prop
  | [], p => p
  | (_, .set b, _) :: tr, p => Spec.bit i tr (b.getLsbD i = true ∨ p)
  | (_, .clear b, _) :: tr, p => Spec.bit i tr (b.getLsbD i = false ∧ p)
  | (_, .wait w c a _ _, v) :: tr, p => Spec.bit i tr (¬ (c = true ∧ Spec.Met v w a ∧ w.getLsbD i = true) ∧ p)

end Verif.Rtos
