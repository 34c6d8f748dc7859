import Verif.SharedPtr.Model

/-!
# Specification of shared ownership

Ownership only: which masters still own their object, and what every handle points to.  There are no counters here;
an object is deleted when an operation takes its number of owners from positive to zero.
-/
namespace Verif.SharedPtr.Spec
open Verif.SharedPtr (Op)

structure Own where
  /-- per master: `none` destroyed, `some true` owns its object, `some false` does not (reset, or nothing constructed) -/
  masters : List (Option Bool)
  /-- per handle: `none` destroyed, `some p` points to the object of master `p` or nothing -/
  handles : List (Option (Option Nat))
  deriving DecidableEq, Repr

/-- the number of owners of the object of master `b` -/
def Own.owners (o : Own) (b : Nat) : Nat :=
  (if o.masters[b]? = some (some true) then 1 else 0) + o.handles.count (some (some b))

/-- what handle `h` points to -/
def Own.target (o : Own) (h : Nat) : Option Nat :=
  match o.handles[h]? with
  | some (some p) => p
  | _ => none

/-- what a copy of master `b` points to -/
def Own.share (o : Own) (b : Nat) : Option Nat := if o.masters[b]? = some (some true) then some b else none

/-- who owns what after an operation, as the API describes it -/
def Own.next (o : Own) : Op → Own
  | .newLayer1 => { o with masters := o.masters ++ [some false] }
  | .newLayer2 => { o with masters := o.masters ++ [some true] }
  | .construct b => { o with masters := o.masters.set b (some true) }
  | .fromMaster b => { o with handles := o.handles ++ [some (o.share b)] }
  | .copy h => { o with handles := o.handles ++ [some (o.target h)] }
  | .move h => { o with handles := o.handles.set h (some none) ++ [some (o.target h)] }
  | .reset h => { o with handles := o.handles.set h (some none) }
  | .resetMaster b => { o with masters := o.masters.set b (some false) }
  | .destroy h => { o with handles := o.handles.set h none }
  | .destroyMaster b => { o with masters := o.masters.set b none }
  | .assign h h' => { o with handles := o.handles.set h (some (o.target h')) }
  | .assignMaster h b => { o with handles := o.handles.set h (some (o.share b)) }
  | .swap h h' => { o with handles := (o.handles.set h (some (o.target h'))).set h' (some (o.target h)) }

/-- the handle exists -/
def Own.live (o : Own) (h : Nat) : Prop := o.handles[h]?.join ≠ none
/-- the master exists -/
def Own.exists (o : Own) (b : Nat) : Prop := o.masters[b]?.join ≠ none
/-- the 16-bit count has room for one more owner -/
def Own.room (o : Own) (b : Nat) : Prop := o.owners b < 65535
/-- copying a handle is within the proved region: it is null, or its master still owns the object -/
def Own.copyable (o : Own) (h : Nat) : Prop :=
  match o.target h with
  | none => True
  | some b => o.masters[b]? = some (some true) ∧ o.room b

instance (o : Own) (h : Nat) : Decidable (o.live h) := by unfold Own.live; infer_instance
instance (o : Own) (b : Nat) : Decidable (o.exists b) := by unfold Own.exists; infer_instance
instance (o : Own) (b : Nat) : Decidable (o.room b) := by unfold Own.room; infer_instance
instance (o : Own) (h : Nat) : Decidable (o.copyable h) := by unfold Own.copyable; split <;> infer_instance

/-- The operations the theorem covers.  Beyond the API's own preconditions (the objects named exist, `construct` on an
unused master, a master outlives the handles to it, the 16-bit count does not overflow) two things are excluded because
the code gets them wrong: copying a handle after its master was reset, and assigning a handle to itself. -/
def Own.legal (o : Own) : Op → Prop
  | .newLayer1 | .newLayer2 => True
  | .construct b => o.exists b ∧ o.owners b = 0
  | .fromMaster b => o.exists b ∧ o.room b
  | .copy h => o.live h ∧ o.copyable h
  | .move h | .reset h | .destroy h => o.live h
  | .resetMaster b => o.exists b
  | .destroyMaster b => o.exists b ∧ o.handles.count (some (some b)) = 0
  | .assign h h' => o.live h ∧ o.live h' ∧ h ≠ h' ∧ o.copyable h'
  | .assignMaster h b => o.live h ∧ o.exists b ∧ o.room b
  | .swap h h' => o.live h ∧ o.live h'

instance (o : Own) (op : Op) : Decidable (o.legal op) := by
  cases op <;> simp only [Own.legal] <;> infer_instance

/-- every operation of the history is legal where it happens -/
def Own.legalRun (o : Own) : List Op → Prop
  | [] => True
  | op :: ops => o.legal op ∧ (o.next op).legalRun ops

instance instLegalRun : (o : Own) → (ops : List Op) → Decidable (o.legalRun ops)
  | _, [] => inferInstanceAs (Decidable True)
  | o, op :: ops =>
    have := instLegalRun (o.next op) ops
    inferInstanceAs (Decidable (_ ∧ _))

/-- who owns what after a history -/
def Own.after (o : Own) (ops : List Op) : Own := ops.foldl Own.next o

/-- how many times in the history the number of owners of the object of `b` fell from positive to zero -/
def Own.releases (o : Own) (b : Nat) : List Op → Nat
  | [] => 0
  | op :: ops =>
    (if 0 < o.owners b ∧ (o.next op).owners b = 0 then 1 else 0) + (o.next op).releases b ops

end Verif.SharedPtr.Spec
