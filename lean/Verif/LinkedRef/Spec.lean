import Verif.LinkedRef.Model

/-!
# Specification: references and the objects they share (no rings, no pointers)
-/
namespace Verif.LinkedRef.Spec
open Verif.LinkedRef (Op)

inductive Ref where
  /-- shares object `o` -/
  | shares (o : Nat)
  /-- exists, but was moved from -/
  | moved
  /-- destroyed -/
  | gone
  deriving DecidableEq, Repr

structure Refs where
  refs : List Ref
  /-- objects destroyed, in order -/
  destroyed : List Nat
  deriving DecidableEq, Repr

def Refs.objectOf (r : Refs) (x : Nat) : Ref := (r.refs[x]?).getD .gone

/-- the number of references sharing object `o` -/
def Refs.sharing (r : Refs) (o : Nat) : Nat := r.refs.count (.shares o)

def Refs.next (r : Refs) : Op → Refs
  | .create => { r with refs := r.refs ++ [.shares r.refs.length] }
  | .copy x => { r with refs := r.refs ++ [r.objectOf x] }
  | .move x => { r with refs := r.refs.set x .moved ++ [r.objectOf x] }
  | .destroy x =>
    { refs := r.refs.set x .gone
      destroyed :=
        match r.objectOf x with
        | .shares o => if r.sharing o = 1 then r.destroyed ++ [o] else r.destroyed
        | _ => r.destroyed }

/-- the reference shares some object -/
def Refs.sharesSome (r : Refs) (x : Nat) : Prop :=
  match r.objectOf x with
  | .shares _ => True
  | _ => False

instance (r : Refs) (x : Nat) : Decidable (r.sharesSome x) := by unfold Refs.sharesSome; split <;> infer_instance

/-- the reference is the only one to its object -/
def Refs.sole (r : Refs) (x : Nat) : Prop :=
  match r.objectOf x with
  | .shares o => r.sharing o = 1
  | _ => False

instance (r : Refs) (x : Nat) : Decidable (r.sole x) := by unfold Refs.sole; split <;> infer_instance

/-- The operations the theorem covers: copy and move from a reference that shares an object, destroy one that exists.
Moving a *sole* reference is excluded because the code gets it wrong. -/
def Refs.legal (r : Refs) : Op → Prop
  | .create => True
  | .copy x => r.sharesSome x
  | .move x => r.sharesSome x ∧ ¬ r.sole x
  | .destroy x => r.objectOf x ≠ .gone

instance (r : Refs) (op : Op) : Decidable (r.legal op) := by cases op <;> simp only [Refs.legal] <;> infer_instance

def Refs.legalRun (r : Refs) : List Op → Prop
  | [] => True
  | op :: ops => r.legal op ∧ (r.next op).legalRun ops

instance instLegalRun : (r : Refs) → (ops : List Op) → Decidable (r.legalRun ops)
  | _, [] => inferInstanceAs (Decidable True)
  | r, op :: ops =>
    have := instLegalRun (r.next op) ops
    inferInstanceAs (Decidable (_ ∧ _))

def Refs.init : Refs := ⟨[], []⟩

def Refs.after (r : Refs) (ops : List Op) : Refs := ops.foldl Refs.next r

end Verif.LinkedRef.Spec
