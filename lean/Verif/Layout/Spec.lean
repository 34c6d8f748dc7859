import Verif.Layout.Model

/-!
# What it means that an object fits where it is put
-/

namespace Verif.Layout.Spec

/-- An object of type `outer`, at whatever address the rules allow it to be, has at offset
`off` room enough for an object of type `t`, at an address the rules allow for `t`. -/
def Holds (outer : Ty) (off : Nat) (t : Ty) : Prop :=
  off + t.size ≤ outer.size ∧ ∀ addr, outer.align ∣ addr → t.align ∣ addr + off

end Verif.Layout.Spec
