import Mathlib.Data.List.Basic

/-! # What it means that something is in program memory -/
namespace Verif.Pgm.Spec

/-- the bytes from address `p` on are `bs` -/
def holds (flash : List Nat) (p : Nat) (bs : List Nat) : Prop := ∃ pre post, flash = pre ++ bs ++ post ∧ pre.length = p

/-- the bytes of `v` as an unsigned integer of `w` bytes, the low byte first -/
def bytes : Nat → Nat → List Nat
  | 0, _ => []
  | w + 1, v => v % 256 :: bytes w (v / 256)

/-- an array of such integers -/
def array (w : Nat) (vs : List Nat) : List Nat := vs.flatMap (bytes w)

end Verif.Pgm.Spec
