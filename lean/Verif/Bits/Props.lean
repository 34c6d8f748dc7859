import Verif.Common.Mem

/-!
# C68: `byteswap`, and enumerations used as sets of flags

Modelled from `src/estd/bit.h` and `src/estd/flags.h`, for the platform the unit tests run on (GCC, 64 bit `long`,
32 bit `int`, so `int64_t` is `long`).  `__builtin_bswap16/32/64` are modelled by their documented effect, as a loop.

Not expressible, because the program does not compile: `flags |= flags` (flags.h:37-41 applies `|=` to an enumeration);
`byteswap` of `int64_t`, `long long` and `unsigned long long` (no overload fits best), modelled as `none`.
Simplification: an enumeration is taken to have every value of its underlying type.
-/
namespace Verif.Bits

/-! ## `byteswap` -/

/-- `__builtin_bswap16/32/64`: bytes leave at the low end and enter at the low end; `k` bytes to go -/
def bswapLoop : Nat → Nat → Nat → Nat
  | 0, acc, _ => acc
  | k + 1, acc, n => bswapLoop k (acc * 256 + n % 256) (n / 256)

/-- the overloads of `detail::byteswap`, bit.h:46-85; the argument as the unsigned number the builtin receives -/
inductive Overload where
  | u16
  | i16
  | u32
  | i32
  | u64
  deriving DecidableEq, Repr

/-- the number of bytes the overload's builtin reverses -/
def Overload.bytes : Overload → Nat
  | .u16 => 2
  | .i16 => 2
  | .u32 => 4
  | .i32 => 4
  | .u64 => 8

/-- overload resolution for an argument of `w` bits: an exact match, or `int` after promotion; `none`: ambiguous -/
def resolve (w : Nat) (signed : Bool) : Option Overload :=
  match w, signed with
  | 16, false => some .u16
  | 16, true => some .i16
  | 32, false => some .u32
  | 32, true => some .i32
  | 64, false => some .u64
  | 8, _ => some .i32
  | _, _ => none

/-- `estd::byteswap(n)`, bit.h:94-95: conversion to the overload's type, the builtin, conversion back -/
def byteswap (w : Nat) (signed : Bool) (n : BitVec w) : Option (BitVec w) :=
  match resolve w signed with
  | none => none
  | some o =>
    let arg := if signed then n.signExtend (8 * o.bytes) else n.setWidth (8 * o.bytes)
    some ((BitVec.ofNat (8 * o.bytes) (bswapLoop o.bytes 0 arg.toNat)).setWidth w)

/-- byte `i` of a number, from the low end -/
def Spec.byte (n i : Nat) : Nat := n / 256 ^ i % 256

theorem bswapLoop_spec (k : Nat) : ∀ (acc n : Nat), bswapLoop k acc n / 256 ^ k = acc ∧
    ∀ i, i < k → Spec.byte (bswapLoop k acc n) i = Spec.byte n (k - 1 - i) := by
  induction k with
  | zero => intro acc n; exact ⟨by simp [bswapLoop], fun i h => absurd h (by omega)⟩
  | succ k ih =>
    intro acc n
    obtain ⟨h1, h2⟩ := ih (acc * 256 + n % 256) (n / 256)
    simp only [bswapLoop]
    refine ⟨?_, fun i hi => ?_⟩
    · rw [Nat.pow_succ, ← Nat.div_div_eq_div_mul, h1]
      omega
    · rcases Nat.lt_or_ge i k with hk | hk
      · rw [h2 i hk]
        unfold Spec.byte
        rw [Nat.div_div_eq_div_mul, show k + 1 - 1 - i = (k - 1 - i) + 1 by omega, Nat.pow_succ, Nat.mul_comm]
      · have : i = k := by omega
        subst this
        unfold Spec.byte
        rw [h1]
        simp

theorem bswapLoop_lt (k n : Nat) : bswapLoop k 0 n < 256 ^ k := by
  have h := (bswapLoop_spec k 0 n).1
  have hp : 0 < 256 ^ k := Nat.pow_pos (by omega)
  rcases Nat.lt_or_ge (bswapLoop k 0 n) (256 ^ k) with hlt | hge
  · exact hlt
  · have := Nat.div_pos hge hp; omega

/-- numbers of `k` bytes with the same bytes are equal -/
theorem byte_ext (k : Nat) : ∀ (a b : Nat), a < 256 ^ k → b < 256 ^ k → (∀ i, i < k → Spec.byte a i = Spec.byte b i) → a = b := by
  induction k with
  | zero => intro a b ha hb _; simp at ha hb; omega
  | succ k ih =>
    intro a b ha hb h
    rw [Nat.pow_succ] at ha hb
    have h0 := h 0 (by omega)
    simp only [Spec.byte, Nat.pow_zero, Nat.div_one] at h0
    have := ih (a / 256) (b / 256) (Nat.div_lt_of_lt_mul (by rw [Nat.mul_comm]; exact ha))
      (Nat.div_lt_of_lt_mul (by rw [Nat.mul_comm]; exact hb)) (fun i hi => by
        have := h (i + 1) (by omega)
        simp only [Spec.byte] at this ⊢
        rw [Nat.div_div_eq_div_mul, Nat.div_div_eq_div_mul, Nat.mul_comm, ← Nat.pow_succ]
        exact this)
    omega

/-- the types for which a swap of the right width is chosen -/
def Spec.wide (w : Nat) (signed : Bool) : Prop := w = 16 ∨ w = 32 ∨ (w = 64 ∧ signed = false)

theorem byteswap_eq (w : Nat) (signed : Bool) (hw : Spec.wide w signed) (n : BitVec w) :
    byteswap w signed n = some (BitVec.ofNat w (bswapLoop (w / 8) 0 n.toNat)) := by
  rcases hw with rfl | rfl | ⟨rfl, rfl⟩
  · cases signed <;> simp [byteswap, resolve, Overload.bytes]
  · cases signed <;> simp [byteswap, resolve, Overload.bytes]
  · simp [byteswap, resolve, Overload.bytes]

/-- **`byteswap` reverses the bytes**, for every value of the 16 and 32 bit types and of `uint64_t`: byte `i` of the
result is byte `k - 1 - i` of the argument; swapping twice gives the argument back.  Missing: 8 bit types, which are wrong
(`byteswap_narrow`), and `int64_t`, which does not compile. -/
theorem byteswap_reverses_partial (w : Nat) (signed : Bool) (hw : Spec.wide w signed) (n : BitVec w) :
    ∃ r, byteswap w signed n = some r ∧ (∀ i, i < w / 8 → Spec.byte r.toNat i = Spec.byte n.toNat (w / 8 - 1 - i)) ∧
      byteswap w signed r = some n := by
  have hp : 2 ^ w = 256 ^ (w / 8) := by rcases hw with rfl | rfl | ⟨rfl, _⟩ <;> decide
  have hr : ∀ m, (BitVec.ofNat w (bswapLoop (w / 8) 0 m)).toNat = bswapLoop (w / 8) 0 m := by
    intro m
    rw [BitVec.toNat_ofNat, Nat.mod_eq_of_lt (by rw [hp]; exact bswapLoop_lt _ _)]
  refine ⟨_, byteswap_eq w signed hw n, fun i hi => ?_, ?_⟩
  · rw [hr]; exact (bswapLoop_spec _ 0 _).2 i hi
  · rw [byteswap_eq w signed hw, hr]
    congr 1
    apply BitVec.eq_of_toNat_eq
    rw [hr]
    refine byte_ext (w / 8) _ _ (bswapLoop_lt _ _) (by rw [← hp]; exact n.isLt) (fun i hi => ?_)
    rw [(bswapLoop_spec _ 0 _).2 i hi, (bswapLoop_spec _ 0 _).2 _ (by omega)]
    congr 1; omega

example : Spec.wide 32 true ∧ byteswap 32 true 0x11223344 = some 0x44332211 ∧ byteswap 16 false 0x1234 = some 0x3412 ∧
    byteswap 64 false 1 = some 0x0100000000000000 := by
  refine ⟨.inr (.inl rfl), ?_, ?_, ?_⟩ <;> decide

/-- **Violation.**  Swapping the bytes of a single byte should give it back; the argument is promoted to `int` and the
low byte of the swapped `int` is returned: 0 for every `uint8_t`, 0 or -1 for every `int8_t`. -/
theorem byteswap_narrow (n : BitVec 8) :
    byteswap 8 false n = some 0 ∧ byteswap 8 true n = some (if n.msb then -1 else 0) := by
  revert n; decide

/-- **Violation.**  There is no swap of a signed 64 bit number. -/
theorem byteswap_int64 (n : BitVec 64) : byteswap 64 true n = none := rfl

/-! ## flags -/

/-- `int_type(value_)` in an integer expression: promoted to `int` if narrower -/
def promote (w : Nat) (signed : Bool) (x : BitVec w) : BitVec (max w 32) :=
  if signed then x.signExtend (max w 32) else x.setWidth (max w 32)

/-- `flags(int_type(v))`, flags.h:31-33 -/
def demote (w : Nat) (x : BitVec (max w 32)) : BitVec w := x.setWidth w

/-- `~a`, flags.h:51-54, 98-99 -/
def flagNot (w : Nat) (signed : Bool) (a : BitVec w) : BitVec w := demote w (~~~ promote w signed a)

/-- `a ^ b`, flags.h:56-59, 100-101 -/
def flagXor (w : Nat) (signed : Bool) (a b : BitVec w) : BitVec w := demote w (promote w signed b ^^^ promote w signed a)

/-- `a | b`, flags.h:61-64, 102-103 -/
def flagOr (w : Nat) (signed : Bool) (a b : BitVec w) : BitVec w := demote w (promote w signed b ||| promote w signed a)

/-- `a & b`, flags.h:66-69, 104-105 -/
def flagAnd (w : Nat) (signed : Bool) (a b : BitVec w) : BitVec w := demote w (promote w signed b &&& promote w signed a)

/-- `operator bool`, flags.h:45 -/
def flagBool (w : Nat) (a : BitVec w) : Bool := a != 0

/-- `==`, flags.h:73-84 -/
def flagEq (w : Nat) (a b : BitVec w) : Bool := a == b

/-- `!=`, flags.h:86-90 -/
def flagNe (w : Nat) (a b : BitVec w) : Bool := a != b

/-- the specification: a set of flag numbers below the width -/
def Spec.set {w : Nat} (a : BitVec w) (i : Nat) : Prop := i < w ∧ a.getLsbD i = true

theorem promote_bit (w : Nat) (signed : Bool) (x : BitVec w) (i : Nat) (hi : i < w) : (promote w signed x).getLsbD i = x.getLsbD i := by
  unfold promote
  cases signed
  · simp [BitVec.getLsbD_setWidth]; intro _; omega
  · simp [BitVec.getLsbD_signExtend, hi]; intro _; omega

/-- **Flags are sets**: for every underlying type, `|`, `&`, `^` and `~` are union, intersection, symmetric difference and
complement; a flags value is true exactly when it is not empty; two are equal exactly when they have the same members. -/
theorem flags_are_sets (w : Nat) (signed : Bool) (a b : BitVec w) :
    (∀ i, Spec.set (flagOr w signed a b) i ↔ Spec.set a i ∨ Spec.set b i) ∧
    (∀ i, Spec.set (flagAnd w signed a b) i ↔ Spec.set a i ∧ Spec.set b i) ∧
    (∀ i, Spec.set (flagXor w signed a b) i ↔ (Spec.set a i ∧ ¬ Spec.set b i) ∨ (Spec.set b i ∧ ¬ Spec.set a i)) ∧
    (∀ i, Spec.set (flagNot w signed a) i ↔ i < w ∧ ¬ Spec.set a i) ∧
    (flagBool w a = true ↔ ∃ i, Spec.set a i) ∧
    (flagEq w a b = true ↔ ∀ i, Spec.set a i ↔ Spec.set b i) ∧ flagNe w a b = !flagEq w a b := by
  have dem : ∀ (x : BitVec (max w 32)) (i : Nat), i < w → (demote w x).getLsbD i = x.getLsbD i := by
    intro x i hi; simp [demote, BitVec.getLsbD_setWidth, hi]
  have ext : (∀ i, Spec.set a i ↔ Spec.set b i) → a = b := by
    intro h
    apply BitVec.eq_of_getLsbD_eq
    intro i hi
    have := h i
    simp only [Spec.set, hi, true_and] at this
    exact Bool.eq_iff_iff.mpr this
  refine ⟨fun i => ?_, fun i => ?_, fun i => ?_, fun i => ?_, ?_, ?_, ?_⟩
  · by_cases hi : i < w
    · simp only [Spec.set, hi, true_and, flagOr, dem _ i hi, BitVec.getLsbD_or, promote_bit _ _ _ i hi]
      cases a.getLsbD i <;> cases b.getLsbD i <;> simp
    · simp [Spec.set, hi]
  · by_cases hi : i < w
    · simp only [Spec.set, hi, true_and, flagAnd, dem _ i hi, BitVec.getLsbD_and, promote_bit _ _ _ i hi]
      cases a.getLsbD i <;> cases b.getLsbD i <;> simp
    · simp [Spec.set, hi]
  · by_cases hi : i < w
    · simp only [Spec.set, hi, true_and, flagXor, dem _ i hi, BitVec.getLsbD_xor, promote_bit _ _ _ i hi]
      cases a.getLsbD i <;> cases b.getLsbD i <;> simp
    · simp [Spec.set, hi]
  · by_cases hi : i < w
    · have hm : i < max w 32 := by omega
      simp only [Spec.set, hi, true_and, flagNot, dem _ i hi, BitVec.getLsbD_not, promote_bit _ _ _ i hi, hm, decide_true, Bool.true_and]
      cases a.getLsbD i <;> simp
    · simp [Spec.set, hi]
  · simp only [flagBool, bne_iff_ne]
    constructor
    · intro h
      rcases Classical.em (∃ i, Spec.set a i) with he | he
      · exact he
      · exfalso; apply h
        apply BitVec.eq_of_getLsbD_eq
        intro i hi
        have : ¬ (i < w ∧ a.getLsbD i = true) := fun hc => he ⟨i, hc⟩
        simp only [hi, true_and, Bool.not_eq_true] at this
        simp [this]
    · rintro ⟨i, hi, hb⟩ rfl
      simp at hb
  · simp only [flagEq, beq_iff_eq]
    exact ⟨fun h => by subst h; simp, ext⟩
  · rfl

example : flagOr 8 true 0x81 0x02 = 0x83 ∧ flagNot 8 true 0x81 = 0x7E ∧ flagXor 16 false 3 5 = 6 ∧ flagAnd 64 false 12 10 = 8 := by decide

end Verif.Bits
