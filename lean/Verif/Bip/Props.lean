import Verif.Bip.Model
import Mathlib.Data.List.TakeDrop

/-!
# C31: the bip buffer is a byte FIFO
-/
namespace Verif.Bip
variable {α : Type u}

/-- the bytes held, oldest first: region A, then region B -/
def contents (b : Buf α) : List α := (b.data.drop b.aStart).take (b.aEnd - b.aStart) ++ b.data.take b.bEnd

/-- how many of the oldest bytes lie in one piece -/
def contiguous (b : Buf α) : Nat := b.aEnd - b.aStart

/-- what holds after every history (sizes below 2³¹, the range of `int`) -/
structure Inv (b : Buf α) : Prop where
  len : b.data.length = b.size
  small : b.size < 2147483648
  ordered : b.aStart ≤ b.aEnd
  fits : b.aEnd ≤ b.size
  below : b.bEnd ≤ b.aStart
  unusedB : b.bInuse = false → b.bEnd = 0
  empty : b.aStart = b.aEnd → b.aStart = 0 ∧ b.bInuse = false

theorem sub32_eq {a b : Nat} (h : b ≤ a) (ha : a < 4294967296) : sub32 a b = a - b := by
  unfold sub32
  rw [show a + 4294967296 - b = (a - b) + 4294967296 by omega, Nat.add_mod_right, Nat.mod_eq_of_lt (by omega)]

theorem sub64_eq {a b : Nat} (h : b ≤ a) (ha : a < 18446744073709551616) : sub64 a b = a - b := by
  unfold sub64
  rw [show a + 18446744073709551616 - b = (a - b) + 18446744073709551616 by omega, Nat.add_mod_right,
    Nat.mod_eq_of_lt (by omega)]

theorem add32_eq {a b : Nat} (h : a + b < 4294967296) : add32 a b = a + b := Nat.mod_eq_of_lt h

theorem toInt_eq {a : Nat} (h : a < 2147483648) : toInt a = a := by
  unfold toInt
  rw [Nat.mod_eq_of_lt (by omega : a < 4294967296), if_pos h]

theorem unused_eq {b : Buf α} (hi : Inv b) :
    unused b = ((if b.bInuse then b.aStart - b.bEnd else b.size - b.aEnd : Nat) : Int) := by
  have := hi.small; have := hi.ordered; have := hi.fits; have := hi.below
  unfold unused
  cases h : b.bInuse with
  | true => simp only [if_true]; rw [sub32_eq hi.below (by omega), toInt_eq (by omega)]
  | false => simp only [Bool.false_eq_true, if_false]; rw [sub64_eq hi.fits (by omega), toInt_eq (by omega)]

theorem contents_length {b : Buf α} (hi : Inv b) : (contents b).length = (b.aEnd - b.aStart) + b.bEnd := by
  have h1 := hi.len; have h2 := hi.ordered; have h3 := hi.fits; have h4 := hi.below
  simp only [contents, List.length_append, List.length_take, List.length_drop, h1]
  omega

/-- `used()` is the number of bytes held. -/
theorem used_exact {b : Buf α} (hi : Inv b) : used b = (contents b).length := by
  have := hi.small; have := hi.ordered; have := hi.fits; have := hi.below
  rw [contents_length hi]
  unfold used
  rw [sub32_eq hi.ordered (by omega), add32_eq (by omega), toInt_eq (by omega)]

theorem isEmpty_iff {b : Buf α} (hi : Inv b) : isEmpty b = true ↔ contents b = [] := by
  rw [← List.length_eq_zero_iff, contents_length hi]
  have := hi.below; have := hi.ordered
  simp only [isEmpty, beq_iff_eq]
  constructor
  · intro h; have := (hi.empty h).1; omega
  · intro h; omega

theorem memcpy_eq (d : List α) (m : List α) (i : Nat) (h : i + d.length ≤ m.length) :
    memcpy m i d = some (m.take i ++ d ++ m.drop (i + d.length)) := by
  induction d generalizing m i with
  | nil => simp [memcpy]
  | cons c d ih =>
    simp only [List.length_cons] at h
    simp only [memcpy, wr_lt (show i < m.length by omega)]
    rw [ih _ _ (by simpa using by omega)]
    congr 1
    have e1 : (m.set i c).take (i + 1) = m.take i ++ [c] := by
      rw [List.take_succ_eq_append_getElem (by simp; omega), List.take_set_of_le (Nat.le_refl i)]
      simp
    have e2 : (m.set i c).drop (i + 1 + d.length) = m.drop (i + (d.length + 1)) := by
      rw [List.drop_set_of_lt (by omega)]; congr 1; omega
    rw [e1, e2]; simp

theorem written_take (d m : List α) (i k : Nat) (h : k ≤ i) (hi : i ≤ m.length) :
    (m.take i ++ d ++ m.drop (i + d.length)).take k = m.take k := by
  rw [List.append_assoc, List.take_append_of_le_length (by simp; omega), List.take_take, Nat.min_eq_left h]

theorem written_drop (d m : List α) (i k : Nat) (h : i + d.length ≤ k) (hi : i ≤ m.length) :
    (m.take i ++ d ++ m.drop (i + d.length)).drop k = m.drop k := by
  have hl : (m.take i ++ d).length = i + d.length := by simp; omega
  rw [List.drop_append, hl, List.drop_drop, List.drop_eq_nil_of_le (by omega)]
  simp only [List.nil_append]; congr 1; omega

theorem written_slice (d m : List α) (i k : Nat) (h : k ≤ i) (hi : i ≤ m.length) :
    ((m.take i ++ d ++ m.drop (i + d.length)).drop k).take (i + d.length - k) = (m.drop k).take (i - k) ++ d := by
  have hl : (m.take i ++ d).length = i + d.length := by simp; omega
  rw [List.drop_append_of_le_length (by omega), List.take_append_of_le_length (by simp; omega),
    List.drop_append_of_le_length (by simp; omega), List.take_of_length_le (by simp; omega), List.drop_take]

theorem inv_init (size : Nat) (mem : List α) (hm : mem.length = size) (h : size < 2147483648) :
    Inv (init size mem) :=
  ⟨hm, h, Nat.le_refl _, Nat.zero_le _, Nat.le_refl _, fun _ => rfl, fun _ => ⟨rfl, rfl⟩⟩

/-- switching to region B neither moves bytes nor breaks the invariant -/
theorem checkSwitch_ok {b : Buf α} (hi : Inv b) : Inv (checkSwitch b) ∧ contents (checkSwitch b) = contents b ∧
    (checkSwitch b).size = b.size := by
  have h1 := hi.small; have h2 := hi.ordered; have h3 := hi.fits; have h4 := hi.below
  unfold checkSwitch
  split
  · rename_i h
    rw [sub64_eq hi.fits (by omega), sub32_eq hi.below (by omega)] at h
    refine ⟨⟨hi.len, hi.small, hi.ordered, hi.fits, hi.below, by simp, ?_⟩, rfl, rfl⟩
    intro he
    have := (hi.empty he).1
    simp only at *
    omega
  · exact ⟨hi, rfl, rfl⟩

/-- **offer.** It accepts all of the bytes or none; it accepts exactly when they fit in `unused()`; accepted bytes are
appended to the contents; a refused offer changes nothing. -/
theorem offer_spec (b : Buf α) (hi : Inv b) (d : List α) :
    (∃ b', (d.length : Int) ≤ unused b ∧ offer b d = some (d.length, b') ∧ Inv b' ∧ b'.size = b.size ∧
      contents b' = contents b ++ d) ∨
    (unused b < d.length ∧ offer b d = some (0, b)) := by
  have h0 := hi.len; have h1 := hi.small; have h2 := hi.ordered; have h3 := hi.fits; have h4 := hi.below
  by_cases hu : unused b < d.length
  · exact Or.inr ⟨hu, by simp [offer, hu]⟩
  · left
    have hu' := hu
    rw [unused_eq hi] at hu'
    unfold offer
    rw [if_neg hu]
    cases hb : b.bInuse with
    | true =>
      rw [hb] at hu'
      simp only [if_true] at hu' ⊢
      have hfit : b.bEnd + d.length ≤ b.aStart := by omega
      rw [memcpy_eq d b.data b.bEnd (by omega)]
      simp only [Option.map_some]
      have hi' : Inv { b with data := b.data.take b.bEnd ++ d ++ b.data.drop (b.bEnd + d.length), bEnd := add32 b.bEnd d.length } := by
        rw [add32_eq (by omega)]
        refine ⟨?_, hi.small, hi.ordered, hi.fits, hfit, fun h => absurd (show b.bInuse = false from h) (by simp [hb]), hi.empty⟩
        simp; omega
      simp only [hb] at hi'
      obtain ⟨g1, g2, g3⟩ := checkSwitch_ok hi'
      refine ⟨_, by omega, rfl, g1, g3, ?_⟩
      rw [g2]
      simp only [contents]
      rw [add32_eq (by omega), written_drop d b.data b.bEnd b.aStart hfit (by omega)]
      have := written_slice d b.data b.bEnd 0 (Nat.zero_le _) (by omega)
      simp only [List.drop_zero, Nat.sub_zero] at this
      rw [this, List.append_assoc]
    | false =>
      rw [hb] at hu'
      simp only [Bool.false_eq_true, if_false] at hu' ⊢
      have hfit : b.aEnd + d.length ≤ b.size := by omega
      have hB := hi.unusedB hb
      rw [memcpy_eq d b.data b.aEnd (by omega)]
      simp only [Option.map_some]
      have hi' : Inv { b with data := b.data.take b.aEnd ++ d ++ b.data.drop (b.aEnd + d.length), aEnd := add32 b.aEnd d.length } := by
        rw [add32_eq (by omega)]
        refine ⟨?_, hi.small, ?_, hfit, hi.below, hi.unusedB, ?_⟩
        · simp; omega
        · simp only; omega
        · intro he
          simp only at he ⊢
          exact ⟨(hi.empty (by omega)).1, hb⟩
      simp only [hb] at hi'
      obtain ⟨g1, g2, g3⟩ := checkSwitch_ok hi'
      refine ⟨_, by omega, rfl, g1, g3, ?_⟩
      rw [g2]
      simp only [contents, hB, List.take_zero, List.append_nil]
      rw [add32_eq (by omega), written_slice d b.data b.aEnd b.aStart hi.ordered (by omega)]

/-- An empty buffer accepts any offer up to its capacity. -/
theorem empty_accepts (b : Buf α) (hi : Inv b) (he : contents b = []) : unused b = b.size := by
  have h := (isEmpty_iff hi).mpr he
  simp only [isEmpty, beq_iff_eq] at h
  obtain ⟨h1, h2⟩ := hi.empty h
  rw [unused_eq hi, h2]
  simp only [Bool.false_eq_true, if_false]
  congr 1
  omega

/-- What is held and what may still be offered never exceed the capacity, and `unused()` is never negative. -/
theorem accounting (b : Buf α) (hi : Inv b) : 0 ≤ unused b ∧ used b + unused b ≤ b.size := by
  have h2 := hi.ordered; have h3 := hi.fits; have h4 := hi.below; have h5 := hi.unusedB
  rw [used_exact hi, unused_eq hi, contents_length hi]
  cases hb : b.bInuse with
  | true => simp only [if_true]; omega
  | false => have := h5 hb; simp only [Bool.false_eq_true, if_false]; omega

/-- Writing at `offer_begin()` and then calling `offer_end(n)` is an accepted offer. -/
theorem offer_begin_end (b : Buf α) (d : List α) (h : (d.length : Int) ≤ unused b) (b' : Buf α)
    (ho : offer b d = some (d.length, b')) :
    ∃ m, memcpy b.data (offerBegin b) d = some m ∧ offerEnd { b with data := m } d.length = b' := by
  unfold offer at ho
  rw [if_neg (by omega)] at ho
  unfold offerBegin offerEnd
  cases hb : b.bInuse with
  | true =>
    simp only [hb, if_true] at ho ⊢
    cases hm : memcpy b.data b.bEnd d with
    | none => simp [hm] at ho
    | some m => simp [hm] at ho; exact ⟨m, rfl, ho⟩
  | false =>
    simp only [hb, Bool.false_eq_true, if_false] at ho ⊢
    cases hm : memcpy b.data b.aEnd d with
    | none => simp [hm] at ho
    | some m => simp [hm] at ho; exact ⟨m, rfl, ho⟩

theorem take_contents {b : Buf α} (n : Nat) (hn : n ≤ contiguous b) (hi : Inv b) :
    (b.data.drop b.aStart).take n = (contents b).take n := by
  have h0 := hi.len; have h3 := hi.fits
  unfold contiguous at hn
  unfold contents
  rw [List.take_append_of_le_length (by simp; omega), List.take_take, Nat.min_eq_left hn]

/-- **peek.** From a non-empty buffer, peeking at no more than the contiguous bytes yields a pointer to exactly the
oldest bytes. -/
theorem peek_spec (b : Buf α) (hi : Inv b) (n : Nat) (hn : n ≤ contiguous b) (hne : contents b ≠ []) :
    ∃ p, peek b n = some p ∧ (b.data.drop p).take n = (contents b).take n := by
  have h1 := hi.small; have h2 := hi.ordered; have h3 := hi.fits
  have he : isEmpty b = false := by
    cases h : isEmpty b with
    | false => rfl
    | true => exact absurd ((isEmpty_iff hi).mp h) hne
  have hn' := hn
  unfold contiguous at hn'
  refine ⟨b.aStart, ?_, take_contents n hn hi⟩
  unfold peek
  rw [add32_eq (by omega), if_neg (by omega), he]; rfl

/-- **poll.** From a non-empty buffer, polling no more than the contiguous bytes yields a pointer to exactly the oldest
bytes and removes exactly those. -/
theorem poll_spec (b : Buf α) (hi : Inv b) (n : Nat) (hn : n ≤ contiguous b) (hne : contents b ≠ []) :
    ∃ p b', poll b n = (some p, b') ∧ (b.data.drop p).take n = (contents b).take n ∧ b'.data = b.data ∧
      Inv b' ∧ b'.size = b.size ∧ contents b' = (contents b).drop n := by
  have h0 := hi.len; have h1 := hi.small; have h2 := hi.ordered; have h3 := hi.fits; have h4 := hi.below
  have he : isEmpty b = false := by
    cases h : isEmpty b with
    | false => rfl
    | true => exact absurd ((isEmpty_iff hi).mp h) hne
  have hne' : b.aStart ≠ b.aEnd := by simpa [isEmpty] using he
  have hn' := hn
  unfold contiguous at hn'
  have hd : ∀ c : Buf α, (checkSwitch c).data = c.data := by intro c; unfold checkSwitch; split <;> rfl
  unfold poll
  rw [he, add32_eq (by omega)]
  simp only [Bool.false_eq_true, if_false]
  rw [if_neg (by omega)]
  by_cases hall : b.aStart + n = b.aEnd
  · rw [if_pos hall]
    have hdrop : (contents b).drop n = b.data.take b.bEnd := by
      unfold contents
      have hl : ((b.data.drop b.aStart).take (b.aEnd - b.aStart)).length = n := by simp; omega
      rw [List.drop_append, hl, List.drop_eq_nil_of_le (by omega)]; simp
    cases hb : b.bInuse with
    | true =>
      simp only [if_true]
      have hi' : Inv { b with aStart := 0, aEnd := b.bEnd, bEnd := 0, bInuse := false } :=
        ⟨hi.len, hi.small, Nat.zero_le _, by simp only; omega, Nat.le_refl _, fun _ => rfl, fun _ => ⟨rfl, rfl⟩⟩
      obtain ⟨g1, g2, g3⟩ := checkSwitch_ok hi'
      refine ⟨_, _, rfl, take_contents n hn hi, hd _, g1, g3, ?_⟩
      rw [g2, hdrop]; simp [contents]
    | false =>
      simp only [Bool.false_eq_true, if_false]
      have hB := hi.unusedB hb
      have hi' : Inv { b with aStart := 0, aEnd := 0 } :=
        ⟨hi.len, hi.small, Nat.le_refl _, Nat.zero_le _, by simp only; omega, hi.unusedB, fun _ => ⟨rfl, hb⟩⟩
      obtain ⟨g1, g2, g3⟩ := checkSwitch_ok hi'
      refine ⟨_, _, rfl, take_contents n hn hi, ?_, ?_, ?_, ?_⟩
      · rw [hd]
      · simpa [hb] using g1
      · simpa [hb] using g3
      · have : contents { b with aStart := 0, aEnd := 0 } = (contents b).drop n := by
          rw [hdrop]; simp [contents]
        rw [← this, ← g2]; simp [hb]
  · rw [if_neg hall]
    have hi' : Inv { b with aStart := b.aStart + n } :=
      ⟨hi.len, hi.small, by simp only; omega, hi.fits, by simp only; omega, hi.unusedB, fun h => absurd h hall⟩
    obtain ⟨g1, g2, g3⟩ := checkSwitch_ok hi'
    refine ⟨_, _, rfl, take_contents n hn hi, hd _, g1, g3, ?_⟩
    rw [g2]
    simp only [contents]
    rw [List.drop_append_of_le_length (by simp; omega), List.drop_take, List.drop_drop]
    congr 2
    omega

/-- **poll, refused.** Polling an empty buffer, or past the end of the array, returns null and changes nothing. -/
theorem poll_refused (b : Buf α) (hi : Inv b) (n : Nat)
    (h : contents b = [] ∨ (b.size < b.aStart + n ∧ b.aStart + n < 4294967296)) : poll b n = (none, b) := by
  unfold poll
  rcases h with h | ⟨h, h'⟩
  · rw [(isEmpty_iff hi).mpr h]; rfl
  · rw [add32_eq h']
    split
    · rfl
    · rfl

/-! ## Histories -/

inductive Op (α : Type u) where
  | offer (d : List α)
  | poll (n : Nat)

/-- The bytes an operation took in and gave out, and the buffer after it; `none` is undefined behaviour. -/
def step (b : Buf α) : Op α → Option (List α × List α × Buf α)
  | .offer d => (offer b d).map fun (n, b') => (d.take n, [], b')
  | .poll n =>
    match poll b n with
    | (none, b') => some ([], [], b')
    | (some p, b') => some ([], (b.data.drop p).take n, b')

/-- all bytes accepted and all bytes polled over a history -/
def run (b : Buf α) : List (Op α) → Option (List α × List α × Buf α)
  | [] => some ([], [], b)
  | op :: ops =>
    match step b op with
    | some (i1, o1, b1) => (run b1 ops).map fun (i2, o2, b2) => (i1 ++ i2, o1 ++ o2, b2)
    | none => none

/-- Each poll asks for no more than lies in one piece, or so much that it is refused.  (`poll_overdraw` shows what the
code does otherwise.) -/
def legal (b : Buf α) : Op α → Prop
  | .offer _ => True
  | .poll n => n ≤ contiguous b ∨ (b.size < b.aStart + n ∧ b.aStart + n < 4294967296)

def legalRun (b : Buf α) : List (Op α) → Prop
  | [] => True
  | op :: ops =>
    legal b op ∧
      match step b op with
      | some (_, _, b') => legalRun b' ops
      | none => False

instance (b : Buf α) (op : Op α) : Decidable (legal b op) := by cases op <;> simp only [legal] <;> infer_instance

instance instLegalRun : (b : Buf α) → (ops : List (Op α)) → Decidable (legalRun b ops)
  | _, [] => inferInstanceAs (Decidable True)
  | b, op :: ops =>
    have : Decidable (match step b op with | some (_, _, b') => legalRun b' ops | none => False) :=
      match step b op with
      | some (_, _, b') => instLegalRun b' ops
      | none => inferInstanceAs (Decidable False)
    inferInstanceAs (Decidable (_ ∧ _))

theorem step_fifo (b : Buf α) (hi : Inv b) (op : Op α) (hl : legal b op) :
    ∃ i o b', step b op = some (i, o, b') ∧ Inv b' ∧ contents b ++ i = o ++ contents b' := by
  cases op with
  | offer d =>
    rcases offer_spec b hi d with ⟨b', -, h1, h2, -, h3⟩ | ⟨-, h1⟩
    · exact ⟨d, [], b', by simp [step, h1], h2, by simp [h3]⟩
    · exact ⟨[], [], b, by simp [step, h1], hi, by simp⟩
  | poll n =>
    by_cases he : contents b = []
    · exact ⟨[], [], b, by simp [step, poll_refused b hi n (Or.inl he)], hi, by simp⟩
    · rcases hl with hl | hl
      · obtain ⟨p, b', h1, h2, -, h3, -, h4⟩ := poll_spec b hi n hl he
        exact ⟨[], _, b', by simp [step, h1]; rfl, h3, by rw [h2, h4]; simp⟩
      · exact ⟨[], [], b, by simp [step, poll_refused b hi n (Or.inr hl)], hi, by simp⟩

/-- **C31 (partial).** Over every history from an initialised buffer in which no poll asks for more than the contiguous
bytes (or asks for so much that it is refused), nothing undefined happens and the bytes polled, followed by the bytes
still held, are exactly the bytes accepted, in order; `used()` is the number still held.

Missing: polls of more than the contiguous bytes, which the code grants (`poll_overdraw`). -/
theorem fifo_partial (size : Nat) (mem : List α) (hm : mem.length = size) (hs : size < 2147483648)
    (ops : List (Op α)) (hl : legalRun (init size mem) ops) :
    ∃ accepted polled b, run (init size mem) ops = some (accepted, polled, b) ∧
      accepted = polled ++ contents b ∧ used b = (contents b).length := by
  have key : ∀ (ops : List (Op α)) (b : Buf α), Inv b → legalRun b ops →
      ∃ i o b', run b ops = some (i, o, b') ∧ Inv b' ∧ contents b ++ i = o ++ contents b' := by
    intro ops
    induction ops with
    | nil => exact fun b hi _ => ⟨[], [], b, rfl, hi, by simp⟩
    | cons op ops ih =>
      intro b hi hl
      obtain ⟨i1, o1, b1, h1, h2, h3⟩ := step_fifo b hi op hl.1
      obtain ⟨i2, o2, b2, g1, g2, g3⟩ := ih b1 h2 (by have := hl.2; rw [h1] at this; exact this)
      refine ⟨i1 ++ i2, o1 ++ o2, b2, by simp [run, h1, g1], g2, ?_⟩
      rw [← List.append_assoc, h3, List.append_assoc, g3, List.append_assoc]
  obtain ⟨i, o, b, h1, h2, h3⟩ := key ops _ (inv_init size mem hm hs) hl
  refine ⟨i, o, b, h1, ?_, used_exact h2⟩
  rw [← h3]; simp [contents, init]

/-! ## Where the code departs from the property -/

/-- In every state, polling more than the contiguous bytes (but within the array) is granted: the pointer is not null,
`n` bytes are reported, and region A is left with its start after its end. -/
theorem poll_overdraw (b : Buf α) (hi : Inv b) (n : Nat) (hne : contents b ≠ []) (hn : contiguous b < n)
    (hs : b.aStart + n ≤ b.size) :
    ∃ b', poll b n = (some b.aStart, b') ∧ b'.aEnd < b'.aStart := by
  have h1 := hi.small; have h2 := hi.ordered; have h3 := hi.fits
  have he : isEmpty b = false := by
    cases h : isEmpty b with
    | false => rfl
    | true => exact absurd ((isEmpty_iff hi).mp h) hne
  unfold contiguous at hn
  unfold poll
  rw [he, add32_eq (by omega)]
  simp only [Bool.false_eq_true, if_false]
  rw [if_neg (by omega), if_neg (by omega)]
  refine ⟨_, rfl, ?_⟩
  unfold checkSwitch
  split <;> (simp only; omega)

/-- **Violation.** With everything in one piece, such a poll hands out all the held bytes *and* bytes behind them that were
never offered, and `used()` then says a negative number. -/
theorem poll_invents (b : Buf α) (hi : Inv b) (n : Nat) (hu : b.bInuse = false) (hne : contents b ≠ [])
    (hn : (contents b).length < n) (hs : b.aStart + n ≤ b.size) :
    ∃ b' junk, poll b n = (some b.aStart, b') ∧ (b.data.drop b.aStart).take n = contents b ++ junk ∧
      junk.length = n - (contents b).length ∧ used b' = (contents b).length - (n : Int) := by
  have h1 := hi.small; have h2 := hi.ordered; have h3 := hi.fits; have h4 := hi.unusedB hu
  have hc : contents b = (b.data.drop b.aStart).take (b.aEnd - b.aStart) := by simp [contents, h4]
  have hcl : (contents b).length = b.aEnd - b.aStart := by rw [hc]; simp [hi.len]; omega
  have he : isEmpty b = false := by
    cases h : isEmpty b with
    | false => rfl
    | true => exact absurd ((isEmpty_iff hi).mp h) hne
  have hpoll : poll b n = (some b.aStart, checkSwitch { b with aStart := b.aStart + n }) := by
    unfold poll
    rw [he, add32_eq (by omega)]
    simp only [Bool.false_eq_true, if_false]
    rw [if_neg (by omega), if_neg (by omega)]
  refine ⟨_, (b.data.drop b.aEnd).take (n - (contents b).length), hpoll, ?_, ?_, ?_⟩
  · rw [hc]
    have : (b.data.drop b.aEnd) = (b.data.drop b.aStart).drop (b.aEnd - b.aStart) := by
      rw [List.drop_drop]; congr 1; omega
    rw [this, ← hc, hcl]
    rw [hc, ← List.take_add]
    congr 1; omega
  · simp [hi.len]; omega
  · have hu' : used (checkSwitch { b with aStart := b.aStart + n }) = used { b with aStart := b.aStart + n } := by
      unfold checkSwitch
      split <;> rfl
    rw [hu']
    simp only [used, h4, add32, sub32, toInt]
    rw [hcl]
    split <;> omega

/-- A poll of two bytes from a buffer holding one hands out a byte that was never offered, and `used()` then says -1. -/
example :
    (run (init 4 [10, 11, 12, 13]) [.offer [1], .poll 2]).map (fun r => (r.1, r.2.1, used r.2.2)) =
      some ([1], [1, 11], -1) := by decide +kernel

/-- A poll of a negative length (`poll(-1)`: the `int` becomes a huge unsigned) un-reads a byte already polled. -/
theorem poll_negative (b : Buf α) (hi : Inv b) (hne : contents b ≠ []) (hs : 0 < b.aStart) :
    ∃ b', poll b 4294967295 = (some b.aStart, b') ∧ b'.aStart = b.aStart - 1 := by
  have h1 := hi.small; have h2 := hi.ordered; have h3 := hi.fits
  have he : isEmpty b = false := by
    cases h : isEmpty b with
    | false => rfl
    | true => exact absurd ((isEmpty_iff hi).mp h) hne
  have ha : add32 b.aStart 4294967295 = b.aStart - 1 := by
    unfold add32
    rw [show b.aStart + 4294967295 = (b.aStart - 1) + 4294967296 by omega, Nat.add_mod_right, Nat.mod_eq_of_lt (by omega)]
  unfold poll
  rw [he, ha]
  simp only [Bool.false_eq_true, if_false]
  rw [if_neg (by omega), if_neg (by omega)]
  refine ⟨_, rfl, ?_⟩
  unfold checkSwitch
  split <;> rfl

/-! ### The hypotheses are met -/

/-- a history that switches to region B and back: six bytes of room, wrapping around, with one refused offer -/
def sample : List (Op Nat) := [.offer [1, 2, 3, 4, 5], .poll 3, .offer [6, 7], .offer [8, 9], .poll 2, .poll 1, .poll 7]

example : legalRun (init 6 [0, 0, 0, 0, 0, 0]) sample := by decide +kernel

example : (run (init 6 [0, 0, 0, 0, 0, 0]) sample).map (fun r => (r.1, r.2.1, contents r.2.2, used r.2.2)) =
    some ([1, 2, 3, 4, 5, 6, 7], [1, 2, 3, 4, 5, 6], [7], 1) := by decide +kernel

/-- a state in which `poll_overdraw` and `poll_negative` apply -/
example : let b : Buf Nat := ⟨4, 1, 2, 0, false, [1, 2, 3, 4]⟩
    Inv b ∧ contents b ≠ [] ∧ contiguous b < 3 ∧ b.aStart + 3 ≤ b.size ∧ 0 < b.aStart :=
  ⟨⟨rfl, by decide, by decide, by decide, by decide, by simp, by simp⟩, by decide, by decide, by decide, by decide⟩

end Verif.Bip
