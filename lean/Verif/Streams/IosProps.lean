import Verif.Streams.Ios

/-!
# C39: state bits and format flags
-/
namespace Verif.Streams

/-! ## Specification: bits as a set of indices -/

/-- bit `i` of a flag word is set -/
def Spec.has (b : BitVec 8) (i : Nat) : Prop := b.getLsbD i = true

instance (b : BitVec 8) (i : Nat) : Decidable (Spec.has b i) := inferInstanceAs (Decidable (_ = true))

/-- the operation raises bit `i` -/
def Spec.raises (i : Nat) : StateOp → Prop
  | .setstate b => Spec.has b i
  | .clear b => Spec.has b i
  | .unsetstate _ => False

/-- the operation puts bit `i` down -/
def Spec.lowers (i : Nat) : StateOp → Prop
  | .setstate _ => False
  | .clear b => ¬ Spec.has b i
  | .unsetstate b => Spec.has b i

/-! ## Theorems -/

theorem has_truncState (c : IosCfg) (v : BitVec 8) (i : Nat) (hi : i < 4) :
    Spec.has (c.truncState v) i ↔ Spec.has v i := by
  unfold IosCfg.truncState Spec.has
  cases c.aggressive
  · simp
  · have h4 : i = 0 ∨ i = 1 ∨ i = 2 ∨ i = 3 := by omega
    rcases h4 with rfl | rfl | rfl | rfl <;> simp

/-- no bit at all is set exactly for zero -/
theorem eq_zero_iff (b : BitVec 8) : b = 0 ↔ ∀ i, ¬ Spec.has b i := by
  constructor
  · rintro rfl i; simp [Spec.has]
  · intro h; apply BitVec.eq_of_getLsbD_eq; intro i _
    have := h i; simp [Spec.has] at this; simp [this]

/-- `good()` holds exactly when no state bit is set. -/
theorem good_iff (s : Ios) : s.good = true ↔ ∀ i, ¬ Spec.has s.rdstate i := by
  rw [← eq_zero_iff]; simp [Ios.good, goodbit]

private theorem and_bit (b : BitVec 8) (i : Nat) (m : BitVec 8) (hm : ∀ j, m.getLsbD j = decide (j = i)) :
    (b &&& m != 0) = true ↔ Spec.has b i := by
  rw [bne_iff_ne, Ne, eq_zero_iff]
  constructor
  · intro h
    by_cases hb : Spec.has b i
    · exact hb
    · exfalso; apply h; intro j
      simp only [Spec.has, BitVec.getLsbD_and, hm, Bool.and_eq_true, decide_eq_true_eq, not_and]
      rintro h1 rfl; exact hb h1
  · intro h hall
    exact hall i (by simp only [Spec.has, BitVec.getLsbD_and, hm]; simpa [Spec.has] using h)

private theorem bit_one (i : Nat) (hi : i < 4) (m : BitVec 8) (h : m = (1 : BitVec 8) <<< i) :
    ∀ j, m.getLsbD j = decide (j = i) := by
  intro j; subst h
  by_cases hj : j < 8
  · revert j; revert i; decide
  · have : ¬ j = i := by omega
    simp [this]; omega

/-- `bad()`, `fail()`, `eof()` look at bit 0, bits 0 and 1, and bit 2. -/
theorem fail_iff (s : Ios) :
    (s.fail = true ↔ Spec.has s.rdstate 0 ∨ Spec.has s.rdstate 1) ∧
    (s.bad = true ↔ Spec.has s.rdstate 0) ∧ (s.eof = true ↔ Spec.has s.rdstate 2) := by
  refine ⟨?_, ?_, ?_⟩
  · unfold Ios.fail
    rw [Bool.or_eq_true, and_bit _ 1 _ (bit_one 1 (by omega) _ (by decide)),
      and_bit _ 0 _ (bit_one 0 (by omega) _ (by decide))]
    exact or_comm
  · exact and_bit _ 0 _ (bit_one 0 (by omega) _ (by decide))
  · exact and_bit _ 2 _ (bit_one 2 (by omega) _ (by decide))

/-- `setstate` only adds bits, `clear` replaces them, `unsetstate` only removes them (the four bits that exist). -/
theorem state_ops (c : IosCfg) (s : Ios) (b : BitVec 8) (i : Nat) (hi : i < 4) :
    (Spec.has (s.setstate c b).rdstate i ↔ Spec.has s.rdstate i ∨ Spec.has b i) ∧
    (Spec.has (s.clear c b).rdstate i ↔ Spec.has b i) ∧
    (Spec.has (s.unsetstate c b).rdstate i ↔ Spec.has s.rdstate i ∧ ¬ Spec.has b i) := by
  refine ⟨?_, ?_, ?_⟩
  · simp only [Ios.setstate, Ios.rdstate]; rw [has_truncState c _ i hi]; simp [Spec.has]
  · simp only [Ios.clear, Ios.rdstate]; rw [has_truncState c _ i hi]
  · simp only [Ios.unsetstate, Ios.rdstate]; rw [has_truncState c _ i hi]; simp [Spec.has]; omega

/-- the state operations leave the format flags and the width alone, and the flag operations the state -/
theorem ops_frame (c : IosCfg) (s : Ios) (op : StateOp) (f m : BitVec 8) (n : Int) :
    ((s.step c op).flags = s.flags ∧ (s.step c op).width = s.width) ∧
    ((s.setf f).1.state = s.state ∧ (s.setf f).1.width = s.width) ∧
    ((s.setfMask f m).1.state = s.state ∧ (s.setfMask f m).1.width = s.width) ∧
    ((s.unsetf f).1.state = s.state ∧ (s.unsetf f).1.width = s.width) ∧
    ((s.setFlags f).1.state = s.state ∧ (s.setFlags f).1.width = s.width) ∧
    ((s.setWidth c n).1.state = s.state ∧ (s.setWidth c n).1.flags = s.flags) := by
  refine ⟨?_, ⟨rfl, rfl⟩, ⟨rfl, rfl⟩, ⟨rfl, rfl⟩, ⟨rfl, rfl⟩, ⟨rfl, rfl⟩⟩
  cases op <;> exact ⟨rfl, rfl⟩

theorem step_has (c : IosCfg) (s : Ios) (op : StateOp) (i : Nat) (hi : i < 4) :
    Spec.has (s.step c op).rdstate i ↔ Spec.raises i op ∨ (Spec.has s.rdstate i ∧ ¬ Spec.lowers i op) := by
  cases op with
  | setstate b =>
    simp only [Ios.step, Spec.raises, Spec.lowers, (state_ops c s b i hi).1, not_false_eq_true, and_true]
    exact or_comm
  | clear b =>
    simp only [Ios.step, Spec.raises, Spec.lowers, (state_ops c s b i hi).2.1]
    constructor
    · exact Or.inl
    · rintro (h | ⟨_, h⟩)
      · exact h
      · exact Classical.not_not.mp h
  | unsetstate b => simp only [Ios.step, Spec.raises, Spec.lowers, (state_ops c s b i hi).2.2, false_or]

/-- After any history of state operations a bit is set exactly when some operation raised it (or it was set at the
start) and no later one put it down. -/
theorem state_history (c : IosCfg) (s : Ios) (ops : List StateOp) (i : Nat) (hi : i < 4) :
    Spec.has (s.run c ops).rdstate i ↔
      (Spec.has s.rdstate i ∧ ∀ o ∈ ops, ¬ Spec.lowers i o) ∨
      ∃ pre op post, ops = pre ++ op :: post ∧ Spec.raises i op ∧ ∀ o ∈ post, ¬ Spec.lowers i o := by
  induction ops generalizing s with
  | nil => simp [Ios.run]
  | cons op rest ih =>
    have : s.run c (op :: rest) = (s.step c op).run c rest := rfl
    rw [this, ih, step_has c s op i hi]
    constructor
    · rintro (⟨h | ⟨h, hl⟩, hr⟩ | ⟨pre, o, post, h, hro, hp⟩)
      · exact Or.inr ⟨[], op, rest, rfl, h, hr⟩
      · refine Or.inl ⟨h, ?_⟩
        intro o ho; rcases List.mem_cons.mp ho with rfl | ho
        · exact hl
        · exact hr o ho
      · exact Or.inr ⟨op :: pre, o, post, by simp [h], hro, hp⟩
    · rintro (⟨h, hall⟩ | ⟨pre, o, post, h, hro, hp⟩)
      · exact Or.inl ⟨Or.inr ⟨h, hall op (by simp)⟩, fun o ho => hall o (by simp [ho])⟩
      · cases pre with
        | nil =>
          simp only [List.nil_append, List.cons.injEq] at h
          obtain ⟨rfl, rfl⟩ := h
          exact Or.inl ⟨Or.inl hro, hp⟩
        | cons p pre =>
          simp only [List.cons_append, List.cons.injEq] at h
          exact Or.inr ⟨pre, o, post, h.2, hro, hp⟩

/-- a history that ends with end-of-file and failure both reported, then cleared of failure -/
example : (Ios.init.run ⟨true⟩ [.setstate (failbit ||| eofbit), .unsetstate failbit]).rdstate = eofbit := by decide

/-- Bits above the four the field holds are lost in the default configuration. -/
theorem clear_truncates (s : Ios) (b : BitVec 8) (i : Nat) (hi : 4 ≤ i) :
    ¬ Spec.has (s.clear ⟨true⟩ b).rdstate i := by
  simp only [Ios.clear, Ios.rdstate, IosCfg.truncState, Spec.has, ↓reduceIte, BitVec.getLsbD_and]
  intro h
  have h2 : (0x0F : BitVec 8).getLsbD i = true := by simp_all
  by_cases h8 : i < 8
  · have hi' : i = 4 ∨ i = 5 ∨ i = 6 ∨ i = 7 := by omega
    rcases hi' with rfl | rfl | rfl | rfl <;> simp at h2
  · have := BitVec.getLsbD_of_ge (0x0F : BitVec 8) i (by omega); simp_all

/-- `setf(f)` adds exactly the bits of `f`, `unsetf(f)` removes exactly them, `flags(f)` replaces all; each returns the
flags before. -/
theorem flag_ops (s : Ios) (f : BitVec 8) (i : Nat) (hi : i < 8) :
    (Spec.has (s.setf f).1.flags i ↔ Spec.has s.flags i ∨ Spec.has f i) ∧
    (Spec.has (s.unsetf f).1.flags i ↔ Spec.has s.flags i ∧ ¬ Spec.has f i) ∧
    (Spec.has (s.setFlags f).1.flags i ↔ Spec.has f i) ∧
    (s.setf f).2 = s.flags ∧ (s.unsetf f).2 = s.flags ∧ (s.setFlags f).2 = s.flags := by
  refine ⟨?_, ?_, Iff.rfl, rfl, rfl, rfl⟩
  · simp [Ios.setf, Spec.has]
  · simp [Ios.unsetf, Spec.has]; omega

/-- `setf(f, mask)` changes only bits in `mask`, which take their value from `f` -- provided `f` has no bit outside
`mask`.  The property has no such proviso: see `setf_mask_leaks`. -/
theorem setf_mask_partial (s : Ios) (f mask : BitVec 8) (hf : ∀ i, Spec.has f i → Spec.has mask i) (i : Nat)
    (hi : i < 8) :
    (Spec.has mask i → (Spec.has (s.setfMask f mask).1.flags i ↔ Spec.has f i)) ∧
    (¬ Spec.has mask i → (Spec.has (s.setfMask f mask).1.flags i ↔ Spec.has s.flags i)) ∧
    (s.setfMask f mask).2 = s.flags := by
  have h := hf i
  simp only [Spec.has] at h ⊢
  refine ⟨?_, ?_, rfl⟩
  · intro hm; simp [Ios.setfMask, hm]
  · intro hm
    have hf0 : f.getLsbD i = false := by
      cases hb : f.getLsbD i with
      | false => rfl
      | true => exact absurd (h hb) hm
    simp [Ios.setfMask, hm, hf0]; omega

/-- choosing the left adjustment -/
example : ∀ i, i < 8 → Spec.has left i → Spec.has adjustfield i := by decide
example : (Ios.init.setfMask left adjustfield).1.flags = dec ||| left := by decide

/-- Every bit of `f` outside `mask` is set all the same. -/
theorem setf_mask_leaks (s : Ios) (f mask : BitVec 8) (i : Nat) (hf : Spec.has f i) :
    Spec.has (s.setfMask f mask).1.flags i := by
  simp only [Spec.has] at *; simp [Ios.setfMask, hf]

/-- For instance `setf(hex, adjustfield)` changes the base. -/
theorem setf_mask_leaks_witness :
    (Ios.init.setfMask hex adjustfield).1.flags &&& ~~~adjustfield ≠ Ios.init.flags &&& ~~~adjustfield := by decide

/-- `width(n)` returns the width before and makes `n` the width -- provided it fits the field: at most 15 in the
default configuration. -/
theorem width_partial (c : IosCfg) (s : Ios) (n : Int) (h0 : 0 ≤ n) (hn : n < if c.aggressive then 16 else 65536) :
    (s.setWidth c n).1.getWidth = n ∧ (s.setWidth c n).2 = s.getWidth := by
  refine ⟨?_, rfl⟩
  simp only [Ios.setWidth, Ios.getWidth, IosCfg.truncWidth]
  cases hc : c.aggressive <;> simp [hc] at hn ⊢ <;> omega

example : (Ios.init.setWidth ⟨true⟩ 15).1.getWidth = 15 := by decide

/-- Every width from 16 up is stored modulo 16, so never as asked. -/
theorem width_truncated (s : Ios) (n : Int) (hn : 16 ≤ n) :
    (s.setWidth ⟨true⟩ n).1.getWidth = n % 16 ∧ (s.setWidth ⟨true⟩ n).1.getWidth ≠ n := by
  simp only [Ios.setWidth, Ios.getWidth, IosCfg.truncWidth, ↓reduceIte]; omega

end Verif.Streams
