import Verif.Bip.Handler
import Mathlib.Tactic.ByContra

/-!
# C105: a bip buffer that an interrupt handler fills while the main program empties it
-/
namespace Verif.Bip.Handler
open Verif
variable {α : Type u}

/-- what holds even in the middle of a call -/
structure Core (b : Buf α) : Prop where
  len : b.data.length = b.size
  small : b.size < 2147483648
  ordered : b.aStart ≤ b.aEnd
  fits : b.aEnd ≤ b.size
  below : b.bEnd ≤ b.aStart
  unusedB : b.bInuse = false → b.bEnd = 0

theorem core_of_inv {b : Buf α} (h : Inv b) : Core b := ⟨h.len, h.small, h.ordered, h.fits, h.below, h.unusedB⟩

theorem inv_of_core {b : Buf α} (h : Core b) (he : b.aStart = b.aEnd → b.aStart = 0 ∧ b.bInuse = false) : Inv b :=
  ⟨h.len, h.small, h.ordered, h.fits, h.below, h.unusedB, he⟩

theorem core_length {b : Buf α} (hi : Core b) : (contents b).length = (b.aEnd - b.aStart) + b.bEnd := by
  have h1 := hi.len; have h2 := hi.ordered; have h3 := hi.fits; have h4 := hi.below
  simp only [contents, List.length_append, List.length_take, List.length_drop, h1]
  omega

/-- what an offer of the handler does to a buffer in the middle of a call -/
structure Offered (b : Buf α) (d : List α) (k : Nat) (b' : Buf α) : Prop where
  runs : offer b d = some (k, b')
  core : Core b'
  conts : contents b' = contents b ++ d.take k
  start : b'.aStart = b.aStart
  size : b'.size = b.size
  grows : b.aEnd ≤ b'.aEnd
  stays : b.bInuse = true → b'.bInuse = true ∧ b'.aEnd = b.aEnd
  switched : b'.bInuse = true → b.bInuse = true ∨ b'.size - b'.aEnd < b'.aStart

theorem offer_core (b : Buf α) (hi : Core b) (d : List α) : ∃ k b', Offered b d k b' := by
  have h0 := hi.len; have h1 := hi.small; have h2 := hi.ordered; have h3 := hi.fits; have h4 := hi.below
  have hun : unused b = ((if b.bInuse then b.aStart - b.bEnd else b.size - b.aEnd : Nat) : Int) := by
    unfold unused
    cases h : b.bInuse with
    | true => simp only [if_true]; rw [sub32_eq hi.below (by omega), toInt_eq (by omega)]
    | false => simp only [Bool.false_eq_true, if_false]; rw [sub64_eq hi.fits (by omega), toInt_eq (by omega)]
  have hsw : ∀ c : Buf α, Core c → Core (checkSwitch c) ∧ contents (checkSwitch c) = contents c ∧
      (checkSwitch c).aStart = c.aStart ∧ (checkSwitch c).aEnd = c.aEnd ∧ (checkSwitch c).size = c.size ∧
      (c.bInuse = true → (checkSwitch c).bInuse = true) ∧
      ((checkSwitch c).bInuse = true → c.bInuse = true ∨ c.size - c.aEnd < c.aStart) := by
    intro c hc
    unfold checkSwitch
    split
    · rename_i h
      have := hc.small; have := hc.ordered; have := hc.fits
      rw [sub64_eq hc.fits (by omega), sub32_eq hc.below (by omega)] at h
      exact ⟨⟨hc.len, hc.small, hc.ordered, hc.fits, hc.below, by simp⟩, rfl, rfl, rfl, rfl, fun _ => rfl,
        fun _ => Or.inr (by simp only at *; omega)⟩
    · exact ⟨hc, rfl, rfl, rfl, rfl, id, Or.inl⟩
  by_cases hu : unused b < d.length
  · exact ⟨0, b, by simp [offer, hu], hi, by simp, rfl, rfl, Nat.le_refl _, fun h => ⟨h, rfl⟩, Or.inl⟩
  · have hu' := hu
    rw [hun] at hu'
    have hoff : ∀ m, (if b.bInuse then memcpy b.data b.bEnd d else memcpy b.data b.aEnd d) = some m →
        offer b d = some (d.length, checkSwitch (if b.bInuse then { b with data := m, bEnd := add32 b.bEnd d.length }
          else { b with data := m, aEnd := add32 b.aEnd d.length })) := by
      intro m hm
      unfold offer
      rw [if_neg hu]
      cases hb : b.bInuse <;> simp only [hb, Bool.false_eq_true, if_false, if_true] at hm ⊢ <;> rw [hm] <;> rfl
    cases hb : b.bInuse with
    | true =>
      rw [hb] at hu'
      simp only [if_true] at hu'
      have hfit : b.bEnd + d.length ≤ b.aStart := by omega
      have hm := memcpy_eq d b.data b.bEnd (by omega)
      have hr := hoff _ (by rw [hb, if_pos rfl]; exact hm)
      rw [if_pos hb] at hr
      have hi' : Core { b with data := b.data.take b.bEnd ++ d ++ b.data.drop (b.bEnd + d.length), bEnd := add32 b.bEnd d.length } := by
        rw [add32_eq (by omega)]
        refine ⟨?_, hi.small, hi.ordered, hi.fits, hfit, fun h => absurd (show b.bInuse = false from h) (by simp [hb])⟩
        simp; omega
      obtain ⟨g1, g2, g3, g4, g5, g6, g7⟩ := hsw _ hi'
      refine ⟨_, _, hr, g1, ?_, g3, g5, by rw [g4]; exact Nat.le_refl _, fun _ => ⟨g6 hb, g4⟩, fun _ => Or.inl hb⟩
      rw [g2]
      simp only [contents]
      rw [add32_eq (by omega), written_drop d b.data b.bEnd b.aStart hfit (by omega)]
      have := written_slice d b.data b.bEnd 0 (Nat.zero_le _) (by omega)
      simp only [List.drop_zero, Nat.sub_zero] at this
      rw [this, List.append_assoc, List.take_length]
    | false =>
      rw [hb] at hu'
      simp only [Bool.false_eq_true, if_false] at hu'
      have hfit : b.aEnd + d.length ≤ b.size := by omega
      have hB := hi.unusedB hb
      have hm := memcpy_eq d b.data b.aEnd (by omega)
      have hr := hoff _ (by rw [hb, if_neg (by simp)]; exact hm)
      rw [if_neg (by simp [hb])] at hr
      have hi' : Core { b with data := b.data.take b.aEnd ++ d ++ b.data.drop (b.aEnd + d.length), aEnd := add32 b.aEnd d.length } := by
        rw [add32_eq (by omega)]
        refine ⟨?_, hi.small, ?_, hfit, hi.below, hi.unusedB⟩
        · simp; omega
        · simp only; omega
      obtain ⟨g1, g2, g3, g4, g5, g6, g7⟩ := hsw _ hi'
      refine ⟨_, _, hr, g1, ?_, g3, g5, ?_, fun h => absurd h (by simp [hb]), ?_⟩
      · rw [g2]
        simp only [contents, hB]
        rw [add32_eq (by omega), written_slice d b.data b.aEnd b.aStart hi.ordered (by omega)]
        simp
      · rw [g4]; simp only; rw [add32_eq (by omega)]; omega
      · intro h
        rcases g7 h with h | h
        · exact absurd h (by simp [hb])
        · rw [g4, g3, g5]; exact Or.inr h

theorem Offered.inv {b b' : Buf α} {d : List α} {k : Nat} (h : Offered b d k b') (hi : Inv b) : Inv b' := by
  refine inv_of_core h.core fun he => ?_
  have h1 := h.start; have h2 := h.grows; have h3 := hi.ordered
  have he' : b.aStart = b.aEnd := by omega
  obtain ⟨e1, e2⟩ := hi.empty he'
  refine ⟨by omega, ?_⟩
  cases hb : b'.bInuse with
  | false => rfl
  | true =>
    rcases h.switched hb with h | h
    · rw [e2] at h; exact absurd h (by simp)
    · omega

/-- offers are refused, or empty, while region B is moved to the front -/
theorem offer_blocked (b : Buf α) (h0 : b.aStart = 0) (hu : b.bInuse = true) (hs : b.bEnd < 2147483648) (d : List α) :
    ∃ k, offer b d = some (k, b) ∧ d.take k = [] := by
  have hun : unused b = if b.bEnd = 0 then 0 else - (b.bEnd : Int) := by
    unfold unused
    rw [hu, if_pos rfl, h0]
    unfold sub32 toInt
    split <;> split <;> omega
  by_cases hlt : unused b < d.length
  · exact ⟨0, by simp [offer, hlt], by simp⟩
  · refine ⟨d.length, ?_, ?_⟩
    · have hz : b.bEnd = 0 ∧ d.length = 0 := by
        rw [hun] at hlt
        split at hlt <;> omega
      have hd : d = [] := List.length_eq_zero_iff.mp hz.2
      unfold offer
      rw [if_neg hlt, hu, hd, if_pos rfl]
      simp only [memcpy, Option.map_some, List.length_nil, hz.1]
      have ha : add32 0 0 = 0 := by decide
      rw [ha]
      have : (⟨b.size, b.aStart, b.aEnd, 0, b.bInuse, b.data⟩ : Buf α) = b := by
        cases b; simp_all
      rw [hu] at this
      rw [this]
      unfold checkSwitch
      split
      · simp only [Option.some.injEq, Prod.mk.injEq, true_and]; cases b; simp_all
      · rfl
    · rw [hun] at hlt
      have : d.length = 0 := by split at hlt <;> omega
      simp [List.length_eq_zero_iff.mp this]

/-- offers while region B has become region A and `b_end` still holds its old value -/
theorem offer_between (b : Buf α) (hl : b.data.length = b.size) (hs : b.size < 2147483648) (h0 : b.aStart = 0)
    (he : b.bEnd ≤ b.aEnd) (hf : b.aEnd ≤ b.size) (hu : b.bInuse = true → 0 < b.bEnd) (d : List α) :
    ∃ k b', offer b d = some (k, b') ∧ b'.data.length = b'.size ∧ b'.size = b.size ∧ b'.aStart = 0 ∧
      b'.bEnd ≤ b'.aEnd ∧ b'.aEnd ≤ b'.size ∧ (b'.bInuse = true → 0 < b'.bEnd) ∧
      b'.data.take b'.aEnd = b.data.take b.aEnd ++ d.take k := by
  cases hb : b.bInuse with
  | true =>
    obtain ⟨k, h1, h2⟩ := offer_blocked b h0 hb (by omega) d
    exact ⟨k, b, h1, hl, rfl, h0, he, hf, hu, by rw [h2]; simp⟩
  | false =>
    have hun : unused b = ((b.size - b.aEnd : Nat) : Int) := by
      unfold unused
      rw [hb]; simp only [Bool.false_eq_true, if_false]; rw [sub64_eq hf (by omega), toInt_eq (by omega)]
    by_cases hlt : unused b < d.length
    · exact ⟨0, b, by simp [offer, hlt], hl, rfl, h0, he, hf, hu, by simp⟩
    · have hfit : b.aEnd + d.length ≤ b.size := by rw [hun] at hlt; omega
      have hr : offer b d = some (d.length, checkSwitch { b with
          data := b.data.take b.aEnd ++ d ++ b.data.drop (b.aEnd + d.length), aEnd := b.aEnd + d.length }) := by
        unfold offer
        rw [if_neg hlt, hb]
        simp only [Bool.false_eq_true, if_false]
        rw [memcpy_eq d b.data b.aEnd (by omega), add32_eq (by omega)]
        rfl
      have hsl := written_slice d b.data b.aEnd 0 (Nat.zero_le _) (by omega)
      simp only [List.drop_zero, Nat.sub_zero] at hsl
      unfold checkSwitch at hr
      split at hr
      · rename_i hsw
        refine ⟨_, _, hr, by simp; omega, rfl, h0, by simp only; omega, hfit, fun _ => ?_, ?_⟩
        · simp only at hsw ⊢
          rw [h0] at hsw
          unfold sub32 at hsw
          by_cases hz : b.bEnd = 0
          · rw [hz] at hsw; simp at hsw
          · omega
        · simp only; rw [hsl, List.take_length]
      · refine ⟨_, _, hr, by simp; omega, rfl, h0, by simp only; omega, hfit, fun h => ?_, ?_⟩
        · exact absurd (show b.bInuse = true from h) (by simp [hb])
        · simp only; rw [hsl, List.take_length]

/-! ## The invariant -/

/-- a call that leaves something behind -/
def Pre (b : Buf α) (n : Nat) : Prop := Inv b ∧ n ≤ contiguous b ∧ n < (contents b).length

/-- what holds at every place of the main program -/
def InJ (s : InSt α) : Prop :=
  match s.pc with
  | .idle => Inv s.buf ∧ s.got = [] ∧ s.acc = s.out ++ contents s.buf
  | .peekSize | .peekStart | .peekPtr => Pre s.buf s.n ∧ s.got = [] ∧ s.acc = s.out ++ contents s.buf
  | .peekEnd r => Pre s.buf s.n ∧ s.got = [] ∧ s.acc = s.out ++ contents s.buf ∧ r = s.buf.aStart
  | .copy p => Pre s.buf s.n ∧ s.got = (contents s.buf).take s.got.length ∧ s.got.length ≤ s.n ∧
      s.acc = s.out ++ contents s.buf ∧ p = s.buf.aStart
  | .pollStart | .pollSize | .pollPtr | .addRead =>
      Pre s.buf s.n ∧ s.got = (contents s.buf).take s.n ∧ s.acc = s.out ++ contents s.buf
  | .pollEnd r | .addWrite r =>
      Pre s.buf s.n ∧ s.got = (contents s.buf).take s.n ∧ s.acc = s.out ++ contents s.buf ∧ r = s.buf.aStart
  | .cmpStart => Core s.buf ∧ (s.buf.aStart = s.buf.aEnd → s.buf.bInuse = true) ∧
      s.acc = s.out ++ s.got ++ contents s.buf
  | .cmpEnd r => Core s.buf ∧ (s.buf.aStart = s.buf.aEnd → s.buf.bInuse = true) ∧
      s.acc = s.out ++ s.got ++ contents s.buf ∧ r = s.buf.aStart
  | .inuse | .toStart => Core s.buf ∧ s.buf.aStart = s.buf.aEnd ∧ s.buf.bInuse = true ∧
      s.acc = s.out ++ s.got ++ contents s.buf
  | .toFetch => s.buf.data.length = s.buf.size ∧ s.buf.size < 2147483648 ∧ s.buf.aStart = 0 ∧ s.buf.bInuse = true ∧
      s.buf.bEnd ≤ s.buf.size ∧ s.acc = s.out ++ s.got ++ s.buf.data.take s.buf.bEnd
  | .toEnd e => s.buf.data.length = s.buf.size ∧ s.buf.size < 2147483648 ∧ s.buf.aStart = 0 ∧ s.buf.bInuse = true ∧
      s.buf.bEnd ≤ s.buf.size ∧ s.acc = s.out ++ s.got ++ s.buf.data.take s.buf.bEnd ∧ e = s.buf.bEnd
  | .toInuse => s.buf.data.length = s.buf.size ∧ s.buf.size < 2147483648 ∧ s.buf.aStart = 0 ∧ s.buf.bInuse = true ∧
      s.buf.bEnd ≤ s.buf.size ∧ s.acc = s.out ++ s.got ++ s.buf.data.take s.buf.bEnd ∧ s.buf.aEnd = s.buf.bEnd
  | .toClear => s.buf.data.length = s.buf.size ∧ s.buf.size < 2147483648 ∧ s.buf.aStart = 0 ∧
      s.buf.bEnd ≤ s.buf.aEnd ∧ s.buf.aEnd ≤ s.buf.size ∧ (s.buf.bInuse = true → 0 < s.buf.bEnd) ∧
      s.acc = s.out ++ s.got ++ s.buf.data.take s.buf.aEnd
  | .zeroEnd | .zeroStart => False
  | .chkEnd => Inv s.buf ∧ s.acc = s.out ++ s.got ++ contents s.buf
  | .chkStart e => Inv s.buf ∧ s.acc = s.out ++ s.got ++ contents s.buf ∧ e ≤ s.buf.aEnd
  | .chkB e r => Inv s.buf ∧ s.acc = s.out ++ s.got ++ contents s.buf ∧ e ≤ s.buf.aEnd ∧ r = s.buf.aStart
  | .chkWrite => Inv s.buf ∧ s.acc = s.out ++ s.got ++ contents s.buf ∧ s.buf.aStart < s.buf.aEnd

theorem pre_nonempty {b : Buf α} {n : Nat} (h : Pre b n) : b.aStart < b.aEnd := by
  obtain ⟨hi, _, h2⟩ := h
  have := hi.ordered
  by_contra hc
  have := hi.empty (by omega)
  rw [contents_length hi] at h2
  have := hi.below
  omega

theorem pre_size {b : Buf α} {n : Nat} (h : Pre b n) : ¬ b.size < add32 b.aStart n := by
  have h1 := h.1.small; have h2 := h.1.fits; have h3 := h.1.ordered
  have h4 := h.2.1
  unfold contiguous at h4
  rw [add32_eq (by omega)]; omega

theorem Offered.pre {b b' : Buf α} {d : List α} {k n : Nat} (h : Offered b d k b') (hp : Pre b n) : Pre b' n := by
  refine ⟨h.inv hp.1, ?_, ?_⟩
  · have h1 := h.start; have h2 := h.grows; have h3 := hp.2.1
    unfold contiguous at *; omega
  · rw [h.conts, List.length_append]; have := hp.2.2; omega

/-- the handler keeps the invariant wherever the main program is -/
theorem in_irq (s : InSt α) (hj : InJ s) (d : List α) :
    ∃ s', inStep s (.irq d) = some s' ∧ InJ s' ∧ s'.pc = s.pc ∧ s'.n = s.n ∧ s'.out = s.out := by
  have core : ∀ (b : Buf α), Core b → s.buf = b → (∀ k b', Offered b d k b' →
      InJ { s with buf := b', acc := s.acc ++ d.take k }) →
      ∃ s', inStep s (.irq d) = some s' ∧ InJ s' ∧ s'.pc = s.pc ∧ s'.n = s.n ∧ s'.out = s.out := by
    intro b hb hs hk
    obtain ⟨k, b', ho⟩ := offer_core b hb d
    refine ⟨_, ?_, hk k b' ho, rfl, rfl, rfl⟩
    simp only [inStep, hs, ho.runs, Option.map_some]
  cases hpc : s.pc with
  | idle =>
    simp only [InJ, hpc] at hj
    refine hpc ▸ core _ (core_of_inv hj.1) rfl fun k b' ho => ?_
    simp only [InJ, hpc]
    exact ⟨ho.inv hj.1, hj.2.1, by rw [hj.2.2, ho.conts, List.append_assoc]⟩
  | peekSize | peekStart | peekPtr =>
    simp only [InJ, hpc] at hj
    refine hpc ▸ core _ (core_of_inv hj.1.1) rfl fun k b' ho => ?_
    simp only [InJ, hpc]
    exact ⟨ho.pre hj.1, hj.2.1, by rw [hj.2.2, ho.conts, List.append_assoc]⟩
  | peekEnd r =>
    simp only [InJ, hpc] at hj
    refine hpc ▸ core _ (core_of_inv hj.1.1) rfl fun k b' ho => ?_
    simp only [InJ, hpc]
    exact ⟨ho.pre hj.1, hj.2.1, by rw [hj.2.2.1, ho.conts, List.append_assoc], by rw [ho.start]; exact hj.2.2.2⟩
  | copy p =>
    simp only [InJ, hpc] at hj
    obtain ⟨h1, h2, h3, h4, h5⟩ := hj
    refine hpc ▸ core _ (core_of_inv h1.1) rfl fun k b' ho => ?_
    simp only [InJ, hpc]
    refine ⟨ho.pre h1, ?_, h3, by rw [h4, ho.conts, List.append_assoc], by rw [ho.start]; exact h5⟩
    rw [ho.conts, List.take_append_of_le_length (by have := h1.2.2; omega)]; exact h2
  | pollStart | pollSize | pollPtr | addRead =>
    simp only [InJ, hpc] at hj
    obtain ⟨h1, h2, h3⟩ := hj
    refine hpc ▸ core _ (core_of_inv h1.1) rfl fun k b' ho => ?_
    simp only [InJ, hpc]
    refine ⟨ho.pre h1, ?_, by rw [h3, ho.conts, List.append_assoc]⟩
    rw [ho.conts, List.take_append_of_le_length (by have := h1.2.2; omega)]; exact h2
  | pollEnd r | addWrite r =>
    simp only [InJ, hpc] at hj
    obtain ⟨h1, h2, h3, h4⟩ := hj
    refine hpc ▸ core _ (core_of_inv h1.1) rfl fun k b' ho => ?_
    simp only [InJ, hpc]
    refine ⟨ho.pre h1, ?_, by rw [h3, ho.conts, List.append_assoc], by rw [ho.start]; exact h4⟩
    rw [ho.conts, List.take_append_of_le_length (by have := h1.2.2; omega)]; exact h2
  | cmpStart =>
    simp only [InJ, hpc] at hj
    obtain ⟨h1, h2, h3⟩ := hj
    refine hpc ▸ core _ h1 rfl fun k b' ho => ?_
    simp only [InJ, hpc]
    refine ⟨ho.core, ?_, by rw [h3, ho.conts, List.append_assoc]⟩
    intro he
    have := ho.start; have := ho.grows; have := h1.ordered
    exact (ho.stays (h2 (by omega))).1
  | cmpEnd r =>
    simp only [InJ, hpc] at hj
    obtain ⟨h1, h2, h3, h4⟩ := hj
    refine hpc ▸ core _ h1 rfl fun k b' ho => ?_
    simp only [InJ, hpc]
    refine ⟨ho.core, ?_, by rw [h3, ho.conts, List.append_assoc], by rw [ho.start]; exact h4⟩
    intro he
    have := ho.start; have := ho.grows; have := h1.ordered
    exact (ho.stays (h2 (by omega))).1
  | inuse | toStart =>
    simp only [InJ, hpc] at hj
    obtain ⟨h1, h2, h3, h4⟩ := hj
    refine hpc ▸ core _ h1 rfl fun k b' ho => ?_
    simp only [InJ, hpc]
    obtain ⟨g1, g2⟩ := ho.stays h3
    exact ⟨ho.core, by rw [ho.start, g2]; exact h2, g1, by rw [h4, ho.conts, List.append_assoc]⟩
  | toFetch =>
    simp only [InJ, hpc] at hj
    obtain ⟨k, g1, g2⟩ := offer_blocked s.buf hj.2.2.1 hj.2.2.2.1 (by have := hj.2.1; have := hj.2.2.2.2.1; omega) d
    refine ⟨{ s with acc := s.acc ++ d.take k }, ?_, ?_, hpc, rfl, rfl⟩
    · simp only [inStep, g1, Option.map_some]
    · simp only [InJ, hpc, g2, List.append_nil]; exact hj
  | toEnd e =>
    simp only [InJ, hpc] at hj
    obtain ⟨k, g1, g2⟩ := offer_blocked s.buf hj.2.2.1 hj.2.2.2.1 (by have := hj.2.1; have := hj.2.2.2.2.1; omega) d
    refine ⟨{ s with acc := s.acc ++ d.take k }, ?_, ?_, hpc, rfl, rfl⟩
    · simp only [inStep, g1, Option.map_some]
    · simp only [InJ, hpc, g2, List.append_nil]; exact hj
  | toInuse =>
    simp only [InJ, hpc] at hj
    obtain ⟨k, g1, g2⟩ := offer_blocked s.buf hj.2.2.1 hj.2.2.2.1 (by have := hj.2.1; have := hj.2.2.2.2.1; omega) d
    refine ⟨{ s with acc := s.acc ++ d.take k }, ?_, ?_, hpc, rfl, rfl⟩
    · simp only [inStep, g1, Option.map_some]
    · simp only [InJ, hpc, g2, List.append_nil]; exact hj
  | toClear =>
    simp only [InJ, hpc] at hj
    obtain ⟨h1, h2, h3, h4, h5, h6, h7⟩ := hj
    obtain ⟨k, b', g1, g2, g3, g4, g5, g6, g7, g8⟩ := offer_between s.buf h1 h2 h3 h4 h5 h6 d
    refine ⟨{ s with buf := b', acc := s.acc ++ d.take k }, ?_, ?_, hpc, rfl, rfl⟩
    · simp only [inStep, g1, Option.map_some]
    · simp only [InJ, hpc]
      exact ⟨g2, by omega, g4, g5, g6, g7, by rw [g8, h7, List.append_assoc]⟩
  | zeroEnd | zeroStart => simp only [InJ, hpc] at hj
  | chkEnd =>
    simp only [InJ, hpc] at hj
    refine hpc ▸ core _ (core_of_inv hj.1) rfl fun k b' ho => ?_
    simp only [InJ, hpc]
    exact ⟨ho.inv hj.1, by rw [hj.2, ho.conts, List.append_assoc]⟩
  | chkStart e =>
    simp only [InJ, hpc] at hj
    refine hpc ▸ core _ (core_of_inv hj.1) rfl fun k b' ho => ?_
    simp only [InJ, hpc]
    exact ⟨ho.inv hj.1, by rw [hj.2.1, ho.conts, List.append_assoc], Nat.le_trans hj.2.2 ho.grows⟩
  | chkB e r =>
    simp only [InJ, hpc] at hj
    refine hpc ▸ core _ (core_of_inv hj.1) rfl fun k b' ho => ?_
    simp only [InJ, hpc]
    exact ⟨ho.inv hj.1, by rw [hj.2.1, ho.conts, List.append_assoc], Nat.le_trans hj.2.2.1 ho.grows, by
      rw [ho.start]; exact hj.2.2.2⟩
  | chkWrite =>
    simp only [InJ, hpc] at hj
    refine hpc ▸ core _ (core_of_inv hj.1) rfl fun k b' ho => ?_
    simp only [InJ, hpc]
    exact ⟨ho.inv hj.1, by rw [hj.2.1, ho.conts, List.append_assoc], by rw [ho.start]; exact Nat.lt_of_lt_of_le hj.2.2 ho.grows⟩

/-- every access of the main program keeps the invariant -/
theorem in_tick (s : InSt α) (hj : InJ s) : ∃ s', inTick s = some s' ∧ InJ s' ∧ s'.acc = s.acc := by
  obtain ⟨b, pc, n, got, acc, out⟩ := s
  cases pc with
  | idle => exact ⟨_, rfl, hj, rfl⟩
  | peekSize =>
    simp only [InJ] at hj
    refine ⟨_, rfl, ?_, rfl⟩
    simp only [if_neg (pre_size hj.1), InJ]
    exact hj
  | peekStart =>
    simp only [InJ] at hj
    exact ⟨_, rfl, by simpa only [InJ, and_true] using hj, rfl⟩
  | peekEnd r =>
    simp only [InJ] at hj
    refine ⟨_, rfl, ?_, rfl⟩
    have := pre_nonempty hj.1
    simp only [if_neg (show ¬ r = b.aEnd by rw [hj.2.2.2]; omega), InJ]
    exact ⟨hj.1, hj.2.1, hj.2.2.1⟩
  | peekPtr =>
    simp only [InJ] at hj
    refine ⟨_, rfl, ?_, rfl⟩
    simp only [InJ, hj.2.1, List.length_nil, List.take_zero]
    exact ⟨hj.1, trivial, Nat.zero_le _, hj.2.2, trivial⟩
  | copy p =>
    simp only [InJ] at hj
    obtain ⟨h1, h2, h3, h4, h5⟩ := hj
    subst h5
    simp only [inTick]
    by_cases hlt : got.length < n
    · rw [if_pos hlt]
      have hin : got.length < (contents b).length := by have := h1.2.2; omega
      have hcg := h1.2.1
      unfold contiguous at hcg
      have hl := h1.1.len; have hf := h1.1.fits
      have hrd : rd b.data (b.aStart + got.length) = some ((contents b)[got.length]) := by
        have e : (contents b)[got.length]? = b.data[b.aStart + got.length]? := by
          unfold contents
          rw [List.getElem?_append_left (by simp; omega), List.getElem?_take_of_lt (by omega), List.getElem?_drop]
        unfold rd
        rw [← e, List.getElem?_eq_getElem hin]
      rw [hrd]
      refine ⟨_, rfl, ?_, rfl⟩
      simp only [InJ, List.length_append, List.length_cons, List.length_nil]
      refine ⟨h1, ?_, by omega, h4, trivial⟩
      rw [Nat.zero_add, List.take_succ_eq_append_getElem hin, ← h2]
    · rw [if_neg hlt]
      refine ⟨_, rfl, ?_, rfl⟩
      simp only [InJ]
      refine ⟨h1, ?_, h4⟩
      rw [show n = got.length by omega]; exact h2
  | pollStart =>
    simp only [InJ] at hj
    exact ⟨_, rfl, by simpa only [InJ, and_true] using hj, rfl⟩
  | pollEnd r =>
    simp only [InJ] at hj
    refine ⟨_, rfl, ?_, rfl⟩
    have := pre_nonempty hj.1
    simp only [if_neg (show ¬ r = b.aEnd by rw [hj.2.2.2]; omega), InJ]
    exact ⟨hj.1, hj.2.1, hj.2.2.1⟩
  | pollSize =>
    simp only [InJ] at hj
    refine ⟨_, rfl, ?_, rfl⟩
    simp only [if_neg (pre_size hj.1), InJ]
    exact hj
  | pollPtr =>
    simp only [InJ] at hj
    exact ⟨_, rfl, hj, rfl⟩
  | addRead =>
    simp only [InJ] at hj
    exact ⟨_, rfl, by simpa only [InJ, and_true] using hj, rfl⟩
  | addWrite r =>
    simp only [InJ] at hj
    obtain ⟨h1, h2, h3, h4⟩ := hj
    subst h4
    refine ⟨_, rfl, ?_, rfl⟩
    have g1 := h1.1.len; have g2 := h1.1.small; have g3 := h1.1.fits; have g4 := h1.2.1; have g5 := h1.1.below
    have g6 := h1.2.2; have g7 := h1.1.ordered
    rw [contents_length h1.1] at g6
    unfold contiguous at g4
    simp only [InJ]
    rw [add32_eq (by omega)]
    refine ⟨⟨g1, g2, by simp only; omega, g3, by simp only; omega, h1.1.unusedB⟩, ?_, ?_⟩
    · intro he
      cases hb : b.bInuse with
      | true => rfl
      | false => have := h1.1.unusedB hb; omega
    · have hc : contents { b with aStart := b.aStart + n } = (contents b).drop n := by
        simp only [contents]
        rw [List.drop_append_of_le_length (by simp; omega), List.drop_take, List.drop_drop]
        congr 2
        omega
      rw [hc, h3, h2, List.append_assoc, List.take_append_drop]
  | cmpStart =>
    simp only [InJ] at hj
    exact ⟨_, rfl, by simpa only [InJ, and_true] using hj, rfl⟩
  | cmpEnd r =>
    simp only [InJ] at hj
    obtain ⟨h1, h2, h3, h4⟩ := hj
    subst h4
    refine ⟨_, rfl, ?_, rfl⟩
    by_cases he : b.aStart = b.aEnd
    · simp only [if_pos he, InJ]
      exact ⟨h1, he, h2 he, h3⟩
    · simp only [if_neg he, InJ]
      exact ⟨inv_of_core h1 fun h => absurd h he, h3⟩
  | inuse =>
    simp only [InJ] at hj
    refine ⟨_, rfl, ?_, rfl⟩
    simp only [hj.2.2.1, if_true, InJ, true_and]
    exact ⟨hj.1, hj.2.1, hj.2.2.2⟩
  | toStart =>
    simp only [InJ] at hj
    obtain ⟨h1, h2, h3, h4⟩ := hj
    refine ⟨_, rfl, ?_, rfl⟩
    simp only [InJ]
    refine ⟨h1.len, h1.small, trivial, h3, ?_, ?_⟩
    · have := h1.below; have := h1.ordered; have := h1.fits; omega
    · rw [h4]; simp [contents, h2]
  | toFetch =>
    simp only [InJ] at hj
    exact ⟨_, rfl, by simpa only [InJ, and_true] using hj, rfl⟩
  | toEnd e =>
    simp only [InJ] at hj
    obtain ⟨h1, h2, h3, h4, h5, h6, h7⟩ := hj
    exact ⟨_, rfl, ⟨h1, h2, h3, h4, h5, h6, h7⟩, rfl⟩
  | toInuse =>
    simp only [InJ] at hj
    obtain ⟨h1, h2, h3, h4, h5, h6, h7⟩ := hj
    refine ⟨_, rfl, ?_, rfl⟩
    simp only [InJ]
    exact ⟨h1, h2, h3, by omega, by omega, by simp, by rw [h7]; exact h6⟩
  | toClear =>
    simp only [InJ] at hj
    obtain ⟨h1, h2, h3, h4, h5, h6, h7⟩ := hj
    refine ⟨_, rfl, ?_, rfl⟩
    simp only [InJ]
    refine ⟨⟨h1, h2, by simp only; omega, h5, Nat.zero_le _, fun _ => rfl, ?_⟩, ?_⟩
    · intro he
      simp only at he ⊢
      refine ⟨h3, ?_⟩
      cases hb : b.bInuse with
      | false => rfl
      | true => have := h6 hb; omega
    · rw [h7]; simp [contents, h3]
  | zeroEnd => exact absurd hj (by simp [InJ])
  | zeroStart => exact absurd hj (by simp [InJ])
  | chkEnd =>
    simp only [InJ] at hj
    exact ⟨_, rfl, ⟨hj.1, hj.2, Nat.le_refl _⟩, rfl⟩
  | chkStart e =>
    simp only [InJ] at hj
    exact ⟨_, rfl, ⟨hj.1, hj.2.1, hj.2.2, rfl⟩, rfl⟩
  | chkB e r =>
    simp only [InJ] at hj
    obtain ⟨h1, h2, h3, h4⟩ := hj
    subst h4
    have g2 := h1.small; have g3 := h1.fits; have g4 := h1.ordered; have g5 := h1.below
    simp only [inTick]
    by_cases hc : sub64 b.size e < sub32 b.aStart b.bEnd
    · rw [if_pos hc]
      refine ⟨_, rfl, ?_, rfl⟩
      simp only [InJ]
      refine ⟨h1, h2, ?_⟩
      rw [sub64_eq (by omega) (by omega), sub32_eq g5 (by omega)] at hc
      by_contra hn
      have := (h1.empty (by omega)).1
      omega
    · rw [if_neg hc]
      refine ⟨_, rfl, ?_, rfl⟩
      simp only [InSt.done, InJ]
      exact ⟨h1, trivial, h2⟩
  | chkWrite =>
    simp only [InJ] at hj
    obtain ⟨h1, h2, h3⟩ := hj
    refine ⟨_, rfl, ?_, rfl⟩
    simp only [InSt.done, InJ]
    exact ⟨⟨h1.len, h1.small, h1.ordered, h1.fits, h1.below, by simp, fun he => by simp only at he; omega⟩, trivial, h2⟩

/-! ## Every schedule -/

/-- what the main program may ask for: bytes that lie in one piece; and with interrupts on, not all that the buffer holds.
(`in_loses` shows what happens otherwise.)  The handler may do what it likes, whenever it likes. -/
def inLegal (s : InSt α) : InAct α → Prop
  | .start n => s.pc = .idle → n ≤ contiguous s.buf ∧ n < (contents s.buf).length
  | .masked n => s.pc = .idle → n ≤ contiguous s.buf
  | .tick | .irq _ => True

/-- every action of a sequence is allowed where it happens -/
def inLegalRun (s : InSt α) : List (InAct α) → Prop
  | [] => True
  | a :: as => inLegal s a ∧ ∀ s', inStep s a = some s' → inLegalRun s' as

instance (s : InSt α) (a : InAct α) : Decidable (inLegal s a) := by cases a <;> simp only [inLegal] <;> infer_instance

instance instInLegalRun : (s : InSt α) → (as : List (InAct α)) → Decidable (inLegalRun s as)
  | _, [] => isTrue trivial
  | s, a :: as =>
    have : Decidable (∀ s', inStep s a = some s' → inLegalRun s' as) :=
      match h : inStep s a with
      | none => isTrue (by simp)
      | some t =>
        match instInLegalRun t as with
        | isTrue h' => isTrue fun s' hs => by cases hs; exact h'
        | isFalse h' => isFalse fun hc => h' (hc t rfl)
    inferInstanceAs (Decidable (inLegal s a ∧ ∀ s', inStep s a = some s' → inLegalRun s' as))

theorem in_step (s : InSt α) (hj : InJ s) (a : InAct α) (hl : inLegal s a) : ∃ s', inStep s a = some s' ∧ InJ s' := by
  cases a with
  | irq d => obtain ⟨s', h1, h2, _⟩ := in_irq s hj d; exact ⟨s', h1, h2⟩
  | tick => obtain ⟨s', h1, h2, _⟩ := in_tick s hj; exact ⟨s', h1, h2⟩
  | start n =>
    simp only [inStep]
    by_cases hpc : s.pc = .idle
    · rw [if_pos hpc]
      refine ⟨_, rfl, ?_⟩
      simp only [InJ, hpc] at hj
      obtain ⟨h1, h2⟩ := hl hpc
      simp only [InJ]
      exact ⟨⟨hj.1, h1, h2⟩, trivial, hj.2.2⟩
    · rw [if_neg hpc]; exact ⟨s, rfl, hj⟩
  | masked n =>
    simp only [inStep]
    by_cases hpc : s.pc = .idle
    · rw [if_pos hpc]
      simp only [InJ, hpc] at hj
      obtain ⟨h1, h2, h3⟩ := hj
      by_cases hne : contents s.buf = []
      · rw [poll_refused s.buf h1 n (Or.inl hne)]
        refine ⟨_, rfl, ?_⟩
        simp only [InJ, hpc]
        exact ⟨h1, h2, h3⟩
      · obtain ⟨p, b', g1, g2, _, g4, _, g6⟩ := poll_spec s.buf h1 n (hl hpc) hne
        rw [g1]
        refine ⟨_, rfl, ?_⟩
        simp only [InJ, hpc]
        refine ⟨g4, h2, ?_⟩
        rw [g2, g6, h3, List.append_assoc, List.take_append_drop]
    · rw [if_neg hpc]; exact ⟨s, rfl, hj⟩

theorem in_prefix {s : InSt α} (hj : InJ s) : s.out <+: s.acc := by
  cases hpc : s.pc <;> simp only [InJ, hpc] at hj
  all_goals first
    | exact ⟨_, hj.2.2.symm⟩
    | exact ⟨_, hj.2.2.1.symm⟩
    | exact ⟨_, hj.2.2.2.1.symm⟩
    | exact ⟨_, by rw [← List.append_assoc]; exact hj.2.symm⟩
    | exact ⟨_, by rw [← List.append_assoc]; exact hj.2.1.symm⟩
    | exact ⟨_, by rw [← List.append_assoc]; exact hj.2.2.symm⟩
    | exact ⟨_, by rw [← List.append_assoc]; exact hj.2.2.1.symm⟩
    | exact ⟨_, by rw [← List.append_assoc]; exact hj.2.2.2.symm⟩
    | exact ⟨_, by rw [← List.append_assoc]; exact hj.2.2.2.2.2.symm⟩
    | exact ⟨_, by rw [← List.append_assoc]; exact hj.2.2.2.2.2.1.symm⟩
    | exact ⟨_, by rw [← List.append_assoc]; exact hj.2.2.2.2.2.2.symm⟩

/-- **The handler fills, the main program empties.**  Whatever the handler offers, and between whichever two accesses of the
main program it runs: nothing is read or written outside the array, the bytes the main program has taken are a beginning of
the bytes accepted from the handler, and between two calls what is accepted and not yet taken is what the buffer holds and
`used()` counts.  The full property would let the main program take the last byte with interrupts on; `in_loses` shows that
the code does not. -/
theorem in_shared_partial (size : Nat) (mem : List α) (hm : mem.length = size) (hs : size < 2147483648)
    (acts : List (InAct α)) (hl : inLegalRun (inInit size mem) acts) :
    ∃ s, inRun (inInit size mem) acts = some s ∧ s.out <+: s.acc ∧
      (s.pc = .idle → s.acc = s.out ++ contents s.buf ∧ used s.buf = (contents s.buf).length) := by
  have key : ∀ (acts : List (InAct α)) (s : InSt α), InJ s → inLegalRun s acts → ∃ s', inRun s acts = some s' ∧ InJ s' := by
    intro acts
    induction acts with
    | nil => intro s hj _; exact ⟨s, rfl, hj⟩
    | cons a as ih =>
      intro s hj hl
      obtain ⟨s', h1, h2⟩ := in_step s hj a hl.1
      obtain ⟨s'', h3, h4⟩ := ih s' h2 (hl.2 s' h1)
      exact ⟨s'', by simp [inRun, h1, h3], h4⟩
  have h0 : InJ (inInit size mem) := by
    simp only [InJ, inInit]
    exact ⟨inv_init size mem hm hs, trivial, by simp [contents, init]⟩
  obtain ⟨s, h1, h2⟩ := key acts _ h0 hl
  refine ⟨s, h1, in_prefix h2, fun hp => ?_⟩
  simp only [InJ, hp] at h2
  exact ⟨h2.2.2, used_exact h2.1⟩

/-! ## Undisturbed calls -/

/-- some number of accesses of the main program alone lead from one state to the other -/
def InTicks (s s' : InSt α) : Prop := ∃ k, inRun s (List.replicate k .tick) = some s'

theorem inRun_cons (a : InAct α) (as : List (InAct α)) (s : InSt α) :
    inRun s (a :: as) = (inStep s a).bind fun s' => inRun s' as := rfl

theorem inRun_append (as bs : List (InAct α)) (s : InSt α) : inRun s (as ++ bs) = (inRun s as).bind fun s' => inRun s' bs := by
  induction as generalizing s with
  | nil => rfl
  | cons a as ih =>
    simp only [List.cons_append, inRun]
    cases inStep s a with
    | none => rfl
    | some s' => simpa using ih s'

theorem InTicks.refl (s : InSt α) : InTicks s s := ⟨0, rfl⟩

theorem InTicks.trans {s t u : InSt α} (h1 : InTicks s t) (h2 : InTicks t u) : InTicks s u := by
  obtain ⟨k, hk⟩ := h1; obtain ⟨m, hm⟩ := h2
  exact ⟨k + m, by rw [← List.replicate_append_replicate, inRun_append, hk]; exact hm⟩

theorem InTicks.head {s t u : InSt α} (h1 : inTick s = some t) (h2 : InTicks t u) : InTicks s u := by
  obtain ⟨k, hk⟩ := h2
  exact ⟨k + 1, by simp only [List.replicate_succ, inRun, inStep, h1]; exact hk⟩

/-- the copying loop -/
theorem in_copy (s : InSt α) (p : Nat) (hpc : s.pc = .copy p) (l : List α) (hl : s.n = s.got.length + l.length)
    (hd : ∀ (i : Nat) (c : α), l[i]? = some c → s.buf.data[p + s.got.length + i]? = some c) :
    InTicks s { s with pc := .pollStart, got := s.got ++ l } := by
  induction l generalizing s with
  | nil =>
    refine InTicks.head (t := { s with pc := .pollStart }) ?_ (by simpa using InTicks.refl _)
    simp only [inTick, hpc]
    rw [if_neg (by simp at hl; omega)]
  | cons c l ih =>
    refine InTicks.head (t := { s with got := s.got ++ [c] }) ?_ ?_
    · simp only [inTick, hpc]
      rw [if_pos (by simp at hl; omega)]
      have := hd 0 c rfl
      simp only [Nat.add_zero] at this
      simp only [rd, this, Option.map_some]
    · have := ih { s with got := s.got ++ [c] } hpc (by simp at hl ⊢; omega) ?_
      · simpa using this
      · intro i x hx
        have := hd (i + 1) x (by simpa using hx)
        simp only [List.length_append, List.length_singleton]
        rw [← this]; congr 1; omega

/-- up to the comparison whether region A is used up -/
theorem in_to_compare (s : InSt α) (hpc : s.pc = .idle) (hi : Inv s.buf) (hne : contents s.buf ≠ []) (n : Nat)
    (hn : n ≤ contiguous s.buf) :
    InTicks { s with pc := .peekSize, n := n, got := [] } { s with
      pc := .cmpEnd (s.buf.aStart + n), n := n, got := (contents s.buf).take n, buf := { s.buf with aStart := s.buf.aStart + n } } := by
  have h0 := hi.len; have h1 := hi.small; have h2 := hi.ordered; have h3 := hi.fits
  have hn' := hn
  unfold contiguous at hn'
  have hne' : ¬ s.buf.aStart = s.buf.aEnd := by
    intro h; exact hne ((isEmpty_iff hi).mp (by simp [isEmpty, h]))
  have hsz : ¬ s.buf.size < add32 s.buf.aStart n := by rw [add32_eq (by omega)]; omega
  refine InTicks.head (t := { s with pc := .peekStart, n := n, got := [] }) (by simp [inTick, hsz]) ?_
  refine InTicks.head (t := { s with pc := .peekEnd s.buf.aStart, n := n, got := [] }) rfl ?_
  refine InTicks.head (t := { s with pc := .peekPtr, n := n, got := [] }) (by simp [inTick, hne']) ?_
  refine InTicks.head (t := { s with pc := .copy s.buf.aStart, n := n, got := [] }) rfl ?_
  have hlen : ((contents s.buf).take n).length = n := by
    rw [List.length_take, contents_length hi]; omega
  refine InTicks.trans (in_copy _ s.buf.aStart rfl ((contents s.buf).take n) (by simp only [List.length_nil, hlen]; omega) ?_) ?_
  · intro i c hc
    simp only [List.length_nil, Nat.add_zero]
    rw [← take_contents n hn hi] at hc
    have hlt : i < n := by
      by_contra h
      rw [List.getElem?_eq_none (by simp; omega)] at hc
      exact absurd hc (by simp)
    rw [List.getElem?_take_of_lt hlt, List.getElem?_drop] at hc
    exact hc
  · simp only [List.nil_append]
    refine InTicks.head rfl ?_
    refine InTicks.head (t := { s with pc := .pollSize, n := n, got := (contents s.buf).take n }) (by simp [inTick, hne']) ?_
    refine InTicks.head (t := { s with pc := .pollPtr, n := n, got := (contents s.buf).take n }) (by simp [inTick, hsz]) ?_
    refine InTicks.head rfl ?_
    refine InTicks.head rfl ?_
    refine InTicks.head rfl ?_
    refine InTicks.head rfl ?_
    simp only [add32_eq (show s.buf.aStart + n < 4294967296 by omega)]
    exact InTicks.refl _

/-- the check at the end of a call -/
theorem in_check (s : InSt α) (hpc : s.pc = .chkEnd) : InTicks s ({ s with buf := checkSwitch s.buf } : InSt α).done := by
  refine InTicks.head (t := { s with pc := .chkStart s.buf.aEnd }) (by simp [inTick, hpc]) ?_
  refine InTicks.head (t := { s with pc := .chkB s.buf.aEnd s.buf.aStart }) rfl ?_
  by_cases hc : sub64 s.buf.size s.buf.aEnd < sub32 s.buf.aStart s.buf.bEnd
  · refine InTicks.head (t := { s with pc := .chkWrite }) (by simp only [inTick]; rw [if_pos hc]) ?_
    refine InTicks.head (t := ({ s with pc := .chkWrite, buf := { s.buf with bInuse := true } } : InSt α).done) rfl ?_
    unfold checkSwitch
    rw [if_pos hc]
    exact InTicks.refl _
  · refine InTicks.head (t := ({ s with pc := .chkB s.buf.aEnd s.buf.aStart } : InSt α).done)
      (by simp only [inTick]; rw [if_neg hc]) ?_
    unfold checkSwitch
    rw [if_neg hc]
    exact InTicks.refl _

/-- **Left alone, the accesses are the call.**  Without interrupts the accesses of the main program do what `bipbuf_peek`
and `bipbuf_poll` do: they take the oldest `n` bytes, and leave the buffer as `bipbuf_poll` leaves it. -/
theorem in_alone (s : InSt α) (hpc : s.pc = .idle) (hi : Inv s.buf) (hne : contents s.buf ≠ []) (n : Nat)
    (hn : n ≤ contiguous s.buf) :
    ∃ k, inRun s (.start n :: List.replicate k .tick) = some { s with
      n := n, got := [], out := s.out ++ (contents s.buf).take n, buf := (poll s.buf n).2 } := by
  have h0 := hi.len; have h1 := hi.small; have h2 := hi.ordered; have h3 := hi.fits
  have hn' := hn
  unfold contiguous at hn'
  have he : isEmpty s.buf = false := by
    cases h : isEmpty s.buf with
    | false => rfl
    | true => exact absurd ((isEmpty_iff hi).mp h) hne
  have hp : (poll s.buf n).2 = checkSwitch (if s.buf.aStart + n = s.buf.aEnd then
        if s.buf.bInuse then { s.buf with aStart := 0, aEnd := s.buf.bEnd, bEnd := 0, bInuse := false }
        else { s.buf with aStart := 0, aEnd := 0 }
      else { s.buf with aStart := s.buf.aStart + n }) := by
    unfold poll
    rw [he, add32_eq (by omega), if_neg (by simp), if_neg (by omega)]
  suffices h : InTicks { s with pc := .peekSize, n := n, got := [] } { s with
      n := n, got := [], out := s.out ++ (contents s.buf).take n, buf := (poll s.buf n).2 } by
    obtain ⟨k, hk⟩ := h
    refine ⟨k, ?_⟩
    simp only [inRun, inStep, hpc, if_true, Option.bind_some] at hk ⊢
    exact hk
  refine InTicks.trans (in_to_compare s hpc hi hne n hn) ?_
  have fin : ∀ b : Buf α, InTicks { s with pc := .chkEnd, n := n, got := (contents s.buf).take n, buf := b } { s with
      n := n, got := [], out := s.out ++ (contents s.buf).take n, buf := checkSwitch b } := by
    intro b
    have := in_check ({ s with pc := .chkEnd, n := n, got := (contents s.buf).take n, buf := b } : InSt α) rfl
    simpa only [InSt.done, hpc] using this
  rw [hp]
  by_cases hall : s.buf.aStart + n = s.buf.aEnd
  · rw [if_pos hall]
    refine InTicks.head (t := { s with pc := .inuse, n := n, got := (contents s.buf).take n, buf := { s.buf with aStart := s.buf.aStart + n } }) (by simp [inTick, hall]) ?_
    cases hb : s.buf.bInuse with
    | true =>
      rw [if_pos rfl]
      refine InTicks.head (t := { s with pc := .toStart, n := n, got := (contents s.buf).take n, buf := { s.buf with aStart := s.buf.aStart + n } }) (by simp [inTick, hb]) ?_
      refine InTicks.head rfl (InTicks.head rfl (InTicks.head rfl (InTicks.head rfl (InTicks.head rfl ?_))))
      exact fin _
    | false =>
      rw [if_neg (by simp)]
      refine InTicks.head (t := { s with pc := .zeroEnd, n := n, got := (contents s.buf).take n, buf := { s.buf with aStart := s.buf.aStart + n } }) (by simp [inTick, hb]) ?_
      refine InTicks.head rfl (InTicks.head rfl ?_)
      have := fin { s.buf with aStart := 0, aEnd := 0 }
      simpa only [hb] using this
  · rw [if_neg hall]
    refine InTicks.head (t := { s with pc := .chkEnd, n := n, got := (contents s.buf).take n, buf := { s.buf with aStart := s.buf.aStart + n } }) (by simp [inTick, hall]) ?_
    exact fin _

/-! ## Where the code departs from the property -/

/-- **Violation.**  Whenever all the bytes lie in one piece and the main program takes them all, there is a moment (after it
has compared the cursors, bipbuffer.c:122, and before it has reset them, bipbuffer.c:133) at which every offer of the
handler that fits is accepted and lost: the main program does not get the bytes and the buffer does not hold them. -/
theorem in_loses (s : InSt α) (hpc : s.pc = .idle) (hi : Inv s.buf) (hne : contents s.buf ≠ []) (hu : s.buf.bInuse = false)
    (d : List α) (hd : s.buf.aEnd + d.length ≤ s.buf.size) :
    ∃ k m s', inRun s (.start (contents s.buf).length :: List.replicate k .tick ++ .irq d :: List.replicate m .tick) = some s' ∧
      s'.pc = .idle ∧ s'.acc = s.acc ++ d ∧ s'.out = s.out ++ contents s.buf ∧ contents s'.buf = [] := by
  have h0 := hi.len; have h1 := hi.small; have h2 := hi.ordered; have h3 := hi.fits
  have hB := hi.unusedB hu
  have hcl : (contents s.buf).length = s.buf.aEnd - s.buf.aStart := by rw [contents_length hi]; omega
  have ht := in_to_compare s hpc hi hne (contents s.buf).length (by unfold contiguous; omega)
  rw [List.take_length] at ht
  have hall : s.buf.aStart + (contents s.buf).length = s.buf.aEnd := by omega
  have ht' := ht.trans (InTicks.head (t := { s with pc := .inuse, n := (contents s.buf).length, got := contents s.buf, buf := { s.buf with aStart := s.buf.aStart + (contents s.buf).length } }) (by simp [inTick, hall]) (InTicks.refl _))
  obtain ⟨k, hk⟩ := ht'
  have hc : Core ({ s.buf with aStart := s.buf.aStart + (contents s.buf).length } : Buf α) :=
    ⟨h0, h1, by simp only; omega, h3, by simp only; omega, hi.unusedB⟩
  obtain ⟨j, b', ho⟩ := offer_core _ hc d
  have hj : j = d.length := by
    have hr := ho.runs
    have hun : ¬ unused ({ s.buf with aStart := s.buf.aStart + (contents s.buf).length } : Buf α) < d.length := by
      unfold unused
      simp only [hu, Bool.false_eq_true, if_false]
      rw [sub64_eq h3 (by omega), toInt_eq (by omega)]
      omega
    unfold offer at hr
    rw [if_neg hun, memcpy_eq d _ _ (by simp only; omega)] at hr
    simp only [hu, Bool.false_eq_true, if_false] at hr
    rw [memcpy_eq d _ _ (by omega)] at hr
    simp at hr
    exact hr.1.symm
  have hb0 : b'.bEnd = 0 ∧ b'.size = s.buf.size := by
    have hr := ho.runs
    have hsz := ho.size
    refine ⟨?_, hsz⟩
    have hcs := ho.conts
    have hl := congrArg List.length hcs
    rw [core_length ho.core, List.length_append, core_length hc] at hl
    unfold offer at hr
    split at hr
    · simp only [Option.some.injEq, Prod.mk.injEq] at hr
      rw [← hr.2]; exact hB
    · simp only [hu, Bool.false_eq_true, if_false] at hr
      rw [memcpy_eq d _ _ (by omega)] at hr
      simp only [Option.map_some, Option.some.injEq, Prod.mk.injEq] at hr
      rw [← hr.2]
      unfold checkSwitch
      split <;> exact hB
  let t : InSt α := { s with pc := .inuse, n := (contents s.buf).length, got := contents s.buf, buf := b', acc := s.acc ++ d }
  have fin : ∀ b : Buf α, b.aStart = 0 → b.aEnd = 0 → b.bEnd = 0 → InTicks { t with pc := .chkEnd, buf := b }
      { s with n := (contents s.buf).length, got := [], buf := checkSwitch b, acc := s.acc ++ d, out := s.out ++ contents s.buf } := by
    intro b _ _ _
    have := in_check ({ t with pc := .chkEnd, buf := b } : InSt α) rfl
    simpa only [InSt.done, hpc, t] using this
  have hend : ∃ b : Buf α, b.aStart = 0 ∧ b.aEnd = 0 ∧ b.bEnd = 0 ∧ InTicks t { t with pc := .chkEnd, buf := b } := by
    cases hb : b'.bInuse with
    | true =>
      refine ⟨{ b' with aStart := 0, aEnd := b'.bEnd, bInuse := false, bEnd := 0 }, rfl, hb0.1, rfl, ?_⟩
      refine InTicks.head (t := { t with pc := .toStart }) (by simp [inTick, t, hb]) ?_
      exact InTicks.head rfl (InTicks.head rfl (InTicks.head rfl (InTicks.head rfl (InTicks.head rfl (InTicks.refl _)))))
    | false =>
      refine ⟨{ b' with aEnd := 0, aStart := 0 }, rfl, rfl, hb0.1, ?_⟩
      refine InTicks.head (t := { t with pc := .zeroEnd }) (by simp [inTick, t, hb]) ?_
      exact InTicks.head rfl (InTicks.head rfl (InTicks.refl _))
  obtain ⟨b, e1, e2, e3, he⟩ := hend
  obtain ⟨m, hm⟩ := he.trans (fin b e1 e2 e3)
  refine ⟨k, m, { s with n := (contents s.buf).length, got := [], buf := checkSwitch b, acc := s.acc ++ d, out := s.out ++ contents s.buf },
    ?_, hpc, rfl, rfl, ?_⟩
  rotate_left
  · show contents (checkSwitch b) = []
    unfold checkSwitch
    split <;> simp [contents, e1, e2, e3]
  · rw [List.cons_append]
    simp only [inRun, inStep, hpc, if_true, Option.bind_some]
    rw [inRun_append, hk]
    simp only [Option.bind_some, inRun, inStep, ho.runs, Option.map_some, hj, List.take_length]
    rw [hpc] at hm
    exact hm

/-- **Violation.**  Between the two stores of bipbuffer.c:133 the cursors describe no buffer: when the handler runs twice
there, and its first offer takes it past the middle of the array, the second offer is written over the first.  The buffer
then holds the second offer twice, and the bytes of the first that lay there are gone. -/
theorem in_overwrites (s : InSt α) (hpc : s.pc = .zeroStart) (hl : s.buf.data.length = s.buf.size)
    (hs : s.buf.size < 2147483648) (h0 : s.buf.aEnd = 0) (hb0 : s.buf.bEnd = 0) (hu : s.buf.bInuse = false)
    (ha : s.buf.aStart ≤ s.buf.size) (d e : List α) (hd : d.length ≤ s.buf.size) (hde : s.buf.size - d.length < s.buf.aStart)
    (hne : e ≠ []) (he : e.length ≤ d.length) (he' : e.length ≤ s.buf.aStart) :
    ∃ m s', inRun s (.irq d :: .irq e :: List.replicate m .tick) = some s' ∧ s'.pc = .idle ∧ s'.acc = s.acc ++ d ++ e ∧
      contents s'.buf = e ++ d.drop e.length ++ e := by
  have hpos : 0 < e.length := by cases e with | nil => exact absurd rfl hne | cons => simp
  have o1 : offer s.buf d = some (d.length, { s.buf with data := d ++ s.buf.data.drop d.length, aEnd := d.length, bInuse := true }) := by
    unfold offer
    have hun : ¬ unused s.buf < d.length := by
      unfold unused; rw [hu, h0]; simp only [Bool.false_eq_true, if_false]
      rw [sub64_eq (by omega) (by omega), toInt_eq (by omega)]; omega
    rw [if_neg hun, hu, h0]
    simp only [Bool.false_eq_true, if_false]
    rw [memcpy_eq d _ _ (by omega)]
    simp only [Option.map_some, Nat.zero_add, List.take_zero, List.nil_append]
    rw [show add32 0 d.length = d.length by rw [add32_eq (by omega)]; omega]
    unfold checkSwitch
    simp only [hb0]
    rw [sub64_eq (by omega) (by omega), sub32_eq (by omega) (by omega), if_pos (by omega)]
  have o2 : offer ({ s.buf with data := d ++ s.buf.data.drop d.length, aEnd := d.length, bInuse := true } : Buf α) e =
      some (e.length, { s.buf with data := e ++ (d ++ s.buf.data.drop d.length).drop e.length, aEnd := d.length, bInuse := true, bEnd := e.length }) := by
    unfold offer
    have hun : ¬ unused ({ s.buf with data := d ++ s.buf.data.drop d.length, aEnd := d.length, bInuse := true } : Buf α) < e.length := by
      unfold unused; simp only [if_true, hb0]
      rw [sub32_eq (by omega) (by omega), toInt_eq (by omega)]; omega
    rw [if_neg hun]
    simp only [if_true, hb0]
    rw [memcpy_eq e _ _ (by simp; omega)]
    simp only [Option.map_some, Nat.zero_add, List.take_zero, List.nil_append]
    rw [show add32 0 e.length = e.length by rw [add32_eq (by omega)]; omega]
    unfold checkSwitch
    split <;> rfl
  let t : InSt α := { s with acc := s.acc ++ d ++ e, buf := { s.buf with data := e ++ (d ++ s.buf.data.drop d.length).drop e.length, aEnd := d.length, bInuse := true, bEnd := e.length } }
  have hfin : InTicks t ({ t with pc := .chkEnd, buf := checkSwitch { t.buf with aStart := 0 } } : InSt α).done := by
    refine InTicks.head (t := { t with pc := .chkEnd, buf := { t.buf with aStart := 0 } }) (by simp [inTick, t, hpc]) ?_
    exact in_check ({ t with pc := .chkEnd, buf := { t.buf with aStart := 0 } } : InSt α) rfl
  have hu' : ∃ u : InSt α, InTicks t u ∧ u.pc = .idle ∧ u.acc = s.acc ++ d ++ e ∧
      contents u.buf = e ++ d.drop e.length ++ e := by
    refine ⟨_, hfin, rfl, rfl, ?_⟩
    show contents (checkSwitch { t.buf with aStart := 0 }) = _
    have hc : contents (checkSwitch { t.buf with aStart := 0 }) = contents { t.buf with aStart := 0 } := by
      unfold checkSwitch; split <;> rfl
    rw [hc]
    simp only [contents, t, List.drop_zero, Nat.sub_zero]
    rw [List.drop_append_of_le_length he, List.take_append, List.take_of_length_le he, List.take_append,
      List.take_of_length_le (by simp)]
    simp
  obtain ⟨u, ⟨m, hm⟩, q1, q2, q3⟩ := hu'
  refine ⟨m, u, ?_, q1, q2, q3⟩
  have e1 : inStep s (.irq d) = some { s with acc := s.acc ++ d, buf := { s.buf with data := d ++ s.buf.data.drop d.length, aEnd := d.length, bInuse := true } } := by
    simp only [inStep, o1, Option.map_some, List.take_length]
  have e2 : inStep ({ s with acc := s.acc ++ d, buf := { s.buf with data := d ++ s.buf.data.drop d.length, aEnd := d.length, bInuse := true } } : InSt α) (.irq e) = some t := by
    simp only [inStep, o2, Option.map_some, List.take_length, t]
  rw [inRun_cons, e1, Option.bind_some, inRun_cons, e2, Option.bind_some]
  exact hm

/-! ### The hypotheses are met -/

/-- a receiver of six bytes: five bytes come in while nothing is taken; two are taken while the handler runs in the middle of
the call, once between the fetches of the comparison and once before the check; the rest is taken with interrupts masked -/
def inSample : List (InAct Nat) :=
  [.irq [1, 2, 3], .irq [4, 5], .start 2] ++ List.replicate 9 .tick ++ [.irq [6]] ++ List.replicate 4 .tick ++
    [.irq [7]] ++ List.replicate 8 .tick ++ [.irq [7, 8], .masked 4, .masked 2]

example : inLegalRun (inInit 6 [0, 0, 0, 0, 0, 0]) inSample := by decide +kernel

example : (inRun (inInit 6 [0, 0, 0, 0, 0, 0]) inSample).map (fun s => (s.pc, s.acc, s.out, contents s.buf)) =
    some (.idle, [1, 2, 3, 4, 5, 6, 7, 8], [1, 2, 3, 4, 5, 6, 7, 8], []) := by decide +kernel

/-- the hypotheses of `in_alone` and `in_loses`, reached from the start: two bytes have come in -/
example : (inRun (inInit 6 [0, 0, 0, 0, 0, 0]) [.irq [1, 2]]).map (fun s => (s.pc, contents s.buf, s.buf.bInuse, s.buf.aEnd)) =
    some (.idle, [1, 2], false, 2) := by decide +kernel

/-- the loss itself: the handler offers `3` while the main program takes `1` and `2`, and the `3` is accepted and gone -/
example : (inRun (inInit 6 [0, 0, 0, 0, 0, 0])
      ([.irq [1, 2], .start 2] ++ List.replicate 15 .tick ++ [.irq [3]] ++ List.replicate 6 .tick)).map
        (fun s => (s.pc, s.acc, s.out, contents s.buf)) =
    some (.idle, [1, 2, 3], [1, 2], []) := by decide +kernel

/-- the hypotheses of `in_overwrites`, reached from the start -/
example : (inRun (inInit 6 [0, 0, 0, 0, 0, 0]) ([.irq [1, 2, 3, 4], .start 4] ++ List.replicate 19 .tick)).map
        (fun s => (s.pc, s.buf)) =
    some (.zeroStart, ⟨6, 4, 0, 0, false, [1, 2, 3, 4, 0, 0]⟩) := by decide +kernel

/-- and the overwriting itself: `5 6 7` and `8 9` are accepted there, and the buffer holds `8 9 7 8 9` -/
example : (inRun (inInit 6 [0, 0, 0, 0, 0, 0])
      ([.irq [1, 2, 3, 4], .start 4] ++ List.replicate 19 .tick ++ [.irq [5, 6, 7], .irq [8, 9]] ++ List.replicate 6 .tick)).map
        (fun s => (s.pc, s.acc, s.out, contents s.buf)) =
    some (.idle, [1, 2, 3, 4, 5, 6, 7, 8, 9], [1, 2, 3, 4], [8, 9, 7, 8, 9]) := by decide +kernel

end Verif.Bip.Handler
