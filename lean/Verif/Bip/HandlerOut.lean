import Verif.Bip.HandlerIn

/-!
# C105: a bip buffer that the main program fills while an interrupt handler empties it
-/
namespace Verif.Bip.Handler
open Verif
variable {α : Type u}

/-- what the handler does when it leaves some of the first region behind -/
structure Polled (b : Buf α) (n : Nat) (b' : Buf α) : Prop where
  runs : poll b n = (some b.aStart, b')
  bytes : (b.data.drop b.aStart).take n = (contents b).take n
  inv : Inv b'
  conts : contents b' = (contents b).drop n
  start : b'.aStart = b.aStart + n
  aEnd : b'.aEnd = b.aEnd
  bEnd : b'.bEnd = b.bEnd
  data : b'.data = b.data
  size : b'.size = b.size
  more : b'.aStart < b'.aEnd
  stays : b.bInuse = true → b'.bInuse = true
  switched : b'.bInuse = true → b.bInuse = true ∨ b'.size - b'.aEnd < b'.aStart - b'.bEnd

theorem poll_some (b : Buf α) (hi : Inv b) (n : Nat) (hn : n < contiguous b) : ∃ b', Polled b n b' := by
  have h0 := hi.len; have h1 := hi.small; have h2 := hi.ordered; have h3 := hi.fits; have h4 := hi.below
  have hn' := hn
  unfold contiguous at hn'
  have hi' : Inv { b with aStart := b.aStart + n } :=
    ⟨hi.len, hi.small, by simp only; omega, hi.fits, by simp only; omega, hi.unusedB, fun h => by simp only at h; omega⟩
  obtain ⟨g1, g2, _⟩ := checkSwitch_ok hi'
  refine ⟨checkSwitch { b with aStart := b.aStart + n }, ?_, take_contents n (by omega) hi, g1, ?_, ?_, ?_, ?_, ?_, ?_, ?_, ?_, ?_⟩
  · unfold poll
    have he : isEmpty b = false := by simp [isEmpty]; omega
    rw [he, add32_eq (by omega), if_neg (by simp), if_neg (by omega)]
    simp only
    rw [if_neg (by omega)]
  · rw [g2]
    simp only [contents]
    rw [List.drop_append_of_le_length (by simp; omega), List.drop_take, List.drop_drop]
    congr 2
    omega
  all_goals unfold checkSwitch; split
  all_goals first
    | rfl
    | (simp only; omega)
    | (intro h; exact h)
    | (intro h; exact Or.inl h)
    | exact fun _ => rfl
    | skip
  rename_i hc
  intro _
  simp only at hc ⊢
  rw [sub64_eq (by omega) (by omega), sub32_eq (by omega) (by omega)] at hc
  exact Or.inr hc

/-! ## The invariant -/

/-- the bytes offered fit where the next fetch of `b_inuse` will put them -/
def Fit (b : Buf α) (len : Nat) : Prop :=
  (b.bInuse = true → b.bEnd + len ≤ b.aStart) ∧ (b.bInuse = false → b.aEnd + len ≤ b.size)

/-- what holds at every place of the main program -/
def OutJ (s : OutSt α) : Prop :=
  Inv s.buf ∧
  match s.pc with
  | .idle => s.d = [] ∧ s.acc = s.out ++ contents s.buf
  | .inuse => s.acc = s.out ++ contents s.buf
  | .roomStart => s.acc = s.out ++ contents s.buf ∧ s.buf.bInuse = true
  | .roomB r => s.acc = s.out ++ contents s.buf ∧ s.buf.bInuse = true ∧ s.buf.bEnd ≤ r ∧ r ≤ s.buf.aStart
  | .roomA => s.acc = s.out ++ contents s.buf ∧
      (s.buf.bInuse = true → s.buf.bEnd = 0 ∧ s.buf.size - s.buf.aEnd < s.buf.aStart) ∧ s.buf.bEnd = 0
  | .again => s.acc = s.out ++ contents s.buf ∧ Fit s.buf s.d.length
  | .fetchB => s.acc = s.out ++ contents s.buf ∧ s.buf.bInuse = true ∧ s.buf.bEnd + s.d.length ≤ s.buf.aStart
  | .copyB p k => s.acc = s.out ++ contents s.buf ∧ s.buf.bInuse = true ∧ s.buf.bEnd + s.d.length ≤ s.buf.aStart ∧
      p = s.buf.bEnd ∧ k ≤ s.d.length ∧ (s.buf.data.drop s.buf.bEnd).take k = s.d.take k
  | .addB => s.acc = s.out ++ contents s.buf ∧ s.buf.bInuse = true ∧ s.buf.bEnd + s.d.length ≤ s.buf.aStart ∧
      (s.buf.data.drop s.buf.bEnd).take s.d.length = s.d
  | .storeB e => s.acc = s.out ++ contents s.buf ∧ s.buf.bInuse = true ∧ s.buf.bEnd + s.d.length ≤ s.buf.aStart ∧
      (s.buf.data.drop s.buf.bEnd).take s.d.length = s.d ∧ e = s.buf.bEnd
  | .fetchA => s.acc = s.out ++ contents s.buf ∧ s.buf.bEnd = 0 ∧ s.buf.aEnd + s.d.length ≤ s.buf.size
  | .copyA p k => s.acc = s.out ++ contents s.buf ∧ s.buf.bEnd = 0 ∧ s.buf.aEnd + s.d.length ≤ s.buf.size ∧
      p = s.buf.aEnd ∧ k ≤ s.d.length ∧ (s.buf.data.drop s.buf.aEnd).take k = s.d.take k
  | .addA => s.acc = s.out ++ contents s.buf ∧ s.buf.bEnd = 0 ∧ s.buf.aEnd + s.d.length ≤ s.buf.size ∧
      (s.buf.data.drop s.buf.aEnd).take s.d.length = s.d
  | .storeA e => s.acc = s.out ++ contents s.buf ∧ s.buf.bEnd = 0 ∧ s.buf.aEnd + s.d.length ≤ s.buf.size ∧
      (s.buf.data.drop s.buf.aEnd).take s.d.length = s.d ∧ e = s.buf.aEnd
  | .chkEnd => s.acc ++ s.d = s.out ++ contents s.buf
  | .chkStart e => s.acc ++ s.d = s.out ++ contents s.buf ∧ e = s.buf.aEnd
  | .chkB e r => s.acc ++ s.d = s.out ++ contents s.buf ∧ e = s.buf.aEnd ∧ s.buf.bEnd ≤ r ∧ r ≤ s.buf.aStart
  | .chkWrite => s.acc ++ s.d = s.out ++ contents s.buf ∧ s.buf.aStart < s.buf.aEnd

/-- the handler keeps the invariant wherever the main program is, as long as it leaves some of the first region behind -/
theorem out_irq (s : OutSt α) (hj : OutJ s) (n : Nat) (hn : n < contiguous s.buf) :
    ∃ s', outStep s (.irq n) = some s' ∧ OutJ s' := by
  obtain ⟨b, pc, d, acc, out⟩ := s
  obtain ⟨hi, hj⟩ := hj
  simp only at hi hn
  obtain ⟨b', hp⟩ := poll_some b hi n hn
  have hlen : out ++ (b.data.drop b.aStart).take n ++ contents b' = out ++ contents b := by
    rw [hp.bytes, hp.conts, List.append_assoc, List.take_append_drop]
  refine ⟨⟨b', pc, d, acc, out ++ (b.data.drop b.aStart).take n⟩, by simp only [outStep, hp.runs], hp.inv, ?_⟩
  have h1 := hp.start; have h2 := hp.aEnd; have h3 := hp.bEnd; have h4 := hp.size
  cases pc <;> simp only [hlen, h2, h3, h4, hp.data] at hj ⊢
  case idle => exact hj
  case inuse => exact hj
  case roomStart => exact ⟨hj.1, hp.stays hj.2⟩
  case roomB r => exact ⟨hj.1, hp.stays hj.2.1, hj.2.2.1, by omega⟩
  case roomA =>
    refine ⟨hj.1, fun hb => ⟨hj.2.2, ?_⟩, hj.2.2⟩
    rcases hp.switched hb with h | h
    · have := (hj.2.1 h).2; omega
    · rw [h2, h3, h4] at h; omega
  case again =>
    refine ⟨hj.1, fun hb => ?_, fun hb => ?_⟩
    · rw [h3, h1]
      rcases hp.switched hb with h | h
      · have := hj.2.1 h; omega
      · cases hbb : b.bInuse with
        | true => have := hj.2.1 hbb; omega
        | false =>
          have := hj.2.2 hbb
          have := hi.unusedB hbb
          rw [h2, h3, h4] at h; omega
    · rw [h2, h4]
      refine hj.2.2 ?_
      cases hbb : b.bInuse with
      | false => rfl
      | true => rw [hp.stays hbb] at hb; exact absurd hb (by simp)
  case fetchB => exact ⟨hj.1, hp.stays hj.2.1, by omega⟩
  case copyB p k => exact ⟨hj.1, hp.stays hj.2.1, by omega, hj.2.2.2⟩
  case addB => exact ⟨hj.1, hp.stays hj.2.1, by omega, hj.2.2.2⟩
  case storeB e => exact ⟨hj.1, hp.stays hj.2.1, by omega, hj.2.2.2⟩
  case fetchA => exact hj
  case copyA p k => exact hj
  case addA => exact hj
  case storeA e => exact hj
  case chkEnd => exact hj
  case chkStart e => exact hj
  case chkB e r => exact ⟨hj.1, hj.2.1, hj.2.2.1, by omega⟩
  case chkWrite => exact ⟨hj.1, by have := hp.more; omega⟩

theorem slice_set {m : List α} {i k : Nat} {c : α} {d : List α} (hm : i + k < m.length) (h : (m.drop i).take k = d.take k)
    (hc : d[k]? = some c) : ((m.set (i + k) c).drop i).take (k + 1) = d.take (k + 1) := by
  have hk : k < d.length := by
    by_contra hn
    rw [List.getElem?_eq_none (by omega)] at hc; exact absurd hc (by simp)
  rw [List.take_succ_eq_append_getElem (by simp; omega), List.take_succ_eq_append_getElem hk, ← h]
  congr 1
  · rw [List.drop_set, if_neg (by omega), List.take_set_of_le (by omega)]
  · rw [List.getElem_drop, List.getElem_set_self]
    rw [List.getElem?_eq_getElem hk] at hc
    simpa using hc.symm

/-- every access of the main program keeps the invariant -/
theorem out_tick (s : OutSt α) (hj : OutJ s) : ∃ s', outTick s = some s' ∧ OutJ s' := by
  obtain ⟨b, pc, d, acc, out⟩ := s
  obtain ⟨hi, hj⟩ := hj
  simp only at hi
  have g0 := hi.len; have g1 := hi.small; have g2 := hi.ordered; have g3 := hi.fits; have g4 := hi.below
  cases pc with
  | idle => exact ⟨_, rfl, hi, hj⟩
  | inuse =>
    simp only at hj
    refine ⟨_, rfl, hi, ?_⟩
    cases hb : b.bInuse with
    | true => exact ⟨hj, by simp only [hb]⟩
    | false => exact ⟨hj, fun h => by simp [hb] at h, hi.unusedB hb⟩
  | roomStart =>
    simp only at hj
    exact ⟨_, rfl, hi, hj.1, hj.2, g4, Nat.le_refl _⟩
  | roomB r =>
    simp only at hj
    obtain ⟨h1, h2, h3, h4⟩ := hj
    simp only [outTick]
    rw [sub32_eq h3 (by omega), toInt_eq (by omega)]
    by_cases hc : ((r - b.bEnd : Nat) : Int) < d.length
    · rw [if_pos hc]
      exact ⟨_, rfl, hi, rfl, h1⟩
    · rw [if_neg hc]
      refine ⟨_, rfl, hi, h1, fun _ => ?_, fun h => ?_⟩
      · simp only; omega
      · simp only at h; rw [h2] at h; exact absurd h (by simp)
  | roomA =>
    simp only at hj
    obtain ⟨h1, h2, h3⟩ := hj
    simp only [outTick]
    rw [sub64_eq g3 (by omega), toInt_eq (by omega)]
    by_cases hc : ((b.size - b.aEnd : Nat) : Int) < d.length
    · rw [if_pos hc]
      exact ⟨_, rfl, hi, rfl, h1⟩
    · rw [if_neg hc]
      refine ⟨_, rfl, hi, h1, fun h => ?_, fun h => ?_⟩
      · have := h2 h; simp only; omega
      · simp only; omega
  | again =>
    simp only at hj
    refine ⟨_, rfl, hi, ?_⟩
    cases hb : b.bInuse with
    | true => exact ⟨hj.1, by simp only [hb], hj.2.1 hb⟩
    | false => exact ⟨hj.1, hi.unusedB hb, hj.2.2 hb⟩
  | fetchB =>
    simp only at hj
    exact ⟨_, rfl, hi, hj.1, hj.2.1, hj.2.2, rfl, Nat.zero_le _, by simp⟩
  | copyB p k =>
    simp only at hj
    obtain ⟨h1, h2, h3, h4, h5, h6⟩ := hj
    subst h4
    simp only [outTick]
    cases hc : d[k]? with
    | none =>
      have : d.length ≤ k := by simpa using hc
      refine ⟨_, rfl, hi, h1, h2, h3, ?_⟩
      have hk : k = d.length := by omega
      simp only
      rw [← hk, h6, hk, List.take_length]
    | some c =>
      have hk : k < d.length := by
        by_contra hn
        rw [List.getElem?_eq_none (by omega)] at hc; exact absurd hc (by simp)
      simp only [wr_lt (show b.bEnd + k < b.data.length by omega), Option.map_some]
      have hcs : contents { b with data := b.data.set (b.bEnd + k) c } = contents b := by
        simp only [contents]
        rw [List.drop_set_of_lt (by omega), List.take_set_of_le (by omega)]
      refine ⟨_, rfl, ⟨by simpa using g0, g1, g2, g3, g4, hi.unusedB, hi.empty⟩, ?_, h2, h3, rfl, hk, ?_⟩
      · simp only [hcs]; exact h1
      · exact slice_set (by simp only; omega) h6 hc
  | addB =>
    simp only at hj
    exact ⟨_, rfl, hi, hj.1, hj.2.1, hj.2.2.1, hj.2.2.2, rfl⟩
  | storeB e =>
    simp only at hj
    obtain ⟨h1, h2, h3, h4, h5⟩ := hj
    subst h5
    refine ⟨_, rfl, ?_, ?_⟩
    · simp only [add32_eq (show b.bEnd + d.length < 4294967296 by omega)]
      exact ⟨g0, g1, g2, g3, h3, fun h => absurd (show b.bInuse = false from h) (by simp [h2]), hi.empty⟩
    · simp only [add32_eq (show b.bEnd + d.length < 4294967296 by omega), contents]
      rw [h1, contents, List.take_add, h4]
      simp
  | fetchA =>
    simp only at hj
    exact ⟨_, rfl, hi, hj.1, hj.2.1, hj.2.2, rfl, Nat.zero_le _, by simp⟩
  | copyA p k =>
    simp only at hj
    obtain ⟨h1, h2, h3, h4, h5, h6⟩ := hj
    subst h4
    simp only [outTick]
    cases hc : d[k]? with
    | none =>
      have : d.length ≤ k := by simpa using hc
      refine ⟨_, rfl, hi, h1, h2, h3, ?_⟩
      have hk : k = d.length := by omega
      simp only
      rw [← hk, h6, hk, List.take_length]
    | some c =>
      have hk : k < d.length := by
        by_contra hn
        rw [List.getElem?_eq_none (by omega)] at hc; exact absurd hc (by simp)
      simp only [wr_lt (show b.aEnd + k < b.data.length by omega), Option.map_some]
      have hcs : contents { b with data := b.data.set (b.aEnd + k) c } = contents b := by
        simp only [contents, h2, List.take_zero, List.append_nil]
        rw [List.drop_set, if_neg (by omega), List.take_set_of_le (by omega)]
      refine ⟨_, rfl, ⟨by simpa using g0, g1, g2, g3, g4, hi.unusedB, hi.empty⟩, ?_, h2, h3, rfl, hk, ?_⟩
      · simp only [hcs]; exact h1
      · exact slice_set (by simp only; omega) h6 hc
  | addA =>
    simp only at hj
    exact ⟨_, rfl, hi, hj.1, hj.2.1, hj.2.2.1, hj.2.2.2, rfl⟩
  | storeA e =>
    simp only at hj
    obtain ⟨h1, h2, h3, h4, h5⟩ := hj
    subst h5
    refine ⟨_, rfl, ?_, ?_⟩
    · simp only [add32_eq (show b.aEnd + d.length < 4294967296 by omega)]
      exact ⟨g0, g1, by simp only; omega, h3, g4, hi.unusedB, fun h => hi.empty (by simp only at h; omega)⟩
    · simp only [add32_eq (show b.aEnd + d.length < 4294967296 by omega), contents, h2]
      rw [h1, contents, h2, show b.aEnd + d.length - b.aStart = (b.aEnd - b.aStart) + d.length by omega, List.take_add,
        List.drop_drop, show b.aStart + (b.aEnd - b.aStart) = b.aEnd by omega, h4]
      simp
  | chkEnd =>
    simp only at hj
    exact ⟨_, rfl, hi, hj, rfl⟩
  | chkStart e =>
    simp only at hj
    exact ⟨_, rfl, hi, hj.1, hj.2, g4, Nat.le_refl _⟩
  | chkB e r =>
    simp only at hj
    obtain ⟨h1, h2, h3, h4⟩ := hj
    subst h2
    simp only [outTick]
    by_cases hc : sub64 b.size b.aEnd < sub32 r b.bEnd
    · rw [if_pos hc]
      refine ⟨_, rfl, hi, h1, ?_⟩
      rw [sub64_eq (by omega) (by omega), sub32_eq h3 (by omega)] at hc
      by_contra hn
      simp only at hn
      have := (hi.empty (by omega)).1
      omega
    · rw [if_neg hc]
      exact ⟨_, rfl, hi, rfl, h1⟩
  | chkWrite =>
    simp only at hj
    exact ⟨_, rfl, ⟨g0, g1, g2, g3, g4, by simp [OutSt.done], fun h => by
      simp only [OutSt.done] at h; have := hj.2; omega⟩, rfl, hj.1⟩

/-! ## Every schedule -/

/-- what the handler may ask for: bytes that lie in one piece; and in the middle of an offer, not all of that piece.
(`out_garbles`, `out_replays`, `out_jams` and `out_overflows` show what happens otherwise.)  It may run at any moment; an
empty buffer gives it nothing, whatever it asks for. -/
def outLegal (s : OutSt α) : OutAct α → Prop
  | .irq n => contents s.buf = [] ∨ n < contiguous s.buf ∨ (s.pc = .idle ∧ n ≤ contiguous s.buf)
  | .start _ | .tick => True

/-- every action of a sequence is allowed where it happens -/
def outLegalRun (s : OutSt α) : List (OutAct α) → Prop
  | [] => True
  | a :: as => outLegal s a ∧ ∀ s', outStep s a = some s' → outLegalRun s' as

instance (s : OutSt α) (a : OutAct α) : Decidable (outLegal s a) := by
  cases a <;> simp only [outLegal] <;> (try infer_instance)

instance instOutLegalRun : (s : OutSt α) → (as : List (OutAct α)) → Decidable (outLegalRun s as)
  | _, [] => isTrue trivial
  | s, a :: as =>
    have : Decidable (∀ s', outStep s a = some s' → outLegalRun s' as) :=
      match h : outStep s a with
      | none => isTrue (by simp)
      | some t =>
        match instOutLegalRun t as with
        | isTrue h' => isTrue fun s' hs => by cases hs; exact h'
        | isFalse h' => isFalse fun hc => h' (hc t rfl)
    inferInstanceAs (Decidable (outLegal s a ∧ ∀ s', outStep s a = some s' → outLegalRun s' as))

theorem out_step (s : OutSt α) (hj : OutJ s) (a : OutAct α) (hl : outLegal s a) : ∃ s', outStep s a = some s' ∧ OutJ s' := by
  cases a with
  | tick => exact out_tick s hj
  | start d =>
    simp only [outStep]
    by_cases hpc : s.pc = .idle
    · rw [if_pos hpc]
      have h2 := hj.2
      simp only [hpc] at h2
      exact ⟨_, rfl, hj.1, h2.2⟩
    · rw [if_neg hpc]; exact ⟨s, rfl, hj⟩
  | irq n =>
    by_cases hne : contents s.buf = []
    · refine ⟨s, ?_, hj⟩
      simp only [outStep]
      rw [poll_refused s.buf hj.1 n (Or.inl hne)]
    · rcases hl with h | h | ⟨hpc, h⟩
      · exact absurd h hne
      · exact out_irq s hj n h
      · obtain ⟨p, b', g1, g2, _, g4, _, g6⟩ := poll_spec s.buf hj.1 n h hne
        have h2 := hj.2
        simp only [hpc] at h2
        refine ⟨_, by simp only [outStep]; rw [g1], g4, ?_⟩
        simp only [hpc]
        refine ⟨h2.1, ?_⟩
        rw [g2, g6, h2.2, List.append_assoc, List.take_append_drop]

theorem out_prefix {s : OutSt α} (hj : OutJ s) : s.out <+: s.acc ++ s.d := by
  obtain ⟨_, hj⟩ := hj
  cases hpc : s.pc <;> simp only [hpc] at hj
  all_goals first
    | exact ⟨_, hj.symm⟩
    | exact ⟨_, hj.1.symm⟩
    | exact ⟨contents s.buf ++ s.d, by rw [← List.append_assoc, ← hj]⟩
    | exact ⟨contents s.buf ++ s.d, by rw [← List.append_assoc, ← hj.1]⟩
    | exact ⟨contents s.buf ++ s.d, by rw [← List.append_assoc, ← hj.2]⟩

/-- **The main program fills, the handler empties.**  Whatever the main program offers, and between whichever two of its
accesses the handler runs: nothing is read or written outside the array, the bytes the handler has taken are a beginning of
the bytes accepted (and those just being offered), and between two calls what is accepted and not yet taken is what the
buffer holds and `used()` counts.  The full property would let the handler take the last byte of a piece in the middle of
an offer; `out_garbles`, `out_replays`, `out_jams` and `out_overflows` show that the code does not. -/
theorem out_shared_partial (size : Nat) (mem : List α) (hm : mem.length = size) (hs : size < 2147483648)
    (acts : List (OutAct α)) (hl : outLegalRun (outInit size mem) acts) :
    ∃ s, outRun (outInit size mem) acts = some s ∧ s.out <+: s.acc ++ s.d ∧
      (s.pc = .idle → s.acc = s.out ++ contents s.buf ∧ used s.buf = (contents s.buf).length) := by
  have key : ∀ (acts : List (OutAct α)) (s : OutSt α), OutJ s → outLegalRun s acts → ∃ s', outRun s acts = some s' ∧ OutJ s' := by
    intro acts
    induction acts with
    | nil => intro s hj _; exact ⟨s, rfl, hj⟩
    | cons a as ih =>
      intro s hj hl
      obtain ⟨s', h1, h2⟩ := out_step s hj a hl.1
      obtain ⟨s'', h3, h4⟩ := ih s' h2 (hl.2 s' h1)
      exact ⟨s'', by simp [outRun, h1, h3], h4⟩
  have h0 : OutJ (outInit size mem) := ⟨inv_init size mem hm hs, rfl, by simp [contents, init, outInit]⟩
  obtain ⟨s, h1, h2⟩ := key acts _ h0 hl
  refine ⟨s, h1, out_prefix h2, fun hp => ?_⟩
  have h3 := h2.2
  simp only [hp] at h3
  exact ⟨h3.2, used_exact h2.1⟩

/-! ## Undisturbed calls -/

/-- some number of accesses of the main program alone lead from one state to the other -/
def OutTicks (s s' : OutSt α) : Prop := ∃ k, outRun s (List.replicate k .tick) = some s'

theorem outRun_cons (a : OutAct α) (as : List (OutAct α)) (s : OutSt α) :
    outRun s (a :: as) = (outStep s a).bind fun s' => outRun s' as := rfl

theorem outRun_append (as bs : List (OutAct α)) (s : OutSt α) :
    outRun s (as ++ bs) = (outRun s as).bind fun s' => outRun s' bs := by
  induction as generalizing s with
  | nil => rfl
  | cons a as ih =>
    rw [List.cons_append, outRun_cons, outRun_cons]
    cases outStep s a with
    | none => rfl
    | some s' => simpa using ih s'

theorem OutTicks.refl (s : OutSt α) : OutTicks s s := ⟨0, rfl⟩

theorem OutTicks.trans {s t u : OutSt α} (h1 : OutTicks s t) (h2 : OutTicks t u) : OutTicks s u := by
  obtain ⟨k, hk⟩ := h1; obtain ⟨m, hm⟩ := h2
  exact ⟨k + m, by rw [← List.replicate_append_replicate, outRun_append, hk]; exact hm⟩

theorem OutTicks.head {s t u : OutSt α} (h1 : outTick s = some t) (h2 : OutTicks t u) : OutTicks s u := by
  obtain ⟨k, hk⟩ := h2
  exact ⟨k + 1, by rw [List.replicate_succ, outRun_cons, show outStep s .tick = outTick s from rfl, h1]; exact hk⟩

theorem OutTicks.one {s t : OutSt α} (h1 : outTick s = some t) : OutTicks s t := OutTicks.head h1 (OutTicks.refl _)

/-- the main program alone comes to grief -/
def OutFails (s : OutSt α) : Prop := ∃ k, outRun s (List.replicate k .tick) = none

theorem OutFails.after {s t : OutSt α} (h1 : OutTicks s t) (h2 : OutFails t) : OutFails s := by
  obtain ⟨k, hk⟩ := h1; obtain ⟨m, hm⟩ := h2
  exact ⟨k + m, by rw [← List.replicate_append_replicate, outRun_append, hk]; exact hm⟩

theorem OutFails.now {s : OutSt α} (h : outTick s = none) : OutFails s :=
  ⟨1, by rw [show List.replicate 1 OutAct.tick = [OutAct.tick] from rfl, outRun_cons, show outStep s .tick = outTick s from rfl, h]; rfl⟩

/-- the copying loop into the first region -/
theorem out_copyA (l : List α) (s : OutSt α) (p k : Nat) (hpc : s.pc = .copyA p k) (hl : s.d.drop k = l) :
    (∀ m, memcpy s.buf.data (p + k) l = some m → OutTicks s { s with pc := .addA, buf := { s.buf with data := m } }) ∧
    (memcpy s.buf.data (p + k) l = none → OutFails s) := by
  induction l generalizing s k with
  | nil =>
    have hk : s.d[k]? = none := by
      have := congrArg List.length hl
      rw [List.getElem?_eq_none]
      simp at this; omega
    refine ⟨fun m hm => ?_, fun h => by simp [memcpy] at h⟩
    simp only [memcpy, Option.some.injEq] at hm
    subst hm
    exact OutTicks.one (by simp only [outTick, hpc, hk])
  | cons c l ih =>
    have hk : s.d[k]? = some c := by
      have := congrArg (·[0]?) hl
      simpa using this
    have hd : s.d.drop (k + 1) = l := by
      rw [← List.drop_drop, hl]; rfl
    cases hw : wr s.buf.data (p + k) c with
    | none =>
      refine ⟨fun m hm => by simp [memcpy, hw] at hm, fun _ => OutFails.now ?_⟩
      simp only [outTick, hpc, hk, hw, Option.map_none]
    | some m' =>
      have ht : outTick s = some { s with pc := .copyA p (k + 1), buf := { s.buf with data := m' } } := by
        simp only [outTick, hpc, hk, hw, Option.map_some]
      obtain ⟨i1, i2⟩ := ih { s with pc := .copyA p (k + 1), buf := { s.buf with data := m' } } (k + 1) rfl hd
      simp only [memcpy, hw]
      exact ⟨fun m hm => OutTicks.head ht (i1 m hm), fun h => OutFails.after (OutTicks.one ht) (i2 h)⟩

/-- the copying loop into the second region -/
theorem out_copyB (l : List α) (s : OutSt α) (p k : Nat) (hpc : s.pc = .copyB p k) (hl : s.d.drop k = l) :
    (∀ m, memcpy s.buf.data (p + k) l = some m → OutTicks s { s with pc := .addB, buf := { s.buf with data := m } }) ∧
    (memcpy s.buf.data (p + k) l = none → OutFails s) := by
  induction l generalizing s k with
  | nil =>
    have hk : s.d[k]? = none := by
      have := congrArg List.length hl
      rw [List.getElem?_eq_none]
      simp at this; omega
    refine ⟨fun m hm => ?_, fun h => by simp [memcpy] at h⟩
    simp only [memcpy, Option.some.injEq] at hm
    subst hm
    exact OutTicks.one (by simp only [outTick, hpc, hk])
  | cons c l ih =>
    have hk : s.d[k]? = some c := by
      have := congrArg (·[0]?) hl
      simpa using this
    have hd : s.d.drop (k + 1) = l := by
      rw [← List.drop_drop, hl]; rfl
    cases hw : wr s.buf.data (p + k) c with
    | none =>
      refine ⟨fun m hm => by simp [memcpy, hw] at hm, fun _ => OutFails.now ?_⟩
      simp only [outTick, hpc, hk, hw, Option.map_none]
    | some m' =>
      have ht : outTick s = some { s with pc := .copyB p (k + 1), buf := { s.buf with data := m' } } := by
        simp only [outTick, hpc, hk, hw, Option.map_some]
      obtain ⟨i1, i2⟩ := ih { s with pc := .copyB p (k + 1), buf := { s.buf with data := m' } } (k + 1) rfl hd
      simp only [memcpy, hw]
      exact ⟨fun m hm => OutTicks.head ht (i1 m hm), fun h => OutFails.after (OutTicks.one ht) (i2 h)⟩

/-- the check at the end -/
theorem out_check (s : OutSt α) (hpc : s.pc = .chkEnd) : OutTicks s ({ s with buf := checkSwitch s.buf } : OutSt α).done := by
  refine OutTicks.head (t := { s with pc := .chkStart s.buf.aEnd }) (by simp [outTick, hpc]) ?_
  refine OutTicks.head (t := { s with pc := .chkB s.buf.aEnd s.buf.aStart }) rfl ?_
  by_cases hc : sub64 s.buf.size s.buf.aEnd < sub32 s.buf.aStart s.buf.bEnd
  · refine OutTicks.head (t := { s with pc := .chkWrite }) (by simp only [outTick]; rw [if_pos hc]) ?_
    refine OutTicks.head (t := ({ s with pc := .chkWrite, buf := { s.buf with bInuse := true } } : OutSt α).done) rfl ?_
    unfold checkSwitch
    rw [if_pos hc]
    exact OutTicks.refl _
  · refine OutTicks.head (t := ({ s with pc := .chkB s.buf.aEnd s.buf.aStart } : OutSt α).done)
      (by simp only [outTick]; rw [if_neg hc]) ?_
    unfold checkSwitch
    rw [if_neg hc]
    exact OutTicks.refl _

/-- **Left alone, the accesses are the call.**  Without interrupts the accesses of the main program do exactly what
`bipbuf_offer` does, from any buffer whatever. -/
theorem out_alone (s : OutSt α) (hpc : s.pc = .idle) (d : List α) :
    ∃ k, outRun s (.start d :: List.replicate k .tick) =
      (offer s.buf d).map fun r => { s with buf := r.2, acc := s.acc ++ d.take r.1, d := [] } := by
  let s0 : OutSt α := { s with pc := .inuse, d := d }
  have hst : outStep s (.start d) = some s0 := by simp only [outStep, hpc, if_true, s0]
  suffices h : (∀ r, offer s.buf d = some r → OutTicks s0 { s with buf := r.2, acc := s.acc ++ d.take r.1, d := [] }) ∧
      (offer s.buf d = none → OutFails s0) by
    cases ho : offer s.buf d with
    | none =>
      obtain ⟨k, hk⟩ := h.2 ho
      exact ⟨k, by rw [outRun_cons, hst]; exact hk⟩
    | some r =>
      obtain ⟨k, hk⟩ := h.1 r ho
      exact ⟨k, by rw [outRun_cons, hst]; exact hk⟩
  have hrefuse : ({ s0 with pc := .idle, acc := s.acc ++ d.take 0, d := [] } : OutSt α) = { s with acc := s.acc ++ d.take 0, d := [] } := by
    simp only [s0, hpc]
  by_cases hun : unused s.buf < d.length
  · have ho : offer s.buf d = some (0, s.buf) := by unfold offer; rw [if_pos hun]
    refine ⟨fun r hr => ?_, fun h => by rw [ho] at h; cases h⟩
    rw [ho] at hr
    cases hr
    simp only [List.take_zero, List.append_nil]
    cases hb : s.buf.bInuse with
    | true =>
      refine OutTicks.head (t := { s0 with pc := .roomStart }) (by simp [outTick, s0, hb]) ?_
      refine OutTicks.head (t := { s0 with pc := .roomB s.buf.aStart }) rfl ?_
      refine OutTicks.one ?_
      simp only [unused, hb, if_true] at hun
      simp only [outTick, s0, if_pos hun, OutSt.refuse, hpc]
    | false =>
      refine OutTicks.head (t := { s0 with pc := .roomA }) (by simp [outTick, s0, hb]) ?_
      refine OutTicks.one ?_
      simp only [unused, hb, if_false, Bool.false_eq_true] at hun
      simp only [outTick, s0, if_pos hun, OutSt.refuse, hpc]
  · have hag : OutTicks s0 { s0 with pc := .again } := by
      cases hb : s.buf.bInuse with
      | true =>
        refine OutTicks.head (t := { s0 with pc := .roomStart }) (by simp [outTick, s0, hb]) ?_
        refine OutTicks.head (t := { s0 with pc := .roomB s.buf.aStart }) rfl ?_
        refine OutTicks.one ?_
        simp only [unused, hb, if_true] at hun
        simp only [outTick, s0, if_neg hun]
      | false =>
        refine OutTicks.head (t := { s0 with pc := .roomA }) (by simp [outTick, s0, hb]) ?_
        refine OutTicks.one ?_
        simp only [unused, hb, if_false, Bool.false_eq_true] at hun
        simp only [outTick, s0, if_neg hun]
    cases hb : s.buf.bInuse with
    | true =>
      have hc : OutTicks s0 { s0 with pc := .copyB s.buf.bEnd 0 } :=
        hag.trans (OutTicks.head (t := { s0 with pc := .fetchB }) (by simp [outTick, s0, hb]) (OutTicks.one rfl))
      obtain ⟨c1, c2⟩ := out_copyB d { s0 with pc := .copyB s.buf.bEnd 0 } s.buf.bEnd 0 rfl rfl
      simp only [Nat.add_zero, s0] at c1 c2
      refine ⟨fun r hr => ?_, fun h => ?_⟩
      · cases hm : memcpy s.buf.data s.buf.bEnd d with
        | none => unfold offer at hr; rw [if_neg hun] at hr; simp [hb, hm] at hr
        | some m =>
          unfold offer at hr
          rw [if_neg hun] at hr
          simp only [hb, if_true, hm, Option.map_some, Option.some.injEq] at hr
          subst hr
          refine hc.trans ((c1 m hm).trans ?_)
          refine OutTicks.head (t := { s0 with pc := .storeB s.buf.bEnd, buf := { s.buf with data := m } }) rfl ?_
          refine OutTicks.head (t := { s0 with pc := .chkEnd, buf := { s.buf with data := m, bEnd := add32 s.buf.bEnd d.length } }) rfl ?_
          have hf := out_check ({ s0 with pc := .chkEnd, buf := { s.buf with data := m, bEnd := add32 s.buf.bEnd d.length } } : OutSt α) rfl
          simpa only [OutSt.done, s0, List.take_length, hpc, hb] using hf
      · refine OutFails.after hc (c2 ?_)
        cases hm : memcpy s.buf.data s.buf.bEnd d with
        | none => rfl
        | some m => unfold offer at h; rw [if_neg hun] at h; simp [hb, hm] at h
    | false =>
      have hc : OutTicks s0 { s0 with pc := .copyA s.buf.aEnd 0 } :=
        hag.trans (OutTicks.head (t := { s0 with pc := .fetchA }) (by simp [outTick, s0, hb]) (OutTicks.one rfl))
      obtain ⟨c1, c2⟩ := out_copyA d { s0 with pc := .copyA s.buf.aEnd 0 } s.buf.aEnd 0 rfl rfl
      simp only [Nat.add_zero, s0] at c1 c2
      refine ⟨fun r hr => ?_, fun h => ?_⟩
      · cases hm : memcpy s.buf.data s.buf.aEnd d with
        | none => unfold offer at hr; rw [if_neg hun] at hr; simp [hb, hm] at hr
        | some m =>
          unfold offer at hr
          rw [if_neg hun] at hr
          simp only [hb, if_false, Bool.false_eq_true, hm, Option.map_some, Option.some.injEq] at hr
          subst hr
          refine hc.trans ((c1 m hm).trans ?_)
          refine OutTicks.head (t := { s0 with pc := .storeA s.buf.aEnd, buf := { s.buf with data := m } }) rfl ?_
          refine OutTicks.head (t := { s0 with pc := .chkEnd, buf := { s.buf with data := m, aEnd := add32 s.buf.aEnd d.length } }) rfl ?_
          have hf := out_check ({ s0 with pc := .chkEnd, buf := { s.buf with data := m, aEnd := add32 s.buf.aEnd d.length } } : OutSt α) rfl
          simpa only [OutSt.done, s0, List.take_length, hpc, hb] using hf
      · refine OutFails.after hc (c2 ?_)
        cases hm : memcpy s.buf.data s.buf.aEnd d with
        | none => rfl
        | some m => unfold offer at h; rw [if_neg hun] at h; simp [hb, hm] at h

/-! ## Where the code departs from the property -/

/-- a handler that takes all of the first region while the second is not in use -/
theorem poll_drain (b : Buf α) (h1 : b.aStart < b.aEnd) (h2 : b.aEnd ≤ b.size) (h3 : b.size < 2147483648)
    (hu : b.bInuse = false) (h0 : b.bEnd = 0) :
    poll b (b.aEnd - b.aStart) = (some b.aStart, { b with aStart := 0, aEnd := 0 }) := by
  unfold poll
  have he : isEmpty b = false := by simp [isEmpty]; omega
  rw [he, add32_eq (by omega), if_neg (by simp), if_neg (by omega)]
  simp only [show b.aStart + (b.aEnd - b.aStart) = b.aEnd by omega, if_true, hu, Bool.false_eq_true, if_false]
  unfold checkSwitch
  simp only [h0]
  rw [sub64_eq (by omega) (by omega), sub32_eq (by omega) (by omega), if_neg (by omega)]

/-- a handler that takes all of the first region while the second is in use -/
theorem poll_drainB (b : Buf α) (h1 : b.aStart < b.aEnd) (h2 : b.aEnd ≤ b.size) (h3 : b.size < 2147483648)
    (hu : b.bInuse = true) (h0 : b.bEnd ≤ b.aStart) :
    poll b (b.aEnd - b.aStart) = (some b.aStart, { b with aStart := 0, aEnd := b.bEnd, bEnd := 0, bInuse := false }) := by
  unfold poll
  have he : isEmpty b = false := by simp [isEmpty]; omega
  rw [he, add32_eq (by omega), if_neg (by simp), if_neg (by omega)]
  simp only [show b.aStart + (b.aEnd - b.aStart) = b.aEnd by omega, if_true, hu]
  unfold checkSwitch
  simp only
  rw [sub64_eq (by omega) (by omega), sub32_eq (by omega) (by omega), if_neg (by omega)]

/-- from the start of an offer that fits behind the first region to the fetch that precedes its store -/
theorem out_to_add (s : OutSt α) (hi : Inv s.buf) (hu : s.buf.bInuse = false) (d : List α)
    (hd : s.buf.aEnd + d.length ≤ s.buf.size) :
    OutTicks { s with pc := .inuse, d := d } { s with pc := .addA, d := d, buf := { s.buf with
      data := s.buf.data.take s.buf.aEnd ++ d ++ s.buf.data.drop (s.buf.aEnd + d.length) } } := by
  have h0 := hi.len; have h1 := hi.small
  refine OutTicks.head (t := { s with pc := .roomA, d := d }) (by simp [outTick, hu]) ?_
  refine OutTicks.head (t := { s with pc := .again, d := d }) ?_ ?_
  · simp only [outTick]
    rw [sub64_eq hi.fits (by omega), toInt_eq (by omega), if_neg (by omega)]
  refine OutTicks.head (t := { s with pc := .fetchA, d := d }) (by simp [outTick, hu]) ?_
  refine OutTicks.head (t := { s with pc := .copyA s.buf.aEnd 0, d := d }) rfl ?_
  exact (out_copyA d { s with pc := .copyA s.buf.aEnd 0, d := d } s.buf.aEnd 0 rfl rfl).1 _ (memcpy_eq d _ _ (by simp only; omega))

/-- run to a place, let the handler take `n` bytes, run on -/
theorem out_schedule (s t u v : OutSt α) (d : List α) (n : Nat) (hpc : s.pc = .idle)
    (h1 : OutTicks { s with pc := .inuse, d := d } t) (h2 : outStep t (.irq n) = some u) (h3 : OutTicks u v) :
    ∃ k m, outRun s (.start d :: List.replicate k .tick ++ .irq n :: List.replicate m .tick) = some v := by
  obtain ⟨k, hk⟩ := h1
  obtain ⟨m, hm⟩ := h3
  refine ⟨k, m, ?_⟩
  rw [List.cons_append, outRun_cons, show outStep s (.start d) = some { s with pc := .inuse, d := d } by simp only [outStep, hpc, if_true],
    Option.bind_some, outRun_append, hk, Option.bind_some, outRun_cons, h2, Option.bind_some]
  exact hm

theorem one_piece {b : Buf α} (hi : Inv b) (hu : b.bInuse = false) (hne : contents b ≠ []) :
    b.aStart < b.aEnd ∧ contents b = (b.data.drop b.aStart).take (b.aEnd - b.aStart) := by
  have hB := hi.unusedB hu
  have hl := contents_length hi
  have : (contents b).length ≠ 0 := fun h => hne (List.length_eq_zero_iff.mp h)
  refine ⟨by have := hi.ordered; omega, ?_⟩
  simp [contents, hB]

theorem old_slice (d m : List α) (i k : Nat) (h : k ≤ i) (hi : i ≤ m.length) :
    ((m.take i ++ d ++ m.drop (i + d.length)).drop k).take (i - k) = (m.drop k).take (i - k) := by
  rw [List.append_assoc, List.drop_append_of_le_length (by simp; omega), List.take_append_of_le_length (by simp; omega),
    List.drop_take, List.take_take, Nat.min_self]

/-- **Violation.**  Whenever the bytes lie in one piece and an offer fits behind them, there is a moment (after the bytes
are copied, bipbuffer.c:89, and before `a_end` is fetched, 90) at which the handler can take all the buffer holds and the
offer is then replaced: it is accepted, but the buffer holds instead what lay at the beginning of the array. -/
theorem out_garbles (s : OutSt α) (hpc : s.pc = .idle) (hi : Inv s.buf) (hne : contents s.buf ≠ []) (hu : s.buf.bInuse = false)
    (d : List α) (hd : s.buf.aEnd + d.length ≤ s.buf.size) (hsm : d.length ≤ s.buf.aEnd) :
    ∃ k m s', outRun s (.start d :: List.replicate k .tick ++ .irq (contents s.buf).length :: List.replicate m .tick) = some s' ∧
      s'.pc = .idle ∧ s'.acc = s.acc ++ d ∧ s'.out = s.out ++ contents s.buf ∧
      contents s'.buf = s.buf.data.take d.length := by
  have h0 := hi.len; have h1 := hi.small; have h3 := hi.fits
  have hB := hi.unusedB hu
  obtain ⟨hlt, hcs⟩ := one_piece hi hu hne
  have hcl : (contents s.buf).length = s.buf.aEnd - s.buf.aStart := by rw [contents_length hi]; omega
  let m := s.buf.data.take s.buf.aEnd ++ d ++ s.buf.data.drop (s.buf.aEnd + d.length)
  let t : OutSt α := { s with pc := .addA, d := d, buf := { s.buf with data := m } }
  let u : OutSt α := { t with buf := { s.buf with data := m, aStart := 0, aEnd := 0 }, out := s.out ++ contents s.buf }
  have hirq : outStep t (.irq (contents s.buf).length) = some u := by
    have hp := poll_drain t.buf hlt h3 h1 hu hB
    simp only [outStep, hcl, t]
    simp only [t] at hp
    rw [hp]
    simp only [u, t]
    congr 2
    rw [hcs]
    refine congrArg (s.out ++ ·) ?_
    exact old_slice d s.buf.data _ _ hi.ordered (by omega)
  have hfin : ∃ v : OutSt α, OutTicks u v ∧ v.pc = .idle ∧ v.acc = s.acc ++ d ∧ v.out = s.out ++ contents s.buf ∧
      contents v.buf = s.buf.data.take d.length := by
    refine ⟨_, OutTicks.head (t := { u with pc := .storeA 0 }) rfl (OutTicks.head (t := { u with pc := .chkEnd, buf := { u.buf with aEnd := d.length } }) ?_
      (out_check _ rfl)), rfl, rfl, rfl, ?_⟩
    · simp only [outTick, u, t]
      rw [add32_eq (by omega), Nat.zero_add]
    · simp only [OutSt.done]
      have hck : ∀ b : Buf α, contents (checkSwitch b) = contents b := by intro b; unfold checkSwitch; split <;> rfl
      rw [hck]
      simp only [contents, u, hB, List.take_zero, List.append_nil, List.drop_zero, Nat.sub_zero]
      exact written_take d _ _ _ hsm (by omega)
  obtain ⟨v, hv, q⟩ := hfin
  obtain ⟨k, j, hr⟩ := out_schedule s t u v d _ hpc (out_to_add s hi hu d hd) hirq hv
  exact ⟨k, j, v, hr, q⟩

/-- **Violation.**  Under the same circumstances, when the handler takes all the buffer holds one access later (between the
fetch and the store of `a_end` in bipbuffer.c:90), the buffer then holds everything from the beginning of the array up to
the offer: the bytes the handler has just taken, and whatever lay before them, are delivered once more. -/
theorem out_replays (s : OutSt α) (hpc : s.pc = .idle) (hi : Inv s.buf) (hne : contents s.buf ≠ []) (hu : s.buf.bInuse = false)
    (d : List α) (hd : s.buf.aEnd + d.length ≤ s.buf.size) :
    ∃ k m s', outRun s (.start d :: List.replicate k .tick ++ .irq (contents s.buf).length :: List.replicate m .tick) = some s' ∧
      s'.pc = .idle ∧ s'.acc = s.acc ++ d ∧ s'.out = s.out ++ contents s.buf ∧
      contents s'.buf = s.buf.data.take s.buf.aStart ++ contents s.buf ++ d := by
  have h0 := hi.len; have h1 := hi.small; have h3 := hi.fits
  have hB := hi.unusedB hu
  obtain ⟨hlt, hcs⟩ := one_piece hi hu hne
  have hcl : (contents s.buf).length = s.buf.aEnd - s.buf.aStart := by rw [contents_length hi]; omega
  let m := s.buf.data.take s.buf.aEnd ++ d ++ s.buf.data.drop (s.buf.aEnd + d.length)
  let t : OutSt α := { s with pc := .storeA s.buf.aEnd, d := d, buf := { s.buf with data := m } }
  let u : OutSt α := { t with buf := { s.buf with data := m, aStart := 0, aEnd := 0 }, out := s.out ++ contents s.buf }
  have hirq : outStep t (.irq (contents s.buf).length) = some u := by
    have hp := poll_drain t.buf hlt h3 h1 hu hB
    simp only [outStep, hcl, t]
    simp only [t] at hp
    rw [hp]
    simp only [u, t]
    congr 2
    rw [hcs]
    refine congrArg (s.out ++ ·) ?_
    exact old_slice d s.buf.data _ _ hi.ordered (by omega)
  have hfin : ∃ v : OutSt α, OutTicks u v ∧ v.pc = .idle ∧ v.acc = s.acc ++ d ∧ v.out = s.out ++ contents s.buf ∧
      contents v.buf = s.buf.data.take s.buf.aStart ++ contents s.buf ++ d := by
    refine ⟨_, OutTicks.head (t := { u with pc := .chkEnd, buf := { u.buf with aEnd := s.buf.aEnd + d.length } }) ?_
      (out_check _ rfl), rfl, rfl, rfl, ?_⟩
    · simp only [outTick, u, t]
      rw [add32_eq (by omega)]
    · simp only [OutSt.done]
      have hck : ∀ b : Buf α, contents (checkSwitch b) = contents b := by intro b; unfold checkSwitch; split <;> rfl
      rw [hck, hcs]
      simp only [contents, u, hB, List.take_zero, List.append_nil, List.drop_zero, Nat.sub_zero, m]
      rw [List.take_append_of_le_length (by simp; omega), List.take_of_length_le (by simp; omega), ← List.take_add]
      congr 2; omega
  obtain ⟨v, hv, q⟩ := hfin
  obtain ⟨k, j, hr⟩ := out_schedule s t u v d _ hpc
    ((out_to_add s hi hu d hd).trans (OutTicks.one (by simp only [outTick, t, m]))) hirq hv
  exact ⟨k, j, v, hr, q⟩

/-- **Violation.**  Whenever the bytes lie in one piece and an offer fits behind them but leaves less room there than is free
in front, there is a moment (after `a_end` and `a_start` are fetched for the comparison of bipbuffer.c:72) at which the
handler can take everything, including the offer, and leave the buffer empty for ever: it then refuses every byte offered,
and has nothing to give. -/
theorem out_jams (s : OutSt α) (hpc : s.pc = .idle) (hi : Inv s.buf) (hne : contents s.buf ≠ []) (hu : s.buf.bInuse = false)
    (d : List α) (hd : s.buf.aEnd + d.length ≤ s.buf.size) (hsw : s.buf.size - (s.buf.aEnd + d.length) < s.buf.aStart) :
    ∃ k m s', outRun s (.start d :: List.replicate k .tick ++ .irq ((contents s.buf).length + d.length) :: List.replicate m .tick) = some s' ∧
      s'.pc = .idle ∧ s'.acc = s.acc ++ d ∧ s'.out = s.out ++ contents s.buf ++ d ∧
      (∀ e, e ≠ [] → offer s'.buf e = some (0, s'.buf)) ∧ (∀ n, poll s'.buf n = (none, s'.buf)) := by
  have h0 := hi.len; have h1 := hi.small; have h3 := hi.fits
  have hB := hi.unusedB hu
  obtain ⟨hlt, hcs⟩ := one_piece hi hu hne
  have hcl : (contents s.buf).length = s.buf.aEnd - s.buf.aStart := by rw [contents_length hi]; omega
  let m := s.buf.data.take s.buf.aEnd ++ d ++ s.buf.data.drop (s.buf.aEnd + d.length)
  let t : OutSt α := { s with pc := .chkB (s.buf.aEnd + d.length) s.buf.aStart, d := d, buf := { s.buf with data := m, aEnd := s.buf.aEnd + d.length } }
  let u : OutSt α := { t with buf := { s.buf with data := m, aStart := 0, aEnd := 0 }, out := s.out ++ contents s.buf ++ d }
  have ht : OutTicks { s with pc := .inuse, d := d } t := by
    refine (out_to_add s hi hu d hd).trans ?_
    refine OutTicks.head (t := { s with pc := .storeA s.buf.aEnd, d := d, buf := { s.buf with data := m } }) rfl ?_
    refine OutTicks.head (t := { s with pc := .chkEnd, d := d, buf := { s.buf with data := m, aEnd := s.buf.aEnd + d.length } }) ?_ ?_
    · simp only [outTick]; rw [add32_eq (by omega)]
    · exact OutTicks.head (t := { s with pc := .chkStart (s.buf.aEnd + d.length), d := d, buf := { s.buf with data := m, aEnd := s.buf.aEnd + d.length } }) rfl (OutTicks.one rfl)
  have hirq : outStep t (.irq ((contents s.buf).length + d.length)) = some u := by
    have hp := poll_drain t.buf (by simp only [t]; omega) hd h1 hu hB
    simp only [t] at hp
    rw [show s.buf.aEnd + d.length - s.buf.aStart = (contents s.buf).length + d.length by omega] at hp
    simp only [outStep, t]
    rw [hp]
    simp only [u, t]
    congr 2
    have hw := written_slice d s.buf.data s.buf.aEnd s.buf.aStart hi.ordered (by omega)
    rw [show s.buf.aEnd + d.length - s.buf.aStart = (contents s.buf).length + d.length by omega] at hw
    rw [List.append_assoc]
    congr 1
    simp only [m]
    rw [hw, hcs]
  have hfin : ∃ v : OutSt α, OutTicks u v ∧ v.pc = .idle ∧ v.acc = s.acc ++ d ∧ v.out = s.out ++ contents s.buf ++ d ∧
      v.buf.aStart = 0 ∧ v.buf.aEnd = 0 ∧ v.buf.bEnd = 0 ∧ v.buf.bInuse = true := by
    refine ⟨_, OutTicks.head (t := { u with pc := .chkWrite }) ?_ (OutTicks.one rfl), rfl, rfl, rfl, rfl, rfl, hB, rfl⟩
    simp only [outTick, u, t, hB]
    rw [sub64_eq (by omega) (by omega), sub32_eq (by omega) (by omega), if_pos (by omega)]
  obtain ⟨v, hv, q1, q2, q3, q4, q5, q6, q7⟩ := hfin
  obtain ⟨k, j, hr⟩ := out_schedule s t u v d _ hpc ht hirq hv
  refine ⟨k, j, v, hr, q1, q2, q3, fun e he => ?_, fun n => ?_⟩
  · have hpos : 0 < e.length := by cases e with | nil => exact absurd rfl he | cons => simp
    unfold offer
    rw [if_pos]
    unfold unused
    rw [if_pos q7, q4, q6, sub32_eq (by omega) (by omega), toInt_eq (by omega)]
    omega
  · unfold poll
    rw [if_pos (by simp [isEmpty, q4, q5])]

theorem memcpy_none (d : List α) (m : List α) (i : Nat) (hi : i ≤ m.length) (h : m.length < i + d.length) :
    memcpy m i d = none := by
  induction d generalizing m i with
  | nil => simp at h; omega
  | cons c d ih =>
    simp only [List.length_cons] at h
    simp only [memcpy]
    by_cases hl : i < m.length
    · rw [wr_lt hl]
      exact ih _ _ (by simpa using by omega) (by simpa using by omega)
    · cases hw : wr m i c with
      | none => rfl
      | some m' =>
        exfalso
        simp only [wr] at hw
        split at hw
        · omega
        · cases hw

/-- **Violation.**  While the second region is in use, an offer that fits in front of the first region can be written past
the end of the array: the room is computed from `a_start` (bipbuffer.c:27), then the handler takes the first region, and the
offer goes behind what was the second. -/
theorem out_overflows (s : OutSt α) (hpc : s.pc = .idle) (hi : Inv s.buf) (hu : s.buf.bInuse = true)
    (d : List α) (hd : d.length ≤ s.buf.aStart) (hover : s.buf.size < s.buf.bEnd + d.length) :
    ∃ k m, outRun s (.start d :: List.replicate k .tick ++ .irq (contiguous s.buf) :: List.replicate m .tick) = none := by
  have h0 := hi.len; have h1 := hi.small; have h2 := hi.ordered; have h3 := hi.fits; have h4 := hi.below
  have hlt : s.buf.aStart < s.buf.aEnd := by
    by_contra hn
    have := (hi.empty (by omega)).1
    omega
  let t : OutSt α := { s with pc := .roomB s.buf.aStart, d := d }
  let u : OutSt α := { t with buf := { s.buf with aStart := 0, aEnd := s.buf.bEnd, bEnd := 0, bInuse := false }, out := s.out ++ (s.buf.data.drop s.buf.aStart).take (contiguous s.buf) }
  have ht : OutTicks { s with pc := .inuse, d := d } t :=
    OutTicks.head (t := { s with pc := .roomStart, d := d }) (by simp [outTick, hu]) (OutTicks.one rfl)
  have hirq : outStep t (.irq (contiguous s.buf)) = some u := by
    have hp := poll_drainB s.buf hlt h3 h1 hu h4
    simp only [outStep, t, contiguous]
    rw [hp]
    simp only [u, t, contiguous]
  have hfail : OutFails u := by
    have e1 : OutTicks u { u with pc := .copyA s.buf.bEnd 0 } := by
      refine OutTicks.head (t := { u with pc := .again }) ?_ ?_
      · simp only [outTick, u, t]
        rw [sub32_eq (by omega) (by omega), toInt_eq (by omega), if_neg (by omega)]
      · exact OutTicks.head (t := { u with pc := .fetchA }) (by simp [outTick, u]) (OutTicks.one rfl)
    refine OutFails.after e1 ((out_copyA d { u with pc := .copyA s.buf.bEnd 0 } s.buf.bEnd 0 rfl rfl).2 ?_)
    simp only [u, Nat.add_zero]
    exact memcpy_none d _ _ (by omega) (by omega)
  obtain ⟨k, hk⟩ := ht
  obtain ⟨m, hm⟩ := hfail
  refine ⟨k, m, ?_⟩
  rw [List.cons_append, outRun_cons, show outStep s (.start d) = some { s with pc := .inuse, d := d } by simp only [outStep, hpc, if_true],
    Option.bind_some, outRun_append, hk, Option.bind_some, outRun_cons, hirq, Option.bind_some]
  exact hm

/-! ### The hypotheses are met -/

/-- a sender over six bytes: three bytes are offered while the handler runs on the empty buffer; two more while it takes one
in the middle of the copy; then one more, which goes in front, while it takes one before the store -/
def outSample : List (OutAct Nat) :=
  [.start [1, 2, 3], .irq 1] ++ List.replicate 13 .tick ++ [.start [4, 5]] ++ List.replicate 5 .tick ++ [.irq 1] ++
    List.replicate 7 .tick ++ [.irq 1, .start [6]] ++ List.replicate 3 .tick ++ [.irq 1] ++ List.replicate 12 .tick ++
    [.irq 2, .start [7]] ++ List.replicate 20 .tick ++ [.irq 2]

example : outLegalRun (outInit 6 [0, 0, 0, 0, 0, 0]) outSample := by decide +kernel

example : (outRun (outInit 6 [0, 0, 0, 0, 0, 0]) outSample).map (fun s => (s.pc, s.acc, s.out, contents s.buf)) =
    some (.idle, [1, 2, 3, 4, 5, 6, 7], [1, 2, 3, 4, 5, 6, 7], []) := by decide +kernel

/-- the hypotheses of `out_garbles`, `out_replays` and `out_jams`, reached from the start: one of four bytes is taken, and
two more fit behind the last -/
example : (outRun (outInit 6 [0, 0, 0, 0, 0, 0]) ([.start [1, 2, 3, 4]] ++ List.replicate 14 .tick ++ [.irq 1])).map
      (fun s => (s.pc, contents s.buf, s.buf)) =
    some (.idle, [2, 3, 4], ⟨6, 1, 4, 0, false, [1, 2, 3, 4, 0, 0]⟩) := by decide +kernel

/-- the garbling itself: `5 6` is accepted, and the handler will be given `1 2` -/
example : (outRun (outInit 6 [0, 0, 0, 0, 0, 0]) ([.start [1, 2, 3, 4]] ++ List.replicate 14 .tick ++ [.irq 1] ++
      [.start [5, 6]] ++ List.replicate 7 .tick ++ [.irq 3] ++ List.replicate 5 .tick)).map
      (fun s => (s.pc, s.acc, s.out, contents s.buf)) =
    some (.idle, [1, 2, 3, 4, 5, 6], [1, 2, 3, 4], [1, 2]) := by decide +kernel

/-- the replay itself: the handler will be given `1 2 3 4` once more -/
example : (outRun (outInit 6 [0, 0, 0, 0, 0, 0]) ([.start [1, 2, 3, 4]] ++ List.replicate 14 .tick ++ [.irq 1] ++
      [.start [5, 6]] ++ List.replicate 8 .tick ++ [.irq 3] ++ List.replicate 4 .tick)).map
      (fun s => (s.pc, s.acc, s.out, contents s.buf)) =
    some (.idle, [1, 2, 3, 4, 5, 6], [1, 2, 3, 4], [1, 2, 3, 4, 5, 6]) := by decide +kernel

/-- the jam itself: everything has been taken, and not a byte is accepted any more -/
example : (outRun (outInit 6 [0, 0, 0, 0, 0, 0]) ([.start [1, 2, 3, 4]] ++ List.replicate 14 .tick ++ [.irq 1] ++
      [.start [5, 6]] ++ List.replicate 11 .tick ++ [.irq 5] ++ List.replicate 2 .tick ++ [.start [7]] ++ List.replicate 9 .tick)).map
      (fun s => (s.pc, s.acc, s.out, s.buf)) =
    some (.idle, [1, 2, 3, 4, 5, 6], [1, 2, 3, 4, 5, 6], ⟨6, 0, 0, 0, true, [1, 2, 3, 4, 5, 6]⟩) := by decide +kernel

/-- the hypotheses of `out_overflows`, reached from the start: the last byte is left of the first region, four bytes are in
the second, and five are offered -/
example : (outRun (outInit 6 [0, 0, 0, 0, 0, 0]) ([.start [1, 2, 3, 4, 5, 6]] ++ List.replicate 16 .tick ++ [.irq 5] ++
      [.start [7, 8, 9, 10]] ++ List.replicate 16 .tick)).map (fun s => (s.pc, s.buf)) =
    some (.idle, ⟨6, 5, 6, 4, true, [7, 8, 9, 10, 5, 6]⟩) := by decide +kernel

/-- the overflow itself -/
example : outRun (outInit 6 [0, 0, 0, 0, 0, 0]) ([.start [1, 2, 3, 4, 5, 6]] ++ List.replicate 16 .tick ++ [.irq 5] ++
      [.start [7, 8, 9, 10]] ++ List.replicate 16 .tick ++ [.start [11, 12, 13, 14, 15]] ++ List.replicate 2 .tick ++ [.irq 1] ++
      List.replicate 6 .tick) = none := by decide +kernel

end Verif.Bip.Handler
