import Verif.Streams.Live

/-!
# C87, proofs: blocking and non-blocking input while text arrives
-/
namespace Verif.Streams
open Verif Verif.DynArray

/-! ## The buffer -/

def Live.all (w : Live) : List Ch := w.here ++ w.toCome.flatten

theorem tick_facts (w : Live) : w.tick.all = w.all ∧ w.tick.past = w.past ∧ w.tick.ends = w.ends ∧
    w.tick.toCome.length ≤ w.toCome.length ∧ ∃ more, w.tick.here = w.here ++ more := by
  unfold Live.tick
  split
  · exact ⟨rfl, rfl, rfl, Nat.le_refl _, [], by simp⟩
  · rename_i a as h
    refine ⟨?_, rfl, rfl, ?_, a, rfl⟩
    · simp [Live.all, h]
    · simp [h]

theorem tick_length (w : Live) (h : w.toCome ≠ []) : w.tick.toCome.length + 1 = w.toCome.length := by
  unfold Live.tick
  split
  · contradiction
  · rename_i a as e; simp [e]

/-- whatever `sgetc` of the blocking policy comes back with -/
theorem waitGet_result (c : LiveCfg) (k : Nat) : ∀ (w w' : Live) (v : Int), w.waitGet c k = some (w', v) →
    w'.all = w.all ∧ w'.past = w.past ∧ w'.ends = w.ends ∧ w'.toCome.length ≤ w.toCome.length ∧
    ((∃ x r, w'.here = x :: r ∧ v = c.code x) ∨ (w.all = [] ∧ w.ends = true ∧ w'.here = [] ∧ w'.toCome = [] ∧ v = eofCode)) := by
  induction k with
  | zero => intro w w' v h; simp [Live.waitGet] at h
  | succ k ih =>
    intro w w' v h
    obtain ⟨t1, t2, t3, t4, more, t5⟩ := tick_facts w
    rw [Live.waitGet] at h
    by_cases hh : w.tick.here = []
    · by_cases he : w.tick.ends ∧ w.tick.toCome = []
      · have e : w.inAvail = (w.tick, -1) := by simp only [Live.inAvail, if_pos hh, if_pos he]
        rw [e, if_pos rfl] at h
        cases h
        refine ⟨t1, t2, t3, t4, .inr ⟨?_, t3 ▸ he.1, hh, he.2, rfl⟩⟩
        rw [← t1, Live.all, hh, he.2]; rfl
      · have e : w.inAvail = (w.tick, 0) := by simp only [Live.inAvail, if_pos hh, if_neg he]
        rw [e, if_neg (by simp), if_pos rfl] at h
        obtain ⟨i1, i2, i3, i4, i5⟩ := ih w.tick _ _ h
        refine ⟨by rw [i1, t1], by rw [i2, t2], by rw [i3, t3], by omega, ?_⟩
        rw [t1, t3] at i5
        exact i5
    · have e : w.inAvail = (w.tick, (w.tick.here.length : Int)) := by simp only [Live.inAvail, if_neg hh]
      have hl : 0 < w.tick.here.length := List.length_pos_iff.mpr hh
      rw [e, if_neg (by simp only; omega), if_neg (by simp only; omega)] at h
      simp only [Option.some.injEq] at h
      obtain ⟨s1, s2, s3, s4, more2, s5⟩ := tick_facts w.tick
      unfold Live.sgetc at h
      cases h
      refine ⟨by rw [s1, t1], by rw [s2, t2], by rw [s3, t3], by omega, .inl ?_⟩
      obtain ⟨x, r, hx⟩ := List.exists_cons_of_ne_nil hh
      exact ⟨x, r ++ more2, by rw [s5, hx]; rfl, by rw [s5, hx]; rfl⟩

/-- it comes back when there is something to come back with -/
theorem waitGet_returns (c : LiveCfg) (k : Nat) : ∀ (w : Live), w.toCome.length < k → (w.all ≠ [] ∨ w.ends = true) →
    (w.waitGet c k).isSome = true := by
  induction k with
  | zero => intro w h; omega
  | succ k ih =>
    intro w hk hw
    obtain ⟨t1, t2, t3, t4, more, t5⟩ := tick_facts w
    rw [Live.waitGet]
    by_cases hh : w.tick.here = []
    · by_cases he : w.tick.ends ∧ w.tick.toCome = []
      · have e : w.inAvail = (w.tick, -1) := by simp only [Live.inAvail, if_pos hh, if_pos he]
        rw [e, if_pos rfl]; rfl
      · have e : w.inAvail = (w.tick, 0) := by simp only [Live.inAvail, if_pos hh, if_neg he]
        rw [e, if_neg (by simp), if_pos rfl]
        have hne : w.toCome ≠ [] := by
          intro hn
          have ht : w.tick = w := by unfold Live.tick; rw [hn]
          rw [ht] at he hh
          rcases hw with hw | hw
          · exact hw (by rw [Live.all, hh, hn]; rfl)
          · exact he ⟨hw, hn⟩
        have := tick_length w hne
        exact ih _ (by simp only; omega) (by simp only [t1, t3]; exact hw)
    · have e : w.inAvail = (w.tick, (w.tick.here.length : Int)) := by simp only [Live.inAvail, if_neg hh]
      have hl : 0 < w.tick.here.length := List.length_pos_iff.mpr hh
      rw [e, if_neg (by simp only; omega), if_neg (by simp only; omega)]
      rfl

/-- taking a character that is there -/
theorem sbumpc_here (c : LiveCfg) (w : Live) (x : Ch) (r : List Ch) (h : w.here = x :: r) (hx : c.code x ≠ eofCode) :
    (w.sbumpc c).2 = c.code x ∧ (w.sbumpc c).1.past = x :: w.past ∧ (w.sbumpc c).1.ends = w.ends ∧
    (w.sbumpc c).1.toCome.length ≤ w.toCome.length ∧ x :: (w.sbumpc c).1.all = w.all ∧
    (∃ more, (w.sbumpc c).1.here = r ++ more) ∧ (w.sbumpc c).1.toCome = w.tick.toCome := by
  obtain ⟨t1, t2, t3, t4, more, t5⟩ := tick_facts w
  have hs : c.shown w.tick.here = c.code x := by rw [t5, h]; rfl
  have hh : w.tick.here = x :: (r ++ more) := by rw [t5, h]; rfl
  have e : w.sbumpc c = ({ w.tick with past := x :: w.tick.past, here := r ++ more }, c.code x) := by
    unfold Live.sbumpc
    rw [hs, if_neg (by intro hc; exact hx hc.2)]
    unfold Live.take1
    rw [hh]
  rw [e]
  refine ⟨rfl, by simp only [t2], t3, t4, ?_, ⟨more, rfl⟩, rfl⟩
  rw [← t1]
  simp [Live.all, hh]

theorem get_here (c : LiveCfg) (s : LS) (x : Ch) (r : List Ch) (h : s.live.here = x :: r) (hx : c.code x ≠ eofCode) :
    s.get c = (⟨(s.live.sbumpc c).1, s.ios⟩, c.code x) := by
  have := (sbumpc_here c s.live x r h hx).1
  unfold LS.get
  rw [this, if_neg hx]

theorem ignore1_here (c : LiveCfg) (s : LS) (x : Ch) (r : List Ch) (h : s.live.here = x :: r) (hx : c.code x ≠ eofCode) :
    s.ignore1 c = ⟨(s.live.sbumpc c).1, s.ios⟩ := by
  unfold LS.ignore1
  rw [get_here c s x r h hx, if_neg hx]

/-! ## The blocking policy -/

theorem peek_result (c : LiveCfg) (polls : Nat) (s s' : LS) (v : Int) (hg : s.ios.good = true)
    (h : s.peek c .blocking polls = some (s', v)) :
    s'.ios = s.ios ∧ s'.live.all = s.live.all ∧ s'.live.past = s.live.past ∧ s'.live.ends = s.live.ends ∧
    s'.live.toCome.length ≤ s.live.toCome.length ∧
    ((∃ x r, s'.live.here = x :: r ∧ v = c.code x) ∨
      (s.live.all = [] ∧ s.live.ends = true ∧ s'.live.here = [] ∧ s'.live.toCome = [] ∧ v = eofCode)) := by
  unfold LS.peek at h
  rw [if_pos hg] at h
  simp only [Option.map_eq_some_iff] at h
  obtain ⟨⟨w, v'⟩, h1, h2⟩ := h
  simp only [Prod.mk.injEq] at h2
  obtain ⟨rfl, rfl⟩ := h2
  exact ⟨rfl, waitGet_result c _ _ _ _ h1⟩

theorem peek_returns (c : LiveCfg) (polls : Nat) (s : LS) (hp : s.live.toCome.length < polls)
    (hw : s.live.all ≠ [] ∨ s.live.ends = true) : ∃ r, s.peek c .blocking polls = some r := by
  unfold LS.peek
  split
  · obtain ⟨r, hr⟩ := Option.isSome_iff_exists.mp (waitGet_returns c polls s.live hp hw)
    exact ⟨_, by simp only [hr]; rfl⟩
  · exact ⟨_, rfl⟩

theorem isSpace_code (c : LiveCfg) (x : Ch) : isSpace (toChar (c.code x)) = isSpace x := by rw [toChar_code]

theorem isSpace_eofCode : isSpace (toChar eofCode) = false := by decide

theorem not_white {x : Ch} : isSpace x = false ↔ ¬ Spec.White x := by
  rw [← isSpace_iff]; simp

theorem all_cons {w : Live} {x : Ch} {r : List Ch} (h : w.here = x :: r) : w.all = x :: (r ++ w.toCome.flatten) := by
  simp [Live.all, h]

theorem Tellable.of_suffix {c : LiveCfg} {text pre suf : List Ch} (h : Spec.Tellable c text) (e : text = pre ++ suf) :
    Spec.Tellable c suf := fun x hx => h x (by rw [e]; exact List.mem_append_right _ hx)

theorem ws_result (c : LiveCfg) (polls k : Nat) : ∀ (s s' : LS), s.ios.good = true → Spec.Tellable c s.live.all →
    s.ws c .blocking polls k = some s' →
    ∃ white, s.live.all = white ++ s'.live.all ∧ (∀ x ∈ white, Spec.White x) ∧ s'.ios = s.ios ∧ s'.live.ends = s.live.ends ∧
      s'.live.toCome.length ≤ s.live.toCome.length ∧
      ((∃ x r, s'.live.here = x :: r ∧ ¬ Spec.White x) ∨
        (s'.live.here = [] ∧ s'.live.toCome = [] ∧ s.live.ends = true)) := by
  induction k with
  | zero => intro s s' _ _ h; simp [LS.ws] at h
  | succ k ih =>
    intro s s' hg ht h
    rw [LS.ws] at h
    cases hp : s.peek c .blocking polls with
    | none => rw [hp] at h; cases h
    | some q =>
      obtain ⟨s1, v⟩ := q
      rw [hp] at h
      simp only at h
      obtain ⟨p1, p2, p3, p4, p5, p6⟩ := peek_result c polls s s1 v hg hp
      rcases p6 with ⟨x, r, hx, rfl⟩ | ⟨e1, e2, e3, e4, rfl⟩
      · rw [isSpace_code] at h
        have hm : c.code x ≠ eofCode := ht x (by rw [← p2, all_cons hx]; simp)
        by_cases hs : isSpace x = true
        · rw [if_pos hs, ignore1_here c s1 x r hx hm] at h
          obtain ⟨b1, b2, b3, b4, b5, b6, b7⟩ := sbumpc_here c s1.live x r hx hm
          obtain ⟨white, i1, i2, i3, i4, i5, i6⟩ := ih _ _ (by simp only; rw [p1]; exact hg)
            (Tellable.of_suffix (pre := [x]) ht (by rw [← p2, ← b5]; rfl)) h
          refine ⟨x :: white, ?_, ?_, ?_, ?_, ?_, ?_⟩
          · rw [← p2, ← b5, i1]; rfl
          · intro y hy
            rcases List.mem_cons.mp hy with rfl | hy
            · exact (isSpace_iff _).mp hs
            · exact i2 y hy
          · rw [i3]; exact p1
          · rw [i4]; simp only; rw [b3, p4]
          · simp only at i5; omega
          · rcases i6 with i6 | i6
            · exact .inl i6
            · simp only at i6
              rw [b3, p4] at i6
              exact .inr i6
        · rw [if_neg hs] at h
          cases h
          exact ⟨[], by simp [p2], by simp, p1, p4, p5, .inl ⟨x, r, hx, fun hw => hs ((isSpace_iff x).mpr hw)⟩⟩
      · rw [isSpace_eofCode] at h
        simp only [Bool.false_eq_true, if_false, Option.some.injEq] at h
        subst h
        exact ⟨[], by simp [p2], by simp, p1, p4, p5, .inr ⟨e3, e4, e2⟩⟩

/-- the bits `do_input` adds at the end of the text -/
def Spec.endBits (v : List Ch) : BitVec 8 := if v = [] then failbit ||| eofbit else eofbit

theorem inputEnd_blocking (c : LiveCfg) (s : LS) (v : List Ch) :
    s.inputEnd c .blocking v = ⟨s.live, s.ios.setstate c.ios (Spec.endBits v)⟩ := by
  simp only [LS.inputEnd, LS.setstate, Spec.endBits]
  by_cases h : v = [] <;> simp [h, setstate_setstate]

theorem doInput_result (c : LiveCfg) (polls k : Nat) : ∀ (s s' : LS) (v v' : List Ch), s.ios.good = true →
    Spec.Tellable c s.live.all → s.doInput c .blocking polls k v = some (s', v') →
    ∃ word, v' = v ++ word ∧ s.live.all = word ++ s'.live.all ∧ (∀ x ∈ word, ¬ Spec.White x) ∧
      s'.live.ends = s.live.ends ∧ s'.live.toCome.length ≤ s.live.toCome.length ∧
      ((∃ x r, s'.live.all = x :: r ∧ Spec.White x ∧ s'.ios = s.ios) ∨
        (s'.live.all = [] ∧ s.live.ends = true ∧ s'.ios = s.ios.setstate c.ios (Spec.endBits v'))) := by
  induction k with
  | zero => intro s s' v v' _ _ h; simp [LS.doInput] at h
  | succ k ih =>
    intro s s' v v' hg ht h
    rw [LS.doInput] at h
    cases hp : s.peek c .blocking polls with
    | none => rw [hp] at h; cases h
    | some q =>
      obtain ⟨s1, ch⟩ := q
      rw [hp] at h
      simp only at h
      obtain ⟨p1, p2, p3, p4, p5, p6⟩ := peek_result c polls s s1 ch hg hp
      rcases p6 with ⟨x, r, hx, rfl⟩ | ⟨e1, e2, e3, e4, rfl⟩
      · have hm : c.code x ≠ eofCode := ht x (by rw [← p2, all_cons hx]; simp)
        rw [if_neg hm, isSpace_code] at h
        by_cases hs : isSpace x = true
        · rw [if_pos hs] at h
          cases h
          exact ⟨[], by simp, by simp [p2], by simp, p4, p5, .inl ⟨x, _, all_cons hx, (isSpace_iff x).mp hs, p1⟩⟩
        · rw [if_neg hs, get_here c s1 x r hx hm, toChar_code] at h
          obtain ⟨b1, b2, b3, b4, b5, b6, b7⟩ := sbumpc_here c s1.live x r hx hm
          obtain ⟨word, i1, i2, i3, i4, i5, i6⟩ := ih _ _ _ _ (by simp only; rw [p1]; exact hg)
            (Tellable.of_suffix (pre := [x]) ht (by rw [← p2, ← b5]; rfl)) h
          refine ⟨x :: word, ?_, ?_, ?_, ?_, ?_, ?_⟩
          · rw [i1]; simp
          · rw [← p2, ← b5, i2]; rfl
          · intro y hy
            rcases List.mem_cons.mp hy with rfl | hy
            · exact fun hw => hs ((isSpace_iff _).mpr hw)
            · exact i3 y hy
          · rw [i4]; simp only; rw [b3, p4]
          · simp only at i5; omega
          · simp only [b3, p4, p1] at i6; exact i6
      · rw [if_pos rfl, inputEnd_blocking] at h
        cases h
        refine ⟨[], by simp, by simp [p2], by simp, p4, p5, .inr ⟨?_, e2, by rw [p1]⟩⟩
        simp only [p2, e1]

theorem unread_eq (s : LS) : Spec.unread s = s.live.all := rfl

/-- C87, blocking: whatever the arrivals, when `in >> text` comes back it has the first word of the text that was to be
read, wherever the arrivals cut it; what follows the word is left; the stream stays good, unless the text ended there:
then `eofbit` is set, and `failbit` too if there was no word. -/
theorem blocking_word_partial (c : LiveCfg) (polls rounds : Nat) (s s' : LS) (v : List Ch) (hg : s.ios.good = true)
    (ht : Spec.Tellable c (Spec.unread s)) (h : s.word c .blocking polls rounds = some (s', v)) :
    Spec.FirstWord (Spec.unread s) v (Spec.unread s') ∧ s'.live.ends = s.live.ends ∧
      (Spec.unread s' ≠ [] → s'.ios = s.ios) ∧
      (Spec.unread s' = [] → s.live.ends = true ∧
        s'.ios = s.ios.setstate c.ios (if v = [] then failbit ||| eofbit else eofbit)) := by
  unfold LS.word at h
  simp only [unread_eq] at *
  cases hw : s.ws c .blocking polls rounds with
  | none => rw [hw] at h; cases h
  | some s1 =>
    rw [hw] at h
    simp only at h
    obtain ⟨white, w1, w2, w3, w4, w5, w6⟩ := ws_result c polls rounds s s1 hg ht hw
    obtain ⟨word, d1, d2, d3, d4, d5, d6⟩ := doInput_result c polls rounds s1 s' [] v (by rw [w3]; exact hg)
      (Tellable.of_suffix ht w1) h
    simp only [List.nil_append] at d1
    subst d1
    refine ⟨⟨white, by rw [w1, d2, List.append_assoc], w2, d3, ?_, ?_⟩, by rw [d4, w4], ?_, ?_⟩
    · rintro rfl
      rcases d6 with ⟨x, r, hx, hx2, _⟩ | ⟨d6, _⟩
      · rcases w6 with ⟨y, q, hy, hy2⟩ | ⟨hy, hz, _⟩
        · have := all_cons hy
          rw [d2, hx] at this
          simp only [List.nil_append, List.cons.injEq] at this
          exact absurd (this.1 ▸ hx2) hy2
        · have : s1.live.all = [] := by simp [Live.all, hy, hz]
          rw [this, hx] at d2
          simp at d2
      · exact d6
    · intro x r hx
      rcases d6 with ⟨y, q, hy, hy2, _⟩ | ⟨d6, _⟩
      · rw [hy] at hx; cases hx; exact hy2
      · rw [d6] at hx; cases hx
    · intro hne
      rcases d6 with ⟨y, q, hy, hy2, hi⟩ | ⟨d6, _⟩
      · rw [hi, w3]
      · exact absurd d6 hne
    · intro he
      rcases d6 with ⟨y, q, hy, hy2, hi⟩ | ⟨_, d7, d8⟩
      · rw [hy] at he; cases he
      · exact ⟨by rw [w4] at d7; exact d7, by rw [d8, w3]; rfl⟩

/-! ## When a blocking extraction comes back -/

theorem ws_returns (c : LiveCfg) (polls k : Nat) : ∀ (s : LS), s.ios.good = true → Spec.Tellable c s.live.all →
    s.live.toCome.length < polls → s.live.all.length < k → ((∃ x ∈ s.live.all, ¬ Spec.White x) ∨ s.live.ends = true) →
    ∃ s', s.ws c .blocking polls k = some s' := by
  induction k with
  | zero => intro s _ _ _ h; omega
  | succ k ih =>
    intro s hg ht hp hk hw
    have hne : s.live.all ≠ [] ∨ s.live.ends = true := by
      rcases hw with ⟨x, hx, _⟩ | hw
      · exact .inl (List.ne_nil_of_mem hx)
      · exact .inr hw
    obtain ⟨⟨s1, v⟩, hq⟩ := peek_returns c polls s hp hne
    obtain ⟨p1, p2, p3, p4, p5, p6⟩ := peek_result c polls s s1 v hg hq
    rw [LS.ws, hq]
    simp only
    rcases p6 with ⟨x, r, hx, rfl⟩ | ⟨e1, e2, e3, e4, rfl⟩
    · rw [isSpace_code]
      have hm : c.code x ≠ eofCode := ht x (by rw [← p2, all_cons hx]; simp)
      by_cases hs : isSpace x = true
      · rw [if_pos hs, ignore1_here c s1 x r hx hm]
        obtain ⟨b1, b2, b3, b4, b5, b6, b7⟩ := sbumpc_here c s1.live x r hx hm
        have hlen : (s1.live.sbumpc c).1.all.length + 1 = s.live.all.length := by rw [← p2, ← b5]; simp
        refine ih _ (by simp only; rw [p1]; exact hg) (Tellable.of_suffix (pre := [x]) ht (by rw [← p2, ← b5]; rfl))
          (by simp only; omega) (by simp only; omega) ?_
        rcases hw with ⟨y, hy, hy2⟩ | hw
        · left
          rw [← p2, ← b5] at hy
          rcases List.mem_cons.mp hy with rfl | hy
          · exact absurd ((isSpace_iff _).mp hs) hy2
          · exact ⟨y, hy, hy2⟩
        · right; simp only [b3, p4, hw]
      · rw [if_neg hs]; exact ⟨_, rfl⟩
    · rw [isSpace_eofCode]; exact ⟨_, by simp; rfl⟩

theorem doInput_returns (c : LiveCfg) (polls k : Nat) : ∀ (s : LS) (v : List Ch), s.ios.good = true → Spec.Tellable c s.live.all →
    s.live.toCome.length < polls → s.live.all.length < k → ((∃ x ∈ s.live.all, Spec.White x) ∨ s.live.ends = true) →
    ∃ r, s.doInput c .blocking polls k v = some r := by
  induction k with
  | zero => intro s v _ _ _ h; omega
  | succ k ih =>
    intro s v hg ht hp hk hw
    have hne : s.live.all ≠ [] ∨ s.live.ends = true := by
      rcases hw with ⟨x, hx, _⟩ | hw
      · exact .inl (List.ne_nil_of_mem hx)
      · exact .inr hw
    obtain ⟨⟨s1, ch⟩, hq⟩ := peek_returns c polls s hp hne
    obtain ⟨p1, p2, p3, p4, p5, p6⟩ := peek_result c polls s s1 ch hg hq
    rw [LS.doInput, hq]
    simp only
    rcases p6 with ⟨x, r, hx, rfl⟩ | ⟨e1, e2, e3, e4, rfl⟩
    · have hm : c.code x ≠ eofCode := ht x (by rw [← p2, all_cons hx]; simp)
      rw [if_neg hm, isSpace_code]
      by_cases hs : isSpace x = true
      · rw [if_pos hs]; exact ⟨_, rfl⟩
      · rw [if_neg hs, get_here c s1 x r hx hm]
        obtain ⟨b1, b2, b3, b4, b5, b6, b7⟩ := sbumpc_here c s1.live x r hx hm
        have hlen : (s1.live.sbumpc c).1.all.length + 1 = s.live.all.length := by rw [← p2, ← b5]; simp
        refine ih _ _ (by simp only; rw [p1]; exact hg) (Tellable.of_suffix (pre := [x]) ht (by rw [← p2, ← b5]; rfl))
          (by simp only; omega) (by simp only; omega) ?_
        rcases hw with ⟨y, hy, hy2⟩ | hw
        · left
          rw [← p2, ← b5] at hy
          rcases List.mem_cons.mp hy with rfl | hy
          · exact absurd ((isSpace_iff _).mpr hy2) hs
          · exact ⟨y, hy, hy2⟩
        · right; simp only [b3, p4, hw]
    · rw [if_pos rfl]; exact ⟨_, rfl⟩

/-- C87, blocking: a whole word followed by white space, or the end of the text, is enough for `in >> text` to come back,
however the arrivals cut the text and however long they take. -/
theorem blocking_word_returns (c : LiveCfg) (polls rounds : Nat) (s : LS) (word rest : List Ch) (hg : s.ios.good = true)
    (ht : Spec.Tellable c (Spec.unread s)) (hw : Spec.FirstWord (Spec.unread s) word rest)
    (he : rest ≠ [] ∨ s.live.ends = true) (hp : s.live.toCome.length < polls) (hr : (Spec.unread s).length < rounds) :
    ∃ s' v, s.word c .blocking polls rounds = some (s', v) := by
  obtain ⟨white, e1, e2, e3, e4, e5⟩ := hw
  have hne : word ≠ [] ∨ s.live.ends = true := by
    rcases he with he | he
    · exact .inl fun h => he (e4 h)
    · exact .inr he
  obtain ⟨s1, h1⟩ := ws_returns c polls rounds s hg ht hp hr (by
    rcases hne with hne | hne
    · obtain ⟨x, q, rfl⟩ := List.exists_cons_of_ne_nil hne
      exact .inl ⟨x, by rw [← unread_eq, e1]; simp, e3 x (by simp)⟩
    · exact .inr hne)
  obtain ⟨white', w1, w2, w3, w4, w5, w6⟩ := ws_result c polls rounds s s1 hg ht h1
  have hd : (∃ x ∈ s1.live.all, Spec.White x) ∨ s1.live.ends = true := by
    rcases he with he | he
    · obtain ⟨d, q, rfl⟩ := List.exists_cons_of_ne_nil he
      rcases w6 with ⟨y, r', hy, hy2⟩ | ⟨hy, hz, hq⟩
      · left
        refine ⟨d, ?_, e5 d q rfl⟩
        have hmem : d ∈ s.live.all := by rw [← unread_eq, e1]; simp
        -- the white space skipped ends before the word
        have hword : word ≠ [] := fun h => he (e4 h)
        obtain ⟨x, p, rfl⟩ := List.exists_cons_of_ne_nil hword
        have hall : white' ++ s1.live.all = white ++ x :: (p ++ d :: q) := by
          rw [← w1, ← unread_eq, e1]; simp
        rcases List.append_eq_append_iff.mp hall with ⟨a, ha, hb⟩ | ⟨a, ha, hb⟩
        · rw [hb]; simp
        · cases a with
          | nil => simp only [List.nil_append] at hb; rw [← hb]; simp
          | cons z a =>
            simp only [List.cons_append, List.cons.injEq] at hb
            exact absurd (w2 x (by rw [ha, hb.1]; simp)) (e3 x (by simp))
      · right; rw [w4]; exact hq
    · right; rw [w4]; exact he
  have hlen : s1.live.all.length ≤ s.live.all.length := by rw [w1]; simp
  obtain ⟨⟨s', v⟩, h2⟩ := doInput_returns c polls rounds s1 [] (by rw [w3]; exact hg) (Tellable.of_suffix ht w1)
    (by omega) (by rw [unread_eq] at hr; omega) hd
  exact ⟨s', v, by unfold LS.word; rw [h1]; exact h2⟩

theorem dropWhile_white {white l : List Ch} (h : ∀ x ∈ white, Spec.White x) :
    (white ++ l).dropWhile isSpace = l.dropWhile isSpace :=
  List.dropWhile_append_of_pos (fun x hx => (isSpace_iff x).mpr (h x hx))

theorem firstWord_eq {text word rest : List Ch} (h : Spec.FirstWord text word rest) :
    word = (text.dropWhile isSpace).takeWhile (fun x => !isSpace x) ∧
    rest = (text.dropWhile isSpace).dropWhile (fun x => !isSpace x) := by
  obtain ⟨white, rfl, h2, h3, h4, h5⟩ := h
  have hrest : rest.takeWhile (fun x => !isSpace x) = [] ∧ rest.dropWhile (fun x => !isSpace x) = rest := by
    cases rest with
    | nil => simp
    | cons x r =>
      have := (isSpace_iff x).mpr (h5 x r rfl)
      simp [List.takeWhile_cons, List.dropWhile_cons, this]
  have hword : ∀ x ∈ word, (!isSpace x) = true := by
    intro x hx; simp [not_white.mpr (h3 x hx)]
  have e : (white ++ word ++ rest).dropWhile isSpace = word ++ rest := by
    rw [List.append_assoc, dropWhile_white h2]
    cases word with
    | nil => rw [h4 rfl]; rfl
    | cons y p =>
      have := not_white.mpr (h3 y (by simp))
      simp [List.dropWhile_cons, this]
  rw [e, List.takeWhile_append_of_pos hword, List.dropWhile_append_of_pos hword, hrest.1, hrest.2]
  simp

/-- the first word of a text is one word only -/
theorem firstWord_unique {text w1 r1 w2 r2 : List Ch} (h1 : Spec.FirstWord text w1 r1) (h2 : Spec.FirstWord text w2 r2) :
    w1 = w2 ∧ r1 = r2 := by
  rw [(firstWord_eq h1).1, (firstWord_eq h2).1, (firstWord_eq h1).2, (firstWord_eq h2).2]
  exact ⟨rfl, rfl⟩

theorem words_unique {text : List Ch} {vs1 : List (List Ch)} {l1 : List Ch} (h1 : Spec.Words text vs1 l1) :
    ∀ {vs2 : List (List Ch)} {l2 : List Ch}, Spec.Words text vs2 l2 → vs1.length = vs2.length → vs1 = vs2 ∧ l1 = l2 := by
  induction h1 with
  | nil text =>
    intro vs2 l2 h2 hl
    cases h2 with
    | nil => exact ⟨rfl, rfl⟩
    | cons => simp at hl
  | cons f _ ih =>
    intro vs2 l2 h2 hl
    cases h2 with
    | nil => simp at hl
    | cons f2 h2 =>
      obtain ⟨rfl, rfl⟩ := firstWord_unique f f2
      obtain ⟨rfl, rfl⟩ := ih h2 (by simpa using hl)
      exact ⟨rfl, rfl⟩

/-- C87, blocking: with a word that nothing ends, `in >> text` waits for ever. -/
theorem blocking_word_waits (c : LiveCfg) (polls rounds : Nat) (s : LS) (word : List Ch) (hg : s.ios.good = true)
    (ht : Spec.Tellable c (Spec.unread s)) (hw : Spec.FirstWord (Spec.unread s) word []) (he : s.live.ends = false) :
    s.word c .blocking polls rounds = none := by
  cases h : s.word c .blocking polls rounds with
  | none => rfl
  | some r =>
    obtain ⟨s', v⟩ := r
    obtain ⟨h1, h2, h3, h4⟩ := blocking_word_partial c polls rounds s s' v hg ht h
    have := (firstWord_unique hw h1).2
    have := (h4 this.symm).1
    rw [he] at this
    cases this

/-- C87, blocking: on a stream that does not end, `in >> text` time after time takes the words of the text one after the
other. -/
theorem blocking_words_partial (c : LiveCfg) (polls rounds n : Nat) : ∀ (s s' : LS) (vs : List (List Ch)), s.ios.good = true →
    Spec.Tellable c (Spec.unread s) → s.live.ends = false → s.words c .blocking polls rounds n = some (s', vs) →
    vs.length = n ∧ Spec.Words (Spec.unread s) vs (Spec.unread s') ∧ s'.ios = s.ios := by
  induction n with
  | zero =>
    intro s s' vs _ _ _ h
    simp only [LS.words, Option.some.injEq, Prod.mk.injEq] at h
    obtain ⟨rfl, rfl⟩ := h
    exact ⟨rfl, .nil _, rfl⟩
  | succ n ih =>
    intro s s' vs hg ht he h
    rw [LS.words] at h
    cases hw : s.word c .blocking polls rounds with
    | none => rw [hw] at h; cases h
    | some q =>
      obtain ⟨s1, v⟩ := q
      rw [hw] at h
      simp only [Option.map_eq_some_iff, Prod.mk.injEq] at h
      obtain ⟨⟨s2, vs2⟩, h1, rfl, rfl⟩ := h
      obtain ⟨w1, w2, w3, w4⟩ := blocking_word_partial c polls rounds s s1 v hg ht hw
      have hne : Spec.unread s1 ≠ [] := by
        intro hz
        have := (w4 hz).1
        rw [he] at this
        cases this
      have hi := w3 hne
      have ht1 : Spec.Tellable c (Spec.unread s1) := by
        obtain ⟨white, e, _⟩ := w1
        exact Tellable.of_suffix ht e
      obtain ⟨i1, i2, i3⟩ := ih s1 s2 vs2 (by rw [hi]; exact hg) ht1 (by rw [w2, he]) h1
      exact ⟨by simp [i1], .cons w1 i2, by rw [i3, hi]⟩

/-- C87, blocking: the words read do not depend on the arrivals.  Two streams with the same text to come, cut up and
delayed in any two ways, give the same words and leave the same text. -/
theorem blocking_words_schedule (c : LiveCfg) (p1 r1 p2 r2 n : Nat) (s1 s2 s1' s2' : LS) (vs1 vs2 : List (List Ch))
    (hg1 : s1.ios.good = true) (hg2 : s2.ios.good = true) (ht : Spec.Tellable c (Spec.unread s1))
    (hsame : Spec.unread s1 = Spec.unread s2) (he1 : s1.live.ends = false) (he2 : s2.live.ends = false)
    (h1 : s1.words c .blocking p1 r1 n = some (s1', vs1)) (h2 : s2.words c .blocking p2 r2 n = some (s2', vs2)) :
    vs1 = vs2 ∧ Spec.unread s1' = Spec.unread s2' := by
  obtain ⟨a1, a2, _⟩ := blocking_words_partial c p1 r1 n s1 s1' vs1 hg1 ht he1 h1
  obtain ⟨b1, b2, _⟩ := blocking_words_partial c p2 r2 n s2 s2' vs2 hg2 (hsame ▸ ht) he2 h2
  rw [← hsame] at b2
  exact words_unique a2 b2 (by rw [a1, b1])

example :
    let c : LiveCfg := ⟨⟨true, true⟩, true, ⟨true⟩⟩
    LS.words c .blocking 9 20 2 ⟨⟨[], [], [[], [0x61], [], [0x62, 0x20], [0x63], [0x0A, 0x64]], false⟩, Ios.init⟩ =
      some (⟨⟨[0x63, 0x20, 0x62, 0x61], [0x0A, 0x64], [], false⟩, Ios.init⟩, [[0x61, 0x62], [0x63]]) ∧
    LS.words c .blocking 9 20 2 ⟨⟨[], [0x61, 0x62, 0x20, 0x63, 0x0A, 0x64], [], false⟩, Ios.init⟩ =
      some (⟨⟨[0x63, 0x20, 0x62, 0x61], [0x0A, 0x64], [], false⟩, Ios.init⟩, [[0x61, 0x62], [0x63]]) := by decide +kernel

/-! ## Characters -/

/-- C87, blocking: `in >> ch` waits for a character that is not white space and gives it.  (With the standard traits NUL
is taken and not stored, C62.) -/
theorem blocking_char_partial (c : LiveCfg) (polls rounds : Nat) (s s' : LS) (value v : Ch) (hg : s.ios.good = true)
    (ht : Spec.Tellable c (Spec.unread s)) (he : s.live.ends = false)
    (h0 : c.tr.own = false → 0 ∉ Spec.unread s)
    (h : s.extractChar c .blocking polls rounds value = some (s', v)) :
    ∃ white, Spec.unread s = white ++ v :: Spec.unread s' ∧ (∀ x ∈ white, Spec.White x) ∧ ¬ Spec.White v ∧ s'.ios = s.ios := by
  unfold LS.extractChar at h
  cases hw : s.ws c .blocking polls rounds with
  | none => rw [hw] at h; cases h
  | some s1 =>
    rw [hw] at h
    simp only [Option.some.injEq, Prod.mk.injEq] at h
    obtain ⟨rfl, h⟩ := h
    obtain ⟨white, w1, w2, w3, w4, w5, w6⟩ := ws_result c polls rounds s s1 hg ht hw
    rcases w6 with ⟨x, r, hx, hx2⟩ | ⟨_, _, hz⟩
    · have hmem : x ∈ Spec.unread s := by rw [unread_eq, w1, all_cons hx]; simp
      have hm : c.code x ≠ eofCode := ht x hmem
      rw [get_here c s1 x r hx hm] at h ⊢
      obtain ⟨b1, b2, b3, b4, b5, b6, b7⟩ := sbumpc_here c s1.live x r hx hm
      have hne : c.tr.notEof (c.code x) = true := by
        unfold Traits.notEof
        split
        · simpa using hm
        · rename_i ho
          have hx0 : x ≠ 0 := fun hx0 => h0 (by simpa using ho) (hx0 ▸ hmem)
          have : c.code x ≠ 0 := by
            intro hz
            have := toChar_code c x
            rw [hz] at this
            exact hx0 (by rw [← this]; rfl)
          simp [hm, this]
      simp only [hne, if_true, toChar_code] at h
      subst h
      refine ⟨white, ?_, w2, hx2, w3⟩
      rw [unread_eq, unread_eq, w1]
      simp only
      rw [b5]
    · rw [he] at hz; cases hz

/-- … and it comes back once there is one. -/
theorem blocking_char_returns (c : LiveCfg) (polls rounds : Nat) (s : LS) (value : Ch) (hg : s.ios.good = true)
    (ht : Spec.Tellable c (Spec.unread s)) (hw : ∃ x ∈ Spec.unread s, ¬ Spec.White x) (hp : s.live.toCome.length < polls)
    (hr : (Spec.unread s).length < rounds) : ∃ s' v, s.extractChar c .blocking polls rounds value = some (s', v) := by
  obtain ⟨s1, h1⟩ := ws_returns c polls rounds s hg ht hp hr (.inl hw)
  exact ⟨_, _, by unfold LS.extractChar; rw [h1]⟩

example : LS.extractChar ⟨⟨true, true⟩, true, ⟨true⟩⟩ .blocking 9 20 ⟨⟨[], [0x20], [[], [], [0x61, 0x62]], false⟩, Ios.init⟩ 0x3F =
    some (⟨⟨[0x61, 0x20], [0x62], [], false⟩, Ios.init⟩, 0x61) := by decide +kernel

end Verif.Streams
