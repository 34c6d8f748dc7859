import Verif.Streams.LiveMore

/-!
# C87, continued: the non-blocking policy, and where the two policies fail
-/
namespace Verif.Streams
open Verif Verif.DynArray

/-! ## While nothing arrives -/

theorem peek_now (c : LiveCfg) (p : Policy) (polls : Nat) (past : List Ch) (x : Ch) (r : List Ch) (e : Bool) (i : Ios)
    (hg : i.good = true) :
    LS.peek c p (polls + 1) ⟨⟨past, x :: r, [], e⟩, i⟩ = some (⟨⟨past, x :: r, [], e⟩, i⟩, c.code x) := by
  unfold LS.peek
  rw [if_pos hg]
  cases p with
  | nonBlocking => rfl
  | blocking =>
    simp only [Live.waitGet, Live.inAvail, Live.tick, Live.sgetc, LiveCfg.shown]
    rw [if_neg (by simp; omega), if_neg (by simp; omega)]
    rfl

theorem get_now (c : LiveCfg) (past : List Ch) (x : Ch) (r : List Ch) (e : Bool) (i : Ios) (hx : c.code x ≠ eofCode) :
    LS.get c ⟨⟨past, x :: r, [], e⟩, i⟩ = (⟨⟨x :: past, r, [], e⟩, i⟩, c.code x) := by
  have hb : Live.sbumpc c ⟨past, x :: r, [], e⟩ = (⟨x :: past, r, [], e⟩, c.code x) := by
    have ht : Live.tick ⟨past, x :: r, [], e⟩ = ⟨past, x :: r, [], e⟩ := rfl
    have hs : c.shown (x :: r) = c.code x := rfl
    unfold Live.sbumpc
    rw [ht]
    simp only [hs]
    exact Prod.ext (if_neg fun hc => hx hc.2) rfl
  unfold LS.get
  simp only [hb, if_neg hx]

theorem ws_now (c : LiveCfg) (p : Policy) (polls : Nat) (l : List Ch) (e : Bool) (i : Ios) (hg : i.good = true)
    (hl : l = [] → p = .nonBlocking) (hl2 : ∀ x r, l = x :: r → ¬ Spec.White x) (white : List Ch) : ∀ (k : Nat) (past : List Ch),
    (∀ x ∈ white, Spec.White x) → Spec.Tellable c white → white.length < k →
    LS.ws c p (polls + 1) k ⟨⟨past, white ++ l, [], e⟩, i⟩ = some ⟨⟨white.reverse ++ past, l, [], e⟩, i⟩ := by
  induction white with
  | nil =>
    intro k past _ _ hk
    obtain ⟨k, rfl⟩ : ∃ j, k = j + 1 := ⟨k - 1, by omega⟩
    cases l with
    | nil =>
      rw [hl rfl, LS.ws]
      unfold LS.peek
      rw [if_pos hg]
      simp only [Live.sgetc, Live.tick, LiveCfg.shown, List.nil_append, isSpace_eofCode, Bool.false_eq_true, if_false, List.reverse_nil]
    | cons x r =>
      rw [LS.ws, List.nil_append, peek_now c p polls past x r e i hg]
      simp only [isSpace_code, not_white.mpr (hl2 x r rfl), Bool.false_eq_true, if_false, List.reverse_nil, List.nil_append]
  | cons x r ih =>
    intro k past hw ht hk
    obtain ⟨k, rfl⟩ : ∃ j, k = j + 1 := ⟨k - 1, by omega⟩
    rw [LS.ws, List.cons_append, peek_now c p polls past x _ e i hg]
    have hx := ht x (by simp)
    have hs : isSpace x = true := (isSpace_iff x).mpr (hw x (by simp))
    simp only [isSpace_code, hs, if_true]
    have : LS.ignore1 c ⟨⟨past, x :: (r ++ l), [], e⟩, i⟩ = ⟨⟨x :: past, r ++ l, [], e⟩, i⟩ := by
      unfold LS.ignore1
      rw [get_now c past x _ e i hx]
      simp only [if_neg hx]
    rw [this, ih k (x :: past) (fun z hz => hw z (List.mem_cons_of_mem _ hz)) (fun z hz => ht z (List.mem_cons_of_mem _ hz))
      (by simp at hk; omega)]
    simp

theorem doInput_now (c : LiveCfg) (p : Policy) (polls : Nat) (l : List Ch) (e : Bool) (i : Ios) (hg : i.good = true)
    (word : List Ch) : ∀ (k : Nat) (past v : List Ch), (∀ x ∈ word, ¬ Spec.White x) → Spec.Tellable c word →
    LS.doInput c p (polls + 1) (word.length + k) ⟨⟨past, word ++ l, [], e⟩, i⟩ v =
      LS.doInput c p (polls + 1) k ⟨⟨word.reverse ++ past, l, [], e⟩, i⟩ (v ++ word) := by
  induction word with
  | nil => intro k past v _ _; simp
  | cons x r ih =>
    intro k past v hw ht
    have hx := ht x (by simp)
    rw [show (x :: r).length + k = (r.length + k) + 1 from by simp; omega, LS.doInput, List.cons_append, peek_now c p polls past x _ e i hg]
    simp only [if_neg hx, isSpace_code, not_white.mpr (hw x (by simp)), Bool.false_eq_true, if_false, get_now c past x _ e i hx, toChar_code]
    rw [ih k (x :: past) (v ++ [x]) (fun z hz => hw z (List.mem_cons_of_mem _ hz)) (fun z hz => ht z (List.mem_cons_of_mem _ hz))]
    simp

/-- the characters put back are there again, in their order -/
theorem backOff_now (e : Bool) (v : List Ch) : ∀ (past l : List Ch),
    Live.backOff v.length ⟨v ++ past, l, [], e⟩ = ⟨past, v.reverse ++ l, [], e⟩ := by
  induction v with
  | nil => intro past l; rfl
  | cons x r ih =>
    intro past l
    simp only [List.length_cons, Live.backOff]
    have : Live.sungetc ⟨x :: r ++ past, l, [], e⟩ = ⟨r ++ past, x :: l, [], e⟩ := rfl
    rw [this, ih]
    simp

/-- `in >> text` with the first word and a white space character behind it there: both policies give the word. -/
theorem word_now (c : LiveCfg) (p : Policy) (polls rounds : Nat) (s : LS) (white word rest : List Ch) (d : Ch)
    (hg : s.ios.good = true) (hc : s.live.toCome = []) (hh : s.live.here = white ++ word ++ d :: rest)
    (ht : Spec.Tellable c s.live.here) (hwhite : ∀ x ∈ white, Spec.White x) (hword : ∀ x ∈ word, ¬ Spec.White x) (hne : word ≠ [])
    (hd : Spec.White d) (hr : s.live.here.length ≤ rounds) :
    LS.word c p (polls + 1) rounds s =
      some (⟨⟨word.reverse ++ (white.reverse ++ s.live.past), d :: rest, [], s.live.ends⟩, s.ios⟩, word) := by
  obtain ⟨⟨past, here, toCome, e⟩, i⟩ := s
  simp only at hg hc hh ht hr ⊢
  subst hc hh
  have hlen : white.length + word.length < rounds := by simp at hr; omega
  obtain ⟨y, q, rfl⟩ := List.exists_cons_of_ne_nil hne
  unfold LS.word
  rw [List.append_assoc, ws_now c p polls ((y :: q) ++ d :: rest) e i hg (by simp)
    (by intro x r hx; simp only [List.cons_append, List.cons.injEq] at hx; rw [← hx.1]; exact hword y (by simp)) white rounds past hwhite
    (fun z hz => ht z (by simp [hz])) (by simp at hlen; omega)]
  simp only
  obtain ⟨k, hk⟩ : ∃ k, rounds = (y :: q).length + (k + 1) := ⟨rounds - (y :: q).length - 1, by simp at hlen ⊢; omega⟩
  rw [hk, doInput_now c p polls (d :: rest) e i hg (y :: q) (k + 1) _ [] hword
    (fun z hz => ht z (List.mem_append_left _ (List.mem_append_right _ hz))), LS.doInput, peek_now c p polls _ d rest e i hg]
  have hdt := ht d (by simp)
  simp only [if_neg hdt, isSpace_code, (isSpace_iff d).mpr hd, if_true, List.nil_append]

/-! ## The non-blocking policy -/

theorem ws_polls (c : LiveCfg) (k : Nat) : ∀ (s : LS), s.ws c .nonBlocking 0 k = s.ws c .nonBlocking 1 k := by
  induction k with
  | zero => intro s; rfl
  | succ k ih =>
    intro s
    rw [LS.ws, LS.ws, show s.peek c .nonBlocking 0 = s.peek c .nonBlocking 1 from by unfold LS.peek; rfl]; simp only [ih]

theorem doInput_polls (c : LiveCfg) (k : Nat) : ∀ (s : LS) (v : List Ch),
    s.doInput c .nonBlocking 0 k v = s.doInput c .nonBlocking 1 k v := by
  induction k with
  | zero => intro s v; rfl
  | succ k ih =>
    intro s v
    rw [LS.doInput, LS.doInput, show s.peek c .nonBlocking 0 = s.peek c .nonBlocking 1 from by unfold LS.peek; rfl]; simp only [ih]

theorem word_polls (c : LiveCfg) (k : Nat) (s : LS) : s.word c .nonBlocking 0 k = s.word c .nonBlocking 1 k := by
  unfold LS.word
  rw [ws_polls]
  simp only [doInput_polls]

/-- C87, non-blocking, nothing arriving during the attempt: a word followed by white space is read. -/
theorem nonblocking_word (c : LiveCfg) (rounds : Nat) (s : LS) (white word rest : List Ch) (d : Ch)
    (hg : s.ios.good = true) (hc : s.live.toCome = []) (hh : s.live.here = white ++ word ++ d :: rest)
    (ht : Spec.Tellable c s.live.here) (hwhite : ∀ x ∈ white, Spec.White x) (hword : ∀ x ∈ word, ¬ Spec.White x) (hne : word ≠ [])
    (hd : Spec.White d) (hr : s.live.here.length ≤ rounds) :
    ∃ s', LS.word c .nonBlocking 0 rounds s = some (s', word) ∧ s'.ios = s.ios ∧ s'.live.here = d :: rest ∧ s'.live.toCome = [] ∧
      s'.live.ends = s.live.ends := by
  rw [word_polls, word_now c .nonBlocking 0 rounds s white word rest d hg hc hh ht hwhite hword hne hd hr]
  exact ⟨_, rfl, rfl, rfl, rfl, rfl⟩

/-- where a word ends for want of characters, the outcome is that of `inputEnd` -/
theorem word_open (c : LiveCfg) (rounds : Nat) (s : LS) (white word : List Ch)
    (hg : s.ios.good = true) (hc : s.live.toCome = []) (hh : s.live.here = white ++ word)
    (ht : Spec.Tellable c s.live.here) (hwhite : ∀ x ∈ white, Spec.White x) (hword : ∀ x ∈ word, ¬ Spec.White x)
    (hr : s.live.here.length < rounds) :
    LS.word c .nonBlocking 0 rounds s =
      some (LS.inputEnd c .nonBlocking ⟨⟨word.reverse ++ (white.reverse ++ s.live.past), [], [], s.live.ends⟩, s.ios⟩ word, word) := by
  rw [word_polls]
  obtain ⟨⟨past, here, toCome, e⟩, i⟩ := s
  simp only at hg hc hh ht hr ⊢
  subst hc hh
  have hlen : white.length + word.length < rounds := by simp at hr; omega
  unfold LS.word
  rw [ws_now c .nonBlocking 0 word e i hg (fun _ => rfl)
    (by intro x r hx; exact hword x (by rw [hx]; simp)) white rounds past hwhite (fun z hz => ht z (by simp [hz])) (by omega)]
  simp only
  obtain ⟨k, hk⟩ : ∃ k, rounds = word.length + (k + 1) := ⟨rounds - word.length - 1, by omega⟩
  have := doInput_now c .nonBlocking 0 [] e i hg word (k + 1) (white.reverse ++ past) [] hword (fun z hz => ht z (by simp [hz]))
  rw [List.append_nil, List.nil_append] at this
  rw [hk, this, LS.doInput]
  unfold LS.peek
  rw [if_pos hg]
  simp [Live.sgetc, Live.tick, LiveCfg.shown]

/-- C87, non-blocking, nothing arriving during the attempt: if the characters run out before the word ends, only `nodatabit`
is set, the characters of the word are put back, and the white space in front is gone; the string has what there was
of the word. -/
theorem nonblocking_nodata (c : LiveCfg) (rounds : Nat) (s : LS) (white word : List Ch)
    (hg : s.ios.good = true) (hc : s.live.toCome = []) (he : s.live.ends = false) (hh : s.live.here = white ++ word)
    (ht : Spec.Tellable c s.live.here) (hwhite : ∀ x ∈ white, Spec.White x) (hword : ∀ x ∈ word, ¬ Spec.White x)
    (hr : s.live.here.length < rounds) :
    ∃ s', LS.word c .nonBlocking 0 rounds s = some (s', word) ∧ s'.ios = { s.ios with state := nodatabit } ∧
      s'.live.here = word ∧ s'.live.toCome = [] ∧ s'.live.ends = false := by
  have h := word_open c rounds s white word hg hc hh ht hwhite hword hr
  rw [he] at h
  have e : LS.inputEnd c .nonBlocking ⟨⟨word.reverse ++ (white.reverse ++ s.live.past), [], [], false⟩, s.ios⟩ word =
      ⟨⟨white.reverse ++ s.live.past, word, [], false⟩, s.ios.setstate c.ios nodatabit⟩ := by
    have hb := backOff_now false word.reverse (white.reverse ++ s.live.past) []
    simp only [List.length_reverse, List.reverse_reverse, List.append_nil] at hb
    unfold LS.inputEnd LS.onNodata
    simp only [Live.inAvail, Live.tick, Bool.false_eq_true, false_and, if_false, if_true, hb]
  rw [e] at h
  refine ⟨_, h, ?_, rfl, rfl, rfl⟩
  have hz : s.ios.state = 0 := by simpa [Ios.good, Ios.rdstate, goodbit] using hg
  unfold Ios.setstate
  simp only [hz]
  congr 1
  unfold IosCfg.truncState
  split <;> decide

/-- C87, non-blocking: where the text has ended, the last word is given with `eofbit`; without a word there is `failbit`
too. -/
theorem nonblocking_end (c : LiveCfg) (rounds : Nat) (s : LS) (white word : List Ch)
    (hg : s.ios.good = true) (hc : s.live.toCome = []) (he : s.live.ends = true) (hh : s.live.here = white ++ word)
    (ht : Spec.Tellable c s.live.here) (hwhite : ∀ x ∈ white, Spec.White x) (hword : ∀ x ∈ word, ¬ Spec.White x)
    (hr : s.live.here.length < rounds) :
    ∃ s', LS.word c .nonBlocking 0 rounds s = some (s', word) ∧ s'.ios.state = (if word = [] then failbit ||| eofbit else eofbit) ∧
      s'.live.here = [] := by
  have h := word_open c rounds s white word hg hc hh ht hwhite hword hr
  rw [he] at h
  refine ⟨_, h, ?_, ?_⟩
  · unfold LS.inputEnd
    have hz : s.ios.state = 0 := by simpa [Ios.good, Ios.rdstate, goodbit] using hg
    simp only [Live.inAvail, Live.tick, and_self, if_true]
    rw [if_neg (by decide)]
    by_cases hw : word = []
    · simp only [hw, if_true, LS.setstate, Ios.setstate, hz, IosCfg.truncState]
      split <;> decide
    · simp only [hw, if_false, LS.setstate, Ios.setstate, hz, IosCfg.truncState]
      split <;> decide
  · unfold LS.inputEnd
    simp only [Live.inAvail, Live.tick, and_self, if_true]
    rw [if_neg (by decide)]
    split <;> rfl

/-- C87, non-blocking: a program that makes the attempt again after each arrival, with `clear()` in between, gets the first
word, however the text is cut up by the arrivals; what follows the word is not touched. -/
theorem nonblocking_retry (c : LiveCfg) (rounds : Nat) (word rest : List Ch) (d : Ch) (hword : ∀ x ∈ word, ¬ Spec.White x)
    (hne : word ≠ []) (hd : Spec.White d) (chunks : List (List Ch)) : ∀ (s : LS) (white : List Ch),
    s.ios.good = true → s.live.toCome = [] → s.live.ends = false → chunks ≠ [] →
    s.live.here ++ chunks.flatten = white ++ word ++ d :: rest → Spec.Tellable c (white ++ word ++ d :: rest) →
    (∀ x ∈ white, Spec.White x) → (white ++ word ++ d :: rest).length < rounds →
    ∃ s' left, LS.retry c rounds chunks s = some (s', word, left) ∧ s'.ios = s.ios ∧ s'.live.here ++ left.flatten = d :: rest := by
  induction chunks with
  | nil => intro _ _ _ _ _ h; exact absurd rfl h
  | cons a as ih =>
    intro s white hg hc he _ htext ht hwhite hr
    rw [List.flatten_cons, ← List.append_assoc] at htext
    have hlen := congrArg List.length htext
    simp only [List.length_append, List.length_cons] at hlen hr
    have hz : s.ios.state = 0 := by simpa [Ios.good, Ios.rdstate, goodbit] using hg
    have htl : Spec.Tellable c (s.live.here ++ a) := fun z hz => ht z (by rw [← htext]; exact List.mem_append_left _ hz)
    -- an attempt that runs out of data
    have again : ∀ (w1 w2 v : List Ch), s.live.here ++ a = w1 ++ v → (∀ x ∈ w1, Spec.White x) → (∀ x ∈ v, ¬ Spec.White x) →
        v ++ as.flatten = w2 ++ word ++ d :: rest → (∀ x ∈ w2, Spec.White x) → w2.length ≤ white.length → v.length < (w2 ++ word ++ d :: rest).length →
        Spec.Tellable c w2 →
        ∃ s' left, LS.retry c rounds (a :: as) s = some (s', word, left) ∧ s'.ios = s.ios ∧ s'.live.here ++ left.flatten = d :: rest := by
      intro w1 w2 v h1 h2 h3 h4 h5 h6 h7 h8
      obtain ⟨s1, r1, r2, r3, r4, r5⟩ := nonblocking_nodata c rounds ⟨{ s.live with here := s.live.here ++ a }, s.ios⟩ w1 v hg hc he h1 htl
        h2 h3 (by simp; omega)
      have hn : s1.ios.rdstate &&& nodatabit ≠ 0 := by rw [Ios.rdstate, r2]; show nodatabit &&& nodatabit ≠ 0; decide
      have hcl : s1.ios.clear c.ios goodbit = s.ios := by
        unfold Ios.clear
        rw [r2]
        have : c.ios.truncState goodbit = s.ios.state := by rw [hz]; unfold IosCfg.truncState; split <;> decide
        simp only [this]
      have has : as ≠ [] := by
        intro h; subst h
        have := congrArg List.length h4
        simp only [List.flatten_nil, List.append_nil] at this
        omega
      obtain ⟨s', left, i1, i2, i3⟩ := ih ⟨s1.live, s1.ios.clear c.ios goodbit⟩ w2 (by rw [hcl]; exact hg) r4 r5 has
        (by simp only; rw [r3]; exact h4) (by
          intro z hz
          rw [List.append_assoc, List.mem_append] at hz
          rcases hz with hz | hz
          · exact h8 z hz
          · exact ht z (by rw [List.append_assoc]; exact List.mem_append_right _ hz)) h5 (by simp; omega)
      refine ⟨s', left, ?_, by rw [i2, hcl], i3⟩
      rw [LS.retry, r1]
      simp only
      rw [if_pos hn]
      exact i1
    by_cases hfull : (white ++ word).length < (s.live.here ++ a).length
    · -- the word and what ends it have arrived
      have hp : ∃ r', s.live.here ++ a = white ++ word ++ d :: r' ∧ r' ++ as.flatten = rest := by
        have h1 := congrArg (List.take (s.live.here ++ a).length) htext
        rw [List.take_left] at h1
        have h2 := congrArg (List.drop (s.live.here ++ a).length) htext
        rw [List.drop_left] at h2
        obtain ⟨n, hn⟩ : ∃ n, (s.live.here ++ a).length = (white ++ word).length + (n + 1) :=
          ⟨(s.live.here ++ a).length - (white ++ word).length - 1, by omega⟩
        rw [hn, List.take_length_add_append, List.take_succ_cons] at h1
        rw [hn, List.drop_length_add_append, List.drop_succ_cons] at h2
        exact ⟨rest.take n, h1, by rw [h2, List.take_append_drop]⟩
      obtain ⟨r', hp, hp2⟩ := hp
      obtain ⟨s', q1, q2, q3, _, _⟩ := nonblocking_word c rounds ⟨{ s.live with here := s.live.here ++ a }, s.ios⟩ white word r' d hg hc hp htl
        hwhite hword hne hd (by simp; omega)
      refine ⟨s', as, ?_, q2, ?_⟩
      · rw [LS.retry, q1]
        simp only
        rw [if_neg (by rw [q2, Ios.rdstate, hz]; decide)]
      · rw [q3, ← hp2]; rfl
    · have hpre := List.append_eq_append_iff.mp htext
      rcases hpre with ⟨m, h1, h2⟩ | ⟨m, h1, h2⟩
      · -- what has arrived is an initial part of white ++ word
        rcases List.append_eq_append_iff.mp h1 with ⟨m2, g1, g2⟩ | ⟨m2, g1, g2⟩
        · exact again white [] m2 g1 hwhite (fun x hx => hword x (by rw [g2]; exact List.mem_append_left _ hx))
            (by rw [h2, g2]; simp) (by simp) (by simp) (by rw [g2]; simp; omega) (by intro z hz; cases hz)
        · exact again (s.live.here ++ a) m2 [] (by simp) (fun x hx => hwhite x (by rw [g1]; exact List.mem_append_left _ hx))
            (by simp) (by rw [List.nil_append, h2, g2]) (fun x hx => hwhite x (by rw [g1]; exact List.mem_append_right _ hx))
            (by rw [g1]; simp; omega) (by simp; omega) (fun z hz => ht z (by rw [g1]; simp [hz]))
      · cases m with
        | nil =>
          rw [List.append_nil] at h1
          rw [List.nil_append] at h2
          exact again white [] word h1 hwhite hword (by rw [← h2]; simp) (by simp) (by simp) (by simp) (by intro z hz; cases hz)
        | cons x m => exact absurd (by rw [h1]; simp) hfull

example : LS.retry ⟨⟨true, true⟩, false, ⟨true⟩⟩ 20 [[0x20, 0x61], [], [0x62, 0x63], [0x0A, 0x64], [0x65]] ⟨⟨[], [], [], false⟩, Ios.init⟩ =
    some (⟨⟨[0x63, 0x62, 0x61, 0x20], [0x0A, 0x64], [], false⟩, Ios.init⟩, [0x61, 0x62, 0x63], [[0x65]]) := by decide +kernel

/-! ## Where the policies fail -/

example :
    let c : LiveCfg := ⟨⟨true, true⟩, true, ⟨true⟩⟩
    Spec.Quiet 11 [[0x33, 0x20]] ⟨[], [0x31, 0x32], List.replicate 12 [] ++ [[0x33, 0x20]], false⟩ ∧
    (LS.extractInt c .blocking 9 20 false ⟨true, 2147483647⟩ ⟨⟨[], [0x31, 0x32], List.replicate 12 [] ++ [[0x33, 0x20]], false⟩, Ios.init⟩ 7).map
      (fun r => (r.2, r.1.ios.state)) = some (12, 0) ∧
    (LS.extractInt c .blocking 9 20 false ⟨true, 2147483647⟩ ⟨⟨[], [], [[], [0x20], [0x20, 0x31, 0x32, 0x33, 0x20]], false⟩, Ios.init⟩ 7).map
      (fun r => (r.2, r.1.ios.state, r.1.live.here)) = some (123, 0, [0x20]) := by
  refine ⟨⟨12, by omega, rfl⟩, ?_, ?_⟩ <;> decide +kernel

example :
    let c : LiveCfg := ⟨⟨true, true⟩, true, ⟨true⟩⟩
    (LS.extractInt c .blocking 9 20 false ⟨true, 2147483647⟩ ⟨⟨[], [0x20], [[], [0x78, 0x31]], false⟩, Ios.init⟩ 7).map
      (fun r => (r.2, r.1.ios.state, r.1.live.here)) = some (0, failbit, [0x78, 0x31]) ∧
    (LS.extractInt c .blocking 9 20 false ⟨true, 2147483647⟩ ⟨⟨[], [0x2D, 0x31, 0x32], [], true⟩, Ios.init⟩ 7).map
      (fun r => (r.2, r.1.ios.state, r.1.live.here)) = some (-12, eofbit, []) ∧
    (LS.extractInt c .blocking 9 20 false ⟨true, 2147483647⟩ ⟨⟨[], [], [[0x31, 0x20]], false⟩, { Ios.init with flags := 0 }⟩ 7).map
      (fun r => (r.2, r.1.ios.state)) = some (7, failbit) := by decide +kernel

/-- **Violation.** The integer read from a blocking stream depends on when the characters arrive: "123 " in two pieces is
12 and then 3. -/
theorem blocking_int_schedule_error : ∃ (c : LiveCfg) (s1 s2 : LS), Spec.unread s1 = Spec.unread s2 ∧ s1.ios = s2.ios ∧
    (s1.extractInt c .blocking 9 20 false ⟨true, 2147483647⟩ 7).map (·.2) = some 123 ∧
    (s2.extractInt c .blocking 9 20 false ⟨true, 2147483647⟩ 7).map (·.2) = some 12 := by
  refine ⟨⟨⟨true, true⟩, true, ⟨true⟩⟩, ⟨⟨[], [0x31, 0x32, 0x33, 0x20], [], false⟩, Ios.init⟩,
    ⟨⟨[], [0x31, 0x32], List.replicate 12 [] ++ [[0x33, 0x20]], false⟩, Ios.init⟩, ?_⟩
  decide +kernel

/-- **Violation.** `get()` does not wait on a blocking stream: with nothing there it sets `failbit` and `eofbit`, whatever
is to come. -/
theorem blocking_get_error (c : LiveCfg) (past : List Ch) (later : List (List Ch)) (e : Bool) (i : Ios) :
    (LS.get c ⟨⟨past, [], [] :: later, e⟩, i⟩).2 = eofCode ∧
    (LS.get c ⟨⟨past, [], [] :: later, e⟩, i⟩).1.ios = i.setstate c.ios (failbit ||| eofbit) ∧
    Spec.unread (LS.get c ⟨⟨past, [], [] :: later, e⟩, i⟩).1 = later.flatten := by
  have hb : (Live.sbumpc c ⟨past, [], [] :: later, e⟩) = (⟨past, [], later, e⟩, eofCode) := by
    unfold Live.sbumpc
    simp [Live.tick, LiveCfg.shown, Live.take1]
  unfold LS.get
  simp [hb, LS.setstate, Spec.unread]

/-- **Violation.** On a non-blocking stream, characters that arrive between `peek()` and `in_avail()` make the word end
there, with `eofbit`, although the text goes on: for every word and whatever arrives. -/
theorem nonblocking_race_error (c : LiveCfg) (past v a : List Ch) (later : List (List Ch)) (i : Ios) (hv : v ≠ []) (ha : a ≠ [])
    (hg : i.good = true) (k : Nat) :
    ∃ s', LS.doInput c .nonBlocking 0 (k + 1) ⟨⟨past, [], [] :: a :: later, false⟩, i⟩ v = some (s', v) ∧
      s'.ios = i.setstate c.ios eofbit ∧ Spec.unread s' = a ++ later.flatten := by
  refine ⟨⟨⟨past, a, later, false⟩, i.setstate c.ios eofbit⟩, ?_, rfl, rfl⟩
  rw [LS.doInput]
  unfold LS.peek
  rw [if_pos hg]
  simp only [Live.sgetc, Live.tick, LiveCfg.shown, List.append_nil, if_true]
  unfold LS.inputEnd
  simp only [Live.inAvail, Live.tick, List.nil_append, ha, hv, if_false]
  rw [if_neg (by have := List.length_pos_iff.mpr ha; simp; omega)]
  rfl

/-- **Violation.** After `nodatabit` the program has to call `clear()`: without it the next attempt sees nothing, and adds
`failbit` and `eofbit` although characters are there. -/
theorem nonblocking_again_error (c : LiveCfg) (s : LS) (rounds : Nat) (hc : s.live.toCome = []) (hh : s.live.here ≠ [])
    (hb : s.ios.good = false) :
    LS.word c .nonBlocking 0 (rounds + 1) s = some (⟨s.live, s.ios.setstate c.ios (failbit ||| eofbit)⟩, []) := by
  obtain ⟨⟨past, here, toCome, e⟩, i⟩ := s
  simp only at hc hh hb ⊢
  subst hc
  have hp : LS.peek c .nonBlocking 0 ⟨⟨past, here, [], e⟩, i⟩ = some (⟨⟨past, here, [], e⟩, i⟩, eofCode) := by
    unfold LS.peek; rw [if_neg (by simp [hb])]
  unfold LS.word
  rw [LS.ws, hp]
  simp only [isSpace_eofCode, Bool.false_eq_true, if_false]
  rw [LS.doInput, hp]
  simp only [if_true]
  unfold LS.inputEnd
  simp only [Live.inAvail, Live.tick, hh, if_false]
  rw [if_neg (by have := List.length_pos_iff.mpr hh; simp; omega)]
  simp [LS.setstate, setstate_setstate]

/-- **Violation.** Where a character is shown as end of file (0xFF with a signed `char` and the library's own traits), a word
ends in front of it with `eofbit`, and the character is never taken: both policies. -/
theorem word_at_ff_error (c : LiveCfg) (polls rounds : Nat) (past word rest : List Ch) (x : Ch) (e : Bool) (i : Ios)
    (hg : i.good = true) (hx : c.code x = eofCode) (ht : Spec.Tellable c word) (hword : ∀ x ∈ word, ¬ Spec.White x) (hne : word ≠ [])
    (hr : word.length < rounds) (p : Policy) :
    LS.word c p (polls + 1) rounds ⟨⟨past, word ++ x :: rest, [], e⟩, i⟩ =
      some (⟨⟨word.reverse ++ past, x :: rest, [], e⟩, i.setstate c.ios eofbit⟩, word) := by
  obtain ⟨y, q, rfl⟩ := List.exists_cons_of_ne_nil hne
  have hws := ws_now c p polls ((y :: q) ++ x :: rest) e i hg (by simp)
    (by intro z r hz; simp only [List.cons_append, List.cons.injEq] at hz; rw [← hz.1]; exact hword y (by simp)) [] rounds past (by simp)
    (by intro z hz; cases hz) (by simp at hr ⊢; omega)
  simp only [List.nil_append, List.reverse_nil] at hws
  unfold LS.word
  rw [hws]
  simp only
  obtain ⟨k, hk⟩ : ∃ k, rounds = (y :: q).length + (k + 1) := ⟨rounds - (y :: q).length - 1, by omega⟩
  rw [hk, doInput_now c p polls (x :: rest) e i hg (y :: q) (k + 1) _ [] hword ht, LS.doInput, peek_now c p polls _ x rest e i hg]
  simp only [if_pos hx, List.nil_append]
  unfold LS.inputEnd
  cases p with
  | nonBlocking =>
    simp only [Live.inAvail, Live.tick]
    rw [if_neg (by simp; omega)]
    simp [LS.setstate]
  | blocking => simp [LS.setstate]

example : LiveCfg.code ⟨⟨true, true⟩, false, ⟨true⟩⟩ 0xFF = eofCode := by decide

end Verif.Streams
