import Verif.Streams.LiveProps

/-!
# C87, continued: numbers, single characters, the non-blocking policy
-/
namespace Verif.Streams
open Verif Verif.DynArray

/-! ## Numbers on a blocking stream -/

/-- what holds of the buffer and is kept by arrivals and by taking white space holds after `in >> ws` -/
theorem waitGet_keeps (c : LiveCfg) (P : Live → Prop) (htick : ∀ w, P w → P w.tick) (k : Nat) :
    ∀ (w w' : Live) (v : Int), P w → w.waitGet c k = some (w', v) → P w' := by
  induction k with
  | zero => intro w w' v _ h; simp [Live.waitGet] at h
  | succ k ih =>
    intro w w' v hP h
    rw [Live.waitGet] at h
    split at h
    · cases h; exact htick _ hP
    · split at h
      · exact ih _ _ _ (htick _ hP) h
      · simp only [Option.some.injEq] at h
        have : w' = w.tick.tick := by
          have := congrArg Prod.fst h
          exact this.symm
        rw [this]; exact htick _ (htick _ hP)

theorem ws_keeps (c : LiveCfg) (P : Live → Prop) (htick : ∀ w, P w → P w.tick)
    (htake : ∀ w x r, P w → w.here = x :: r → Spec.White x → P { w with past := x :: w.past, here := r })
    (polls k : Nat) : ∀ (s s' : LS), P s.live → s.ios.good = true → Spec.Tellable c s.live.all →
    s.ws c .blocking polls k = some s' → P s'.live := by
  induction k with
  | zero => intro s s' _ _ _ h; simp [LS.ws] at h
  | succ k ih =>
    intro s s' hP hg ht h
    rw [LS.ws] at h
    cases hp : s.peek c .blocking polls with
    | none => rw [hp] at h; cases h
    | some q =>
      obtain ⟨s1, v⟩ := q
      rw [hp] at h
      simp only at h
      obtain ⟨p1, p2, p3, p4, p5, p6⟩ := peek_result c polls s s1 v hg hp
      have hP1 : P s1.live := by
        unfold LS.peek at hp
        rw [if_pos hg] at hp
        simp only [Option.map_eq_some_iff] at hp
        obtain ⟨⟨w, v'⟩, h1, h2⟩ := hp
        simp only [Prod.mk.injEq] at h2
        obtain ⟨rfl, rfl⟩ := h2
        exact waitGet_keeps c P htick _ _ _ _ hP h1
      rcases p6 with ⟨x, r, hx, rfl⟩ | ⟨e1, e2, e3, e4, rfl⟩
      · rw [isSpace_code] at h
        have hm : c.code x ≠ eofCode := ht x (by rw [← p2, all_cons hx]; simp)
        by_cases hs : isSpace x = true
        · rw [if_pos hs, ignore1_here c s1 x r hx hm] at h
          obtain ⟨b1, b2, b3, b4, b5, b6, b7⟩ := sbumpc_here c s1.live x r hx hm
          refine ih _ _ ?_ (by simp only; rw [p1]; exact hg) (Tellable.of_suffix (pre := [x]) ht (by rw [← p2, ← b5]; rfl)) h
          obtain ⟨t1, t2, t3, t4, more, t5⟩ := tick_facts s1.live
          have hh : s1.live.tick.here = x :: (r ++ more) := by rw [t5, hx]; rfl
          have e : (s1.live.sbumpc c).1 = { s1.live.tick with past := x :: s1.live.tick.past, here := r ++ more } := by
            unfold Live.sbumpc
            rw [if_neg (by rw [hh]; intro hc; exact hm hc.2)]
            unfold Live.take1
            rw [hh]
          simp only
          rw [e]
          exact htake _ _ _ (htick _ hP1) hh ((isSpace_iff x).mp hs)
        · rw [if_neg hs] at h; cases h; exact hP1
      · rw [isSpace_eofCode] at h
        simp only [Bool.false_eq_true, if_false, Option.some.injEq] at h
        subst h
        exact hP1

/-- the loop over characters that are there stops where the digit machine does -/
theorem number_here (c : LiveCfg) (t : Charconv.IntTy) (base : Nat) : ∀ (l e : List Ch) (k : Nat) (w : Live)
    (st st' : Charconv.NumState) (n : Nat), w.here = l ++ e → Spec.Tellable c l →
    Charconv.numLoop t base st 0 (l.map BitVec.toNat) = (st', n, false) → l.length < k →
    ∃ w', w.number c t base k false st = some (w', st', false) ∧ w'.all = w.all.drop n ∧ w'.ends = w.ends := by
  intro l
  induction l with
  | nil => intro e k w st st' n _ _ h; simp [Charconv.numLoop] at h
  | cons x r ih =>
    intro e k w st st' n hh ht hn hk
    cases k with
    | zero => omega
    | succ k =>
      obtain ⟨t1, t2, t3, t4, more, t5⟩ := tick_facts w
      have hs : (w.sgetc c) = (w.tick, c.code x) := by
        unfold Live.sgetc; rw [t5, hh]; rfl
      rw [Live.number]
      simp only [Bool.false_eq_true, if_false, hs, toChar_code]
      simp only [List.map_cons, Charconv.numLoop] at hn
      obtain ⟨⟨s2, d⟩, hst⟩ : ∃ p, Charconv.numStep t base st x.toNat = p := ⟨_, rfl⟩
      rw [hst] at hn ⊢
      cases d with
      | true =>
        simp only [Prod.mk.injEq] at hn
        obtain ⟨rfl, rfl, _⟩ := hn
        exact ⟨_, rfl, by simp [t1], t3⟩
      | false =>
        simp only at hn ⊢
        have hx : c.code x ≠ eofCode := ht x (by simp)
        have hth : w.tick.here = x :: (r ++ e ++ more) := by rw [t5, hh]; simp
        obtain ⟨b1, b2, b3, b4, b5, ⟨more2, b6⟩, b7⟩ := sbumpc_here c w.tick x _ hth hx
        obtain ⟨u1, u2, u3, u4, more3, u5⟩ := tick_facts (w.tick.sbumpc c).1
        cases r with
        | nil => simp [Charconv.numLoop] at hn
        | cons y r =>
          have hsn : w.tick.snextc c = ((w.tick.sbumpc c).1.tick, c.code y) := by
            unfold Live.snextc
            rw [b1, if_neg hx]
            unfold Live.sgetc
            rw [u5, b6]; rfl
          have hy : c.code y ≠ eofCode := ht y (by simp)
          rw [hsn]
          simp only [if_neg hy]
          rw [numLoop_shift] at hn
          simp only [Prod.mk.injEq] at hn
          obtain ⟨n1, n2, n3⟩ := hn
          obtain ⟨w', i1, i2, i3⟩ := ih (e ++ more ++ more2 ++ more3) k (w.tick.sbumpc c).1.tick s2 st' _
            (by rw [u5, b6]; simp) (fun z hz => ht z (List.mem_cons_of_mem _ hz))
            (Prod.ext n1 (Prod.ext rfl n3)) (by simp at hk ⊢; omega)
          refine ⟨w', i1, ?_, by rw [i3, u3, b3, t3]⟩
          rw [i2, u1, ← t1, ← b5, ← n2, Nat.zero_add, Nat.add_comm, List.drop_succ_cons]

theorem digit_tellable (c : LiveCfg) {base : Nat} {x : Ch} (h : (Charconv.Spec.digit base x.toNat).isSome = true) : c.code x ≠ eofCode := by
  intro he
  have := toChar_code c x
  rw [he] at this
  have e : x = 0xFF := by rw [← this]; decide
  subst e
  simp [Charconv.Spec.digit, Charconv.Spec.digitVal] at h

/-- C87, blocking: `in >> v` waits for the first character of a numeral, and gives its value if the numeral and the
character behind it are all there when that character is: `pre` are the arrivals of white space in front (the characters
already there count as the first arrival), `chunk` the arrival with the numeral.
Missing: a numeral that arrives in pieces (`blocking_int_cut`). -/
theorem blocking_int_partial (c : LiveCfg) (polls rounds : Nat) (octal : Bool) (t : Charconv.IntTy) (base : Nat) (s : LS)
    (value v : Int) (hg : s.ios.good = true) (hb : baseOf octal t.signed s.ios.flags = some base)
    (ht : Spec.Tellable c (Spec.unread s)) (pre post : List (List Ch)) (white numeral more : List Ch) (d : Ch)
    (harr : s.live.here :: s.live.toCome = pre ++ (white ++ numeral ++ d :: more) :: post)
    (hpre : ∀ x ∈ pre.flatten, Spec.White x) (hwhite : ∀ x ∈ white, Spec.White x)
    (hnum : Spec.Numeral t base v numeral) (hd : (Charconv.Spec.digit base d.toNat).isSome = false)
    (hp : s.live.toCome.length < polls) (hr : (Spec.unread s).length < rounds) :
    ∃ s', s.extractInt c .blocking polls rounds octal t value = some (s', v) ∧
      Spec.unread s' = d :: more ++ post.flatten ∧ s'.ios = s.ios := by
  have hparse := hnum (d :: more) (by intro x r he; cases he; exact hd)
  have hne := numeral_ne_nil hnum
  obtain ⟨y, q, rfl⟩ := List.exists_cons_of_ne_nil hne
  have hy : ¬ Spec.White y := parse_ok_not_white hparse y _ rfl
  have hun : Spec.unread s = pre.flatten ++ white ++ ((y :: q) ++ d :: more) ++ post.flatten := by
    have := congrArg List.flatten harr
    simp only [List.flatten_cons, List.flatten_append] at this
    rw [unread_eq, Live.all, this]; simp
  obtain ⟨s1, h1⟩ := ws_returns c polls rounds s hg ht hp hr (.inl ⟨y, by rw [← unread_eq, hun]; simp, hy⟩)
  obtain ⟨wh, w1, w2, w3, w4, w5, w6⟩ := ws_result c polls rounds s s1 hg ht h1
  -- the numeral is there as soon as its first character is
  let P : Live → Prop := fun w =>
    (∃ a b, w.here = a ++ ((y :: q) ++ d :: more) ++ b ∧ ∀ x ∈ a, Spec.White x) ∨
    ((∀ x ∈ w.here, Spec.White x) ∧ ∃ p b wh', w.toCome = p ++ (wh' ++ ((y :: q) ++ d :: more)) :: b ∧
      (∀ x ∈ p.flatten, Spec.White x) ∧ ∀ x ∈ wh', Spec.White x)
  have htick : ∀ w, P w → P w.tick := by
    intro w hP
    rcases hP with ⟨a, b, e1, e2⟩ | ⟨e0, p, b, wh', e1, e2, e3⟩
    · obtain ⟨_, _, _, _, m, e⟩ := tick_facts w
      exact .inl ⟨a, b ++ m, by rw [e, e1]; simp, e2⟩
    · cases p with
      | nil =>
        left
        refine ⟨w.here ++ wh', [], ?_, ?_⟩
        · unfold Live.tick; rw [e1]; simp
        · intro x hx
          rcases List.mem_append.mp hx with hx | hx
          · exact e0 x hx
          · exact e3 x hx
      | cons p0 p =>
        right
        have : w.tick = { w with here := w.here ++ p0, toCome := p ++ (wh' ++ ((y :: q) ++ d :: more)) :: b } := by
          unfold Live.tick; rw [e1]; simp
        rw [this]
        refine ⟨?_, p, b, wh', rfl, fun x hx => e2 x (by simp at hx ⊢; exact .inr hx), e3⟩
        intro x hx
        rcases List.mem_append.mp hx with hx | hx
        · exact e0 x hx
        · exact e2 x (by simp [hx])
  have htake : ∀ w x r, P w → w.here = x :: r → Spec.White x → P { w with past := x :: w.past, here := r } := by
    intro w x r hP hx hw
    rcases hP with ⟨a, b, e1, e2⟩ | ⟨e0, p, b, wh', e1, e2, e3⟩
    · cases a with
      | nil =>
        rw [e1] at hx
        simp only [List.nil_append, List.cons_append, List.cons.injEq] at hx
        exact absurd (hx.1 ▸ hw) hy
      | cons a0 a =>
        left
        rw [e1] at hx
        simp only [List.cons_append, List.cons.injEq] at hx
        exact ⟨a, b, by simp only; rw [← hx.2]; rfl, fun z hz => e2 z (List.mem_cons_of_mem _ hz)⟩
    · exact .inr ⟨fun z hz => e0 z (by rw [hx]; exact List.mem_cons_of_mem _ hz), p, b, wh', e1, e2, e3⟩
  have hP0 : P s.live := by
    cases pre with
    | nil =>
      simp only [List.nil_append, List.cons.injEq] at harr
      exact .inl ⟨white, [], by rw [harr.1]; simp, hwhite⟩
    | cons p0 p =>
      simp only [List.cons_append, List.cons.injEq] at harr
      refine .inr ⟨fun x hx => hpre x ?_, p, post, white, ?_, fun x hx => hpre x ?_, hwhite⟩
      · rw [harr.1] at hx; simp [hx]
      · rw [harr.2]; simp
      · simp at hx ⊢; exact .inr hx
  have hP1 := ws_keeps c P htick htake polls rounds s s1 hP0 hg ht h1
  have hhere : ∃ b, s1.live.here = ((y :: q) ++ d :: more) ++ b := by
    rcases w6 with ⟨z, r, hz, hz2⟩ | ⟨hz, hz2, _⟩
    · rcases hP1 with ⟨a, b, e1, e2⟩ | ⟨e0, _⟩
      · cases a with
        | nil => exact ⟨b, by rw [e1]; rfl⟩
        | cons a0 a =>
          rw [e1] at hz
          simp only [List.cons_append, List.cons.injEq] at hz
          exact absurd (e2 z (by rw [hz.1]; simp)) hz2
      · exact absurd (e0 z (by rw [hz]; simp)) hz2
    · rcases hP1 with ⟨a, b, e1, e2⟩ | ⟨e0, p, b, wh', e1, e2, e3⟩
      · rw [hz] at e1; simp at e1
      · rw [hz2] at e1; simp at e1
  obtain ⟨b, hb1⟩ := hhere
  -- what is left is the numeral and what follows
  have hall : s1.live.all = (y :: q) ++ (d :: more ++ post.flatten) := by
    have e : wh ++ s1.live.all = (pre.flatten ++ white) ++ ((y :: q) ++ (d :: more ++ post.flatten)) := by
      rw [← w1, ← unread_eq, hun]; simp
    have f := congrArg (fun l => l.dropWhile isSpace) e
    rw [dropWhile_white w2, dropWhile_white (by
      intro x hx
      rcases List.mem_append.mp hx with hx | hx
      · exact hpre x hx
      · exact hwhite x hx)] at f
    have hy' := not_white.mpr hy
    have g1 : s1.live.all.dropWhile isSpace = s1.live.all := by
      rw [Live.all, hb1]; simp [List.dropWhile_cons, hy']
    rw [g1] at f
    rw [f]; simp [List.dropWhile_cons, hy']
  have hb2 := base_bounds hb
  have hget := Charconv.num_get_partial t base (((y :: q) ++ d :: more).map BitVec.toNat) hb2.1 hb2.2 (by
    intro x hm; obtain ⟨z, _, rfl⟩ := List.mem_map.mp hm; exact z.isLt) (parse_ok_supported hparse)
  rw [hparse] at hget
  obtain ⟨st, hst⟩ := hget
  have hlt : decide ((y :: q).length = (((y :: q) ++ d :: more).map BitVec.toNat).length) = false := by simp
  rw [hlt] at hst
  have ht1 : Spec.Tellable c s1.live.all := Tellable.of_suffix ht w1
  have hlen : s1.live.all.length ≤ s.live.all.length := by rw [w1]; simp
  obtain ⟨w', n1, n2, n3⟩ := number_here c t base ((y :: q) ++ d :: more) b rounds s1.live ⟨.start, false, 0⟩ _ _ hb1
    (fun z hz => ht1 z (by rw [Live.all, hb1]; exact List.mem_append_left _ (List.mem_append_left _ hz))) hst (by
      have : ((y :: q) ++ d :: more).length ≤ s1.live.all.length := by rw [hall]; simp
      rw [unread_eq] at hr; omega)
  refine ⟨⟨w', s.ios⟩, ?_, ?_, rfl⟩
  · unfold LS.extractInt
    rw [h1]
    simp only [w3, hb, n1]
    simp only [Bool.false_eq_true, if_false, LS.setstate, BitVec.or_assoc, setstate_rdstate]
    rw [show (0 : BitVec 8) ||| 0 = 0 from rfl, setstate_good hg]
  · rw [unread_eq]
    simp only
    rw [n2, hall]
    simp

/-- nothing arrives for at least `n` calls of the buffer, then `later` -/
def Spec.Quiet (n : Nat) (later : List (List Ch)) (w : Live) : Prop := ∃ m, n ≤ m ∧ w.toCome = List.replicate m [] ++ later

theorem Spec.Quiet.tick {n : Nat} {later : List (List Ch)} {w : Live} (h : Spec.Quiet (n + 1) later w) :
    Spec.Quiet n later w.tick ∧ w.tick.here = w.here ∧ w.tick.past = w.past ∧ w.tick.ends = w.ends := by
  obtain ⟨m, hm, e⟩ := h
  obtain ⟨m, rfl⟩ : ∃ k, m = k + 1 := ⟨m - 1, by omega⟩
  have : w.tick = { w with toCome := List.replicate m [] ++ later } := by
    unfold Live.tick
    rw [e]
    simp [List.replicate_succ]
  rw [this]
  exact ⟨⟨m, by omega, rfl⟩, rfl, rfl, rfl⟩

theorem Spec.Quiet.mono {n k : Nat} {later : List (List Ch)} {w : Live} (h : Spec.Quiet n later w) (hk : k ≤ n) : Spec.Quiet k later w := by
  obtain ⟨m, hm, e⟩ := h
  exact ⟨m, by omega, e⟩

theorem Spec.Quiet.flatten {n : Nat} {later : List (List Ch)} {w : Live} (h : Spec.Quiet n later w) : w.toCome.flatten = later.flatten := by
  obtain ⟨m, hm, e⟩ := h
  rw [e]
  simp

theorem number_quiet (c : LiveCfg) (t : Charconv.IntTy) (base : Nat) (later : List (List Ch)) : ∀ (l : List Ch) (k : Nat) (w : Live)
    (st st' : Charconv.NumState), w.here = l → w.ends = false → Spec.Tellable c l → Spec.Quiet (4 * l.length + 1) later w →
    Charconv.numLoop t base st 0 (l.map BitVec.toNat ++ [255]) = (st', l.length, false) → l.length < k →
    ∃ w', w.number c t base k false st = some (w', st', false) ∧ w'.all = later.flatten := by
  intro l
  induction l with
  | nil =>
    intro k w st st' hh he ht hq hn hk
    cases k with
    | zero => simp at hk
    | succ k =>
      obtain ⟨q1, q2, q3, q4⟩ := Spec.Quiet.tick (n := 0) (hq.mono (by simp))
      have hs : w.sgetc c = (w.tick, eofCode) := by unfold Live.sgetc; rw [q2, hh]; rfl
      rw [Live.number]
      have e255 : (toChar eofCode).toNat = 255 := by decide
      simp only [Bool.false_eq_true, if_false, hs, e255]
      simp only [List.map_nil, List.nil_append, Charconv.numLoop] at hn
      obtain ⟨⟨s2, d⟩, hst⟩ : ∃ p, Charconv.numStep t base st 255 = p := ⟨_, rfl⟩
      rw [hst] at hn ⊢
      cases d with
      | true =>
        simp only [Prod.mk.injEq] at hn
        obtain ⟨rfl, _⟩ := hn
        exact ⟨_, rfl, by rw [Live.all, q2, hh, q1.flatten]; rfl⟩
      | false => simp at hn
  | cons x r ih =>
    intro k w st st' hh he ht hq hn hk
    cases k with
    | zero => omega
    | succ k =>
      have hx : c.code x ≠ eofCode := ht x (by simp)
      obtain ⟨q1, q2, q3, q4⟩ := Spec.Quiet.tick (n := 4 * r.length + 4) (hq.mono (by simp; omega))
      have hs : w.sgetc c = (w.tick, c.code x) := by unfold Live.sgetc; rw [q2, hh]; rfl
      rw [Live.number]
      simp only [Bool.false_eq_true, if_false, hs, toChar_code]
      simp only [List.map_cons, List.cons_append, Charconv.numLoop] at hn
      obtain ⟨⟨s2, d⟩, hst⟩ : ∃ p, Charconv.numStep t base st x.toNat = p := ⟨_, rfl⟩
      rw [hst] at hn ⊢
      cases d with
      | true => simp at hn
      | false =>
        simp only at hn ⊢
        rw [numLoop_shift] at hn
        simp only [Prod.mk.injEq, List.length_cons] at hn
        obtain ⟨n1, n2, n3⟩ := hn
        -- take the character
        obtain ⟨r1, r2, r3, r4⟩ := Spec.Quiet.tick (n := 4 * r.length + 3) q1
        have hb : w.tick.sbumpc c = ({ w.tick.tick with past := x :: w.tick.tick.past, here := r }, c.code x) := by
          have hth : w.tick.tick.here = x :: r := by rw [r2, q2, hh]
          unfold Live.sbumpc
          rw [hth]
          rw [if_neg (by intro hc; exact hx hc.2)]
          unfold Live.take1
          rw [hth]; rfl
        let w2 : Live := { w.tick.tick with past := x :: w.tick.tick.past, here := r }
        have hq2 : Spec.Quiet (4 * r.length + 3) later w2 := r1
        obtain ⟨u1, u2, u3, u4⟩ := Spec.Quiet.tick (n := 4 * r.length + 2) hq2
        have hsn : w.tick.snextc c = (w2.tick, c.shown r) := by
          unfold Live.snextc
          rw [hb]
          simp only [if_neg hx]
          unfold Live.sgetc
          rw [show (({ w.tick.tick with past := x :: w.tick.tick.past, here := r } : Live)) = w2 from rfl, u2]
        rw [hsn]
        have hw2e : w2.ends = false := by show w.tick.tick.ends = false; rw [r4, q4, he]
        cases r with
        | nil =>
          simp only [LiveCfg.shown, if_true]
          obtain ⟨v1, v2, v3, v4⟩ := Spec.Quiet.tick (n := 1) (w := w2.tick) (u1.mono (by simp))
          have hav : w2.tick.inAvail = (w2.tick.tick, 0) := by
            unfold Live.inAvail
            rw [v2, u2, v4, u4, hw2e]; simp [w2]
          rw [hav]
          simp only [show ((0 : Int) = -1) = False from by simp, decide_false]
          obtain ⟨w', i1, i2⟩ := ih k w2.tick.tick s2 st' (by rw [v2, u2]) (by rw [v4, u4, hw2e]) (by intro z hz; cases hz)
            (v1.mono (by simp)) (Prod.ext n1 (Prod.ext (by simp only [List.length_nil] at n2 ⊢; omega) n3)) (by simp at hk ⊢; omega)
          exact ⟨w', i1, i2⟩
        | cons y r =>
          have hy : c.code y ≠ eofCode := ht y (by simp)
          simp only [LiveCfg.shown, if_neg hy]
          obtain ⟨w', i1, i2⟩ := ih k w2.tick s2 st' (by rw [u2]) (by rw [u4, hw2e]) (fun z hz => ht z (List.mem_cons_of_mem _ hz))
            (u1.mono (by simp)) (Prod.ext n1 (Prod.ext (by simp only [List.length_cons] at n2 ⊢; omega) n3)) (by simp at hk ⊢; omega)
          exact ⟨w', (if_neg hy).trans i1, i2⟩

/-- **Violation.** A blocking stream does not wait inside a number: if the first digits are there and no more come for as
long as the extraction takes, `in >> v` gives the number they form, the stream stays good, and the digits that come
later are another number. -/
theorem blocking_int_cut (c : LiveCfg) (polls rounds : Nat) (octal : Bool) (t : Charconv.IntTy) (base : Nat) (s : LS)
    (value v : Int) (hg : s.ios.good = true) (hb : baseOf octal t.signed s.ios.flags = some base) (he : s.live.ends = false)
    (hnum : Spec.Numeral t base v s.live.here) (later : List (List Ch))
    (hq : Spec.Quiet (4 * s.live.here.length + 3) later s.live) (hp : 0 < polls) (hr : s.live.here.length < rounds)
    (ht : Spec.Tellable c s.live.here) :
    ∃ s', s.extractInt c .blocking polls rounds octal t value = some (s', v) ∧ s'.ios = s.ios ∧
      Spec.unread s' = later.flatten := by
  obtain ⟨polls, rfl⟩ : ∃ k, polls = k + 1 := ⟨polls - 1, by omega⟩
  have hparse := hnum [0xFF] (by
    intro x r hx; cases hx; simp [Charconv.Spec.digit, Charconv.Spec.digitVal])
  have hne := numeral_ne_nil hnum
  obtain ⟨y, q, hyq⟩ := List.exists_cons_of_ne_nil hne
  have hy : isSpace y = false := not_white.mpr (parse_ok_not_white hparse y (q ++ [0xFF]) (by rw [hyq]; rfl))
  obtain ⟨a1, a2, a3, a4⟩ := Spec.Quiet.tick (n := 4 * s.live.here.length + 2) hq
  obtain ⟨b1, b2, b3, b4⟩ := Spec.Quiet.tick (n := 4 * s.live.here.length + 1) a1
  have hpeek : s.peek c .blocking (polls + 1) = some (⟨s.live.tick.tick, s.ios⟩, c.code y) := by
    have hav : s.live.inAvail = (s.live.tick, ((q.length + 1 : Nat) : Int)) := by
      unfold Live.inAvail; rw [a2, hyq]; simp
    have hsg : s.live.tick.sgetc c = (s.live.tick.tick, c.code y) := by unfold Live.sgetc; rw [b2, a2, hyq]; rfl
    unfold LS.peek
    rw [if_pos hg]
    simp only [Live.waitGet, hav]
    rw [if_neg (by omega), if_neg (by omega), hsg]
    rfl
  have hws : s.ws c .blocking (polls + 1) rounds = some ⟨s.live.tick.tick, s.ios⟩ := by
    obtain ⟨rounds, rfl⟩ : ∃ k, rounds = k + 1 := ⟨rounds - 1, by omega⟩
    rw [LS.ws, hpeek]
    simp only [toChar_code, hy, Bool.false_eq_true, if_false]
  have hb2 := base_bounds hb
  have hget := Charconv.num_get_partial t base ((s.live.here ++ [0xFF]).map BitVec.toNat) hb2.1 hb2.2 (by
    intro x hm; obtain ⟨z, _, rfl⟩ := List.mem_map.mp hm; exact z.isLt) (parse_ok_supported hparse)
  rw [hparse] at hget
  obtain ⟨st, hst⟩ := hget
  have hlt : decide (s.live.here.length = ((s.live.here ++ [0xFF]).map BitVec.toNat).length) = false := by simp
  rw [hlt] at hst
  obtain ⟨w', n1, n2⟩ := number_quiet c t base later s.live.here rounds s.live.tick.tick ⟨.start, false, 0⟩ _ (by rw [b2, a2])
    (by rw [b4, a4, he]) ht b1 (by
      have : (s.live.here ++ [(0xFF : Ch)]).map BitVec.toNat = s.live.here.map BitVec.toNat ++ [255] := by simp
      rw [← this]; exact hst) hr
  refine ⟨⟨w', s.ios⟩, ?_, rfl, n2⟩
  unfold LS.extractInt
  rw [hws]
  simp only [hb, n1]
  simp only [Bool.false_eq_true, if_false, LS.setstate, BitVec.or_assoc, setstate_rdstate]
  rw [show (0 : BitVec 8) ||| 0 = 0 from rfl, setstate_good hg]

/-- C87, blocking: without a base selected (C62) an integer extraction skips white space, sets `failbit` and stores nothing. -/
theorem blocking_int_no_base (c : LiveCfg) (polls rounds : Nat) (octal : Bool) (t : Charconv.IntTy) (s s' : LS) (value v : Int)
    (hg : s.ios.good = true) (ht : Spec.Tellable c (Spec.unread s)) (hb : baseOf octal t.signed s.ios.flags = none)
    (h : s.extractInt c .blocking polls rounds octal t value = some (s', v)) :
    v = value ∧ s'.ios = s.ios.setstate c.ios failbit := by
  unfold LS.extractInt at h
  cases hw : s.ws c .blocking polls rounds with
  | none => rw [hw] at h; cases h
  | some s1 =>
    obtain ⟨wh, w1, w2, w3, w4, w5, w6⟩ := ws_result c polls rounds s s1 hg ht hw
    rw [hw] at h
    simp only [w3, hb, Option.some.injEq, Prod.mk.injEq] at h
    obtain ⟨rfl, rfl⟩ := h
    exact ⟨rfl, by simp only [LS.setstate, w3, setstate_rdstate]⟩

/-- C87, blocking: where the first character behind the white space cannot begin a number, the extraction waits for it, then
sets `failbit`, stores 0 and leaves the character, whatever the arrivals. -/
theorem blocking_int_junk (c : LiveCfg) (polls rounds : Nat) (octal : Bool) (t : Charconv.IntTy) (base : Nat) (s : LS) (value : Int)
    (hg : s.ios.good = true) (ht : Spec.Tellable c (Spec.unread s)) (hb : baseOf octal t.signed s.ios.flags = some base)
    (white rest : List Ch) (x : Ch) (hu : Spec.unread s = white ++ x :: rest) (hwhite : ∀ z ∈ white, Spec.White z)
    (hx : ¬ Spec.White x) (hd : Charconv.Spec.digit base x.toNat = none) (hm : x ≠ 0x2D)
    (hp : s.live.toCome.length < polls) (hr : (Spec.unread s).length < rounds) :
    ∃ s', s.extractInt c .blocking polls rounds octal t value = some (s', 0) ∧ s'.ios = s.ios.setstate c.ios failbit ∧
      Spec.unread s' = x :: rest := by
  obtain ⟨s1, h1⟩ := ws_returns c polls rounds s hg ht hp hr (.inl ⟨x, by rw [← unread_eq, hu]; simp, hx⟩)
  obtain ⟨wh, w1, w2, w3, w4, w5, w6⟩ := ws_result c polls rounds s s1 hg ht h1
  have hall : s1.live.all = x :: rest ∧ ∃ r, s1.live.here = x :: r := by
    have e : wh ++ s1.live.all = white ++ x :: rest := by rw [← w1, ← unread_eq, hu]
    have f := congrArg (fun l => l.dropWhile isSpace) e
    rw [dropWhile_white w2, dropWhile_white hwhite] at f
    simp only [List.dropWhile_cons, not_white.mpr hx, Bool.false_eq_true, if_false] at f
    rcases w6 with ⟨z, r, hz, hz2⟩ | ⟨hz, hz2, _⟩
    · rw [all_cons hz] at f ⊢
      simp only [List.dropWhile_cons, not_white.mpr hz2, Bool.false_eq_true, if_false] at f
      rw [hz]
      exact ⟨f, r, by rw [(List.cons.inj f).1]⟩
    · rw [Live.all, hz, hz2] at f; simp at f
  obtain ⟨ha, r, hr1⟩ := hall
  obtain ⟨t1, t2, t3, t4, more, t5⟩ := tick_facts s1.live
  have hs : s1.live.sgetc c = (s1.live.tick, c.code x) := by unfold Live.sgetc; rw [t5, hr1]; rfl
  obtain ⟨rounds, rfl⟩ : ∃ k, rounds = k + 1 := ⟨rounds - 1, by omega⟩
  have hb2 := base_bounds hb
  have hst : Charconv.numStep t base ⟨.start, false, 0⟩ x.toNat = (⟨.nomPos, true, 0⟩, true) := by
    have h45 : ¬ (t.signed = true ∧ x.toNat = 45) := fun hc => hm (BitVec.eq_of_toNat_eq hc.2)
    simp only [Charconv.numStep, if_neg h45, Charconv.nominal, Charconv.from_char_spec base _ hb2.1 hb2.2 x.isLt, hd]
  have hnum : s1.live.number c t base (rounds + 1) false ⟨.start, false, 0⟩ = some (s1.live.tick, ⟨.nomPos, true, 0⟩, false) := by
    rw [Live.number]
    simp only [Bool.false_eq_true, if_false, hs, toChar_code, hst]
  refine ⟨⟨s1.live.tick, s.ios.setstate c.ios failbit⟩, ?_, rfl, ?_⟩
  · unfold LS.extractInt
    rw [h1]
    simp only [w3, hb, hnum]
    simp only [if_true, Bool.false_eq_true, if_false, LS.setstate, BitVec.or_assoc, setstate_rdstate]
    rfl
  · rw [unread_eq]; simp only; rw [t1, ha]

theorem number_end (c : LiveCfg) (t : Charconv.IntTy) (base : Nat) : ∀ (l : List Ch) (k : Nat) (past : List Ch)
    (st st' : Charconv.NumState) (n : Nat), l ≠ [] → Spec.Tellable c l →
    Charconv.numLoop t base st 0 (l.map BitVec.toNat) = (st', n, true) → l.length < k →
    ∃ past', Live.number c t base k ⟨past, l, [], true⟩ false st = some (⟨past', [], [], true⟩, st', true) := by
  intro l
  induction l with
  | nil => intro k past st st' n h; exact absurd rfl h
  | cons x r ih =>
    intro k past st st' n _ ht hn hk
    obtain ⟨k, rfl⟩ : ∃ j, k = j + 1 := ⟨k - 1, by omega⟩
    have hx : c.code x ≠ eofCode := ht x (by simp)
    have hs : Live.sgetc c ⟨past, x :: r, [], true⟩ = (⟨past, x :: r, [], true⟩, c.code x) := rfl
    have hb : Live.sbumpc c ⟨past, x :: r, [], true⟩ = (⟨x :: past, r, [], true⟩, c.code x) :=
      Prod.ext (if_neg fun hc => hx hc.2) rfl
    have hsn : Live.snextc c ⟨past, x :: r, [], true⟩ = (⟨x :: past, r, [], true⟩, c.shown r) := by
      unfold Live.snextc; rw [hb]; simp only [if_neg hx]; rfl
    rw [Live.number]
    simp only [Bool.false_eq_true, if_false, hs, toChar_code]
    simp only [List.map_cons, Charconv.numLoop] at hn
    obtain ⟨⟨s2, d⟩, hst⟩ : ∃ p, Charconv.numStep t base st x.toNat = p := ⟨_, rfl⟩
    rw [hst] at hn ⊢
    cases d with
    | true => simp at hn
    | false =>
      simp only at hn ⊢
      rw [numLoop_shift] at hn
      simp only [Prod.mk.injEq] at hn
      obtain ⟨n1, n2, n3⟩ := hn
      rw [hsn]
      cases r with
      | nil =>
        simp only [List.map_nil, Charconv.numLoop] at n1
        subst n1
        obtain ⟨k, rfl⟩ : ∃ j, k = j + 1 := ⟨k - 1, by simp at hk; omega⟩
        exact ⟨x :: past, rfl⟩
      | cons y r =>
        have hy : c.code y ≠ eofCode := ht y (by simp)
        obtain ⟨p', i1⟩ := ih k (x :: past) s2 st' _ (by simp) (fun z hz => ht z (List.mem_cons_of_mem _ hz))
          (Prod.ext n1 (Prod.ext rfl n3)) (by simp at hk ⊢; omega)
        exact ⟨p', (if_neg hy).trans i1⟩

/-- C87, blocking: the last number of a text, all of it there: its value is given, with `eofbit`. -/
theorem blocking_int_end (c : LiveCfg) (polls rounds : Nat) (octal : Bool) (t : Charconv.IntTy) (base : Nat) (past : List Ch)
    (numeral : List Ch) (i : Ios) (value v : Int) (hg : i.good = true) (hb : baseOf octal t.signed i.flags = some base)
    (hnum : Spec.Numeral t base v numeral) (ht : Spec.Tellable c numeral) (hp : 0 < polls) (hr : numeral.length < rounds) :
    ∃ past', LS.extractInt c .blocking polls rounds octal t ⟨⟨past, numeral, [], true⟩, i⟩ value =
      some (⟨⟨past', [], [], true⟩, i.setstate c.ios eofbit⟩, v) := by
  have hparse := hnum [] (by intro x r hx; cases hx)
  rw [List.append_nil] at hparse
  have hne := numeral_ne_nil hnum
  obtain ⟨y, q, rfl⟩ := List.exists_cons_of_ne_nil hne
  have hy : isSpace y = false := not_white.mpr (parse_ok_not_white hparse y q rfl)
  obtain ⟨polls, rfl⟩ : ∃ k, polls = k + 1 := ⟨polls - 1, by omega⟩
  have hpeek : LS.peek c .blocking (polls + 1) ⟨⟨past, y :: q, [], true⟩, i⟩ = some (⟨⟨past, y :: q, [], true⟩, i⟩, c.code y) := by
    unfold LS.peek
    rw [if_pos hg]
    simp only [Live.waitGet, Live.inAvail, Live.tick, Live.sgetc, LiveCfg.shown]
    rw [if_neg (by simp; omega), if_neg (by simp; omega)]
    rfl
  have hws : LS.ws c .blocking (polls + 1) rounds ⟨⟨past, y :: q, [], true⟩, i⟩ = some ⟨⟨past, y :: q, [], true⟩, i⟩ := by
    obtain ⟨rounds, rfl⟩ : ∃ k, rounds = k + 1 := ⟨rounds - 1, by omega⟩
    rw [LS.ws, hpeek]
    simp only [toChar_code, hy, Bool.false_eq_true, if_false]
  have hb2 := base_bounds hb
  have hget := Charconv.num_get_partial t base ((y :: q).map BitVec.toNat) hb2.1 hb2.2 (by
    intro x hm; obtain ⟨z, _, rfl⟩ := List.mem_map.mp hm; exact z.isLt) (parse_ok_supported hparse)
  rw [hparse] at hget
  obtain ⟨st, hst⟩ := hget
  have hlt : decide ((y :: q).length = ((y :: q).map BitVec.toNat).length) = true := by simp
  rw [hlt] at hst
  obtain ⟨past', n1⟩ := number_end c t base (y :: q) rounds past ⟨.start, false, 0⟩ _ _ (by simp) ht hst hr
  refine ⟨past', ?_⟩
  unfold LS.extractInt
  rw [hws]
  simp only [hb, n1]
  simp only [if_true, Bool.false_eq_true, if_false, LS.setstate, BitVec.or_assoc, setstate_rdstate]
  rfl

end Verif.Streams
