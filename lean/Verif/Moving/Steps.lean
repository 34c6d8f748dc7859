import Verif.Moving.Props
/-!
# C82: every statement on its own
-/
namespace Verif.Moving

variable {α β : Type} [DecidableEq α]

/-- the same blocks with the same contents and locks -/
structure Same (s s' : Mem α) : Prop where
  handles : s'.handles = s.handles
  none : ∀ x, s.blk x = .none → s'.blk x = .none
  some : ∀ x b, s.blk x = .some b → ∃ b', s'.blk x = .some b' ∧ b'.cells = b.cells ∧ b'.locks = b.locks

theorem rep_same {s s' : Mem α} {vs : List Vec} {st : List (Spec.Arr α)} (r : Spec.Rep s vs st) (h : Same s s') : Spec.Rep s' vs st := by
  have back : ∀ x b', s'.blk x = .some b' → ∃ b, s.blk x = .some b ∧ b'.cells = b.cells ∧ b'.locks = b.locks := by
    intro x b' hx
    cases hb : s.blk x with
    | none => rw [h.none x hb] at hx; cases hx
    | some b =>
      obtain ⟨b2, h1, h2⟩ := h.some x b hb
      rw [hx] at h1; cases h1
      exact ⟨b, rfl, h2⟩
  refine ⟨r.len, ?_, r.apart, ?_, ?_⟩
  · intro i v a hv ha
    rcases r.holds i v a hv ha with h1 | ⟨h1, x, b, h2, h3, h4, h5, h6, h7⟩
    · exact .inl h1
    · obtain ⟨b', h8, h9, -⟩ := h.some x b h3
      exact .inr ⟨h1, x, b', h2, h8, by rw [h9]; exact h4, h5, h6, by rw [h9]; exact h7⟩
  · intro x b' hb
    obtain ⟨b, h1, -, h2⟩ := back x b' hb
    rw [h2]; exact r.unlocked x b h1
  · intro x hx
    rw [h.handles] at hx
    exact h.none x (r.fresh x hx)

/-- an array that has memory -/
structure Has (s : Mem α) (v : Vec) (xs : List α) (h : Nat) (b : Block α) : Prop where
  handle : v.handle = .some h
  blk : s.blk h = .some b
  cap : b.cells.length = v.cap
  used : v.used = xs.length
  le : v.used ≤ v.cap
  cells : ∀ (i : Nat) (x : α), xs[i]? = .some x → b.cells[i]? = .some (.some x)
  locks : b.locks = 0

theorem has_of_rep {s : Mem α} {vs : List Vec} {st : List (Spec.Arr α)} (r : Spec.Rep s vs st) {i : Nat} {v : Vec} {a : Spec.Arr α}
    (hv : vs[i]? = some v) (ha : st[i]? = some a) (hh : a.had = true) : ∃ h b, Has s v a.xs h b := by
  rcases r.holds i v a hv ha with ⟨h1, -, -⟩ | ⟨h1, x, b, h2, h3, h4, h5, h6, h7⟩
  · simp [hh] at h1
  · exact ⟨x, b, h2, h3, h4, h5, h6, h7, r.unlocked x b h3⟩

theorem size_of_rep {s : Mem α} {vs : List Vec} {st : List (Spec.Arr α)} (r : Spec.Rep s vs st) {i : Nat} {v : Vec} {a : Spec.Arr α}
    (hv : vs[i]? = some v) (ha : st[i]? = some a) : v.size = a.xs.length := by
  rcases r.holds i v a hv ha with ⟨-, h1, h2⟩ | ⟨h1, x, b, h2, h3, h4, h5, h6, h7⟩
  · subst h1; rw [h2]; rfl
  · simp [Vec.size, h2, h5]

theorem vec_of_rep {s : Mem α} {vs : List Vec} {st : List (Spec.Arr α)} (r : Spec.Rep s vs st) {i : Nat} {a : Spec.Arr α}
    (ha : st[i]? = some a) : ∃ v, vs[i]? = some v := by
  have h1 : i < st.length := (List.getElem?_eq_some_iff.mp ha).1
  exact ⟨vs[i]'(by rw [r.len]; exact h1), List.getElem?_eq_getElem _⟩

/-- other contents for one array -/
theorem rep_put {s s' : Mem α} {vs : List Vec} {st : List (Spec.Arr α)} (r : Spec.Rep s vs st) {i : Nat} {v : Vec}
    {h : Nat} {b : Block α} (hv : vs[i]? = some v) (hh : v.handle = some h) (hb : s.blk h = some b) (hcap : b.cells.length = v.cap)
    {c : List (Option α)} {xs : List α} (hc : c.length = b.cells.length) (hx : xs.length ≤ c.length)
    (hxs : ∀ (m : Nat) (x : α), xs[m]? = some x → c[m]? = some (some x)) (hs : Same (s.put h c) s') :
    Spec.Rep s' (vs.set i { v with used := xs.length }) (st.set i ⟨true, xs⟩) := by
  have hi : i < vs.length := (List.getElem?_eq_some_iff.mp hv).1
  have hsame : Spec.Rep (s.put h c) (vs.set i { v with used := xs.length }) (st.set i ⟨true, xs⟩) := by
    refine ⟨by simp [r.len], ?_, ?_, ?_, ?_⟩
    · intro j w a hw ha
      by_cases e : j = i
      · subst e
        rw [List.getElem?_set_self hi] at hw
        rw [List.getElem?_set_self (by rw [← r.len]; exact hi)] at ha
        cases hw; cases ha
        exact .inr ⟨rfl, h, ⟨c, b.locks, b.place⟩, hh, by simp [Mem.put, upd, hb], by simp [hc, hcap], rfl, by simp only; omega, hxs⟩
      · rw [List.getElem?_set_ne (by omega)] at hw ha
        rcases r.holds j w a hw ha with h1 | ⟨h1, x, b', h2, h3, h4, h5, h6, h7⟩
        · exact .inl h1
        · have hne : x ≠ h := by
            intro e'; subst e'
            exact e (r.apart j i w v x hw hv h2 hh)
          exact .inr ⟨h1, x, b', h2, by simp [Mem.put, upd, hne, h3], h4, h5, h6, h7⟩
    · intro j k w w' x hw hw' hx hx'
      have key : ∀ (j : Nat) (w : Vec), (vs.set i { v with used := xs.length })[j]? = some w → w.handle = some x → ∃ w0, vs[j]? = some w0 ∧ w0.handle = some x := by
        intro j w hw hx
        by_cases e : j = i
        · subst e
          rw [List.getElem?_set_self hi] at hw; cases hw
          exact ⟨v, hv, hx⟩
        · rw [List.getElem?_set_ne (by omega)] at hw
          exact ⟨w, hw, hx⟩
      obtain ⟨w0, h1, h2⟩ := key j w hw hx
      obtain ⟨w1, h3, h4⟩ := key k w' hw' hx'
      exact r.apart j k w0 w1 x h1 h3 h2 h4
    · intro x b' hx
      by_cases e : x = h
      · subst e
        simp [Mem.put, upd, hb] at hx; subst hx
        exact r.unlocked x b hb
      · simp [Mem.put, upd, e] at hx
        exact r.unlocked x b' hx
    · intro x hx
      have := r.fresh x hx
      have hne : x ≠ h := by intro e; subst e; simp [hb] at this
      simp [Mem.put, upd, hne, this]
  exact rep_same hsame hs

/-! ## Growth -/

/-- the memory after an allocation -/
def Mem.al (s : Mem α) (n : Nat) : Mem α :=
  { s with blk := upd s.blk s.handles (some ⟨List.replicate n none, 0, 0⟩), handles := s.handles + 1 }

/-- the memory after a reallocation of a block with the cells `c` -/
def Mem.re (s : Mem α) (h : Nat) (c : List (Option α)) (n : Nat) : Mem α :=
  { s with blk := upd (upd s.blk h none) s.handles (some ⟨resized c n, 0, 0⟩), handles := s.handles + 1 }

theorem lk_al {s : Mem α} {x : Nat} (hx : x ≠ s.handles) (n : Nat) : (s.lk x).al n = (s.al n).lk x := by
  simp only [Mem.lk, Mem.al, Mem.mk.injEq, upd_other _ _ hx, and_true, true_and]
  funext y
  by_cases h1 : y = x <;> by_cases h2 : y = s.handles <;> simp_all [upd]

theorem lk_re {s : Mem α} {x h : Nat} (hx : x ≠ s.handles) (hh : x ≠ h) (c : List (Option α)) (n : Nat) :
    (s.lk x).re h c n = (s.re h c n).lk x := by
  simp only [Mem.lk, Mem.re, Mem.mk.injEq, upd_other _ _ hx, upd_other _ _ hh, and_true, true_and]
  funext y
  by_cases h1 : y = x <;> by_cases h2 : y = s.handles <;> by_cases h3 : y = h <;> simp_all [upd]

omit [DecidableEq α] in
theorem resized_length (c : List (Option α)) (n : Nat) : (resized c n).length = n := by
  simp [resized]; omega

omit [DecidableEq α] in
theorem resized_get {c : List (Option α)} {n i : Nat} {x : α} (hi : i < n) (h : c[i]? = some (some x)) : (resized c n)[i]? = some (some x) := by
  have := (List.getElem?_eq_some_iff.mp h).1
  rw [resized, List.getElem?_append_left (by simp; omega), List.getElem?_take_of_lt hi, h]

/-- What growing does: the array has the room, and the other array, locked or not, is not touched. -/
structure Grown (s : Mem α) (vs : List Vec) (st : List (Spec.Arr α)) (i : Nat) (v : Vec) (a : Spec.Arr α) (n : Nat)
    (f : (β' : Type) → (Vec → Prog α β') → Prog α β') (s1 : Mem α) (v1 : Vec) : Prop where
  run : ∀ (β' : Type) (k : Vec → Prog α β'), sexec (f β' k) s = sexec (k v1) s1
  runLk : ∀ (x : Nat) (b : Block α), s.blk x = some b → v.handle ≠ some x → ∀ (β' : Type) (k : Vec → Prog α β'),
    sexec (f β' k) (s.lk x) = sexec (k v1) (s1.lk x)
  rep : Spec.Rep s1 (vs.set i v1) (st.set i ⟨a.had || decide (0 < n), a.xs⟩)
  cap : n ≤ v1.cap
  used : v1.used = v.used
  ptrs : s1.ptrs = s.ptrs

theorem reserve_grown {s : Mem α} {vs : List Vec} {st : List (Spec.Arr α)} (r : Spec.Rep s vs st) {i : Nat} {v : Vec} {a : Spec.Arr α}
    (hv : vs[i]? = some v) (ha : st[i]? = some a) (n : Nat) (hn : a.xs.length ≤ n) :
    ∃ s1 v1, (∀ (β' : Type) (k : Vec → Prog α β'), sexec (reserve v n k) s = sexec (k v1) s1) ∧
      (∀ (x : Nat) (b : Block α), s.blk x = some b → v.handle ≠ some x → ∀ (β' : Type) (k : Vec → Prog α β'),
        sexec (reserve v n k) (s.lk x) = sexec (k v1) (s1.lk x)) ∧
      Spec.Rep s1 (vs.set i v1) (st.set i ⟨true, a.xs⟩) ∧ v1.cap = n ∧ v1.used = v.used ∧ s1.ptrs = s.ptrs := by
  have hi : i < vs.length := (List.getElem?_eq_some_iff.mp hv).1
  have hi' : i < st.length := by rw [← r.len]; exact hi
  have live : ∀ (x : Nat) (b : Block α), s.blk x = some b → x < s.handles := by
    intro x b hb
    rcases Nat.lt_or_ge x s.handles with h | h
    · exact h
    · rw [r.fresh x h] at hb; cases hb
  rcases r.holds i v a hv ha with ⟨h1, h2, h3⟩ | ⟨h1, h, b, h2, h3, h4, h5, h6, h7⟩
  · subst h2
    refine ⟨s.al n, ⟨some s.handles, n, 0⟩, ?_, ?_, ?_, rfl, rfl, rfl⟩
    · intro β' k; rfl
    · intro x b hb _ β' k
      rw [← lk_al (by have := live x b hb; omega)]; rfl
    · refine ⟨by simp [r.len], ?_, ?_, ?_, ?_⟩
      · intro j w a' hw ha'
        by_cases e : j = i
        · subst e
          rw [List.getElem?_set_self hi] at hw; rw [List.getElem?_set_self hi'] at ha'
          cases hw; cases ha'
          refine .inr ⟨rfl, s.handles, _, rfl, by simp [Mem.al, upd]; rfl, by simp, by simp [h3], by simp, by simp [h3]⟩
        · rw [List.getElem?_set_ne (by omega)] at hw ha'
          rcases r.holds j w a' hw ha' with h1 | ⟨h1, x, b', g2, g3, g4, g5, g6, g7⟩
          · exact .inl h1
          · have := live x b' g3
            exact .inr ⟨h1, x, b', g2, by simp [Mem.al, upd, show x ≠ s.handles by omega, g3], g4, g5, g6, g7⟩
      · have key : ∀ (j : Nat) (w : Vec) x, (vs.set i ⟨some s.handles, n, 0⟩)[j]? = some w → w.handle = some x →
            (j = i ∧ x = s.handles) ∨ (j ≠ i ∧ vs[j]? = some w ∧ x < s.handles) := by
          intro j w x hw hx
          by_cases e : j = i
          · subst e
            rw [List.getElem?_set_self hi] at hw; cases hw
            simp at hx; exact .inl ⟨rfl, hx.symm⟩
          · rw [List.getElem?_set_ne (by omega)] at hw
            refine .inr ⟨e, hw, ?_⟩
            have hj : j < st.length := by rw [← r.len]; exact (List.getElem?_eq_some_iff.mp hw).1
            rcases r.holds j w _ hw (List.getElem?_eq_getElem hj) with ⟨-, g2, -⟩ | ⟨-, y, b', g2, g3, -⟩
            · subst g2; cases hx
            · rw [g2] at hx; cases hx; exact live _ _ g3
        intro j k w w' x hw hw' hx hx'
        rcases key j w x hw hx with ⟨e1, e2⟩ | ⟨e1, e2, e3⟩ <;> rcases key k w' x hw' hx' with ⟨f1, f2⟩ | ⟨f1, f2, f3⟩
        · omega
        · omega
        · omega
        · exact r.apart j k w w' x e2 f2 hx hx'
      · intro x b' hx
        by_cases e : x = s.handles
        · subst e; simp [Mem.al, upd] at hx; subst hx; rfl
        · simp [Mem.al, upd, e] at hx; exact r.unlocked x b' hx
      · intro x hx
        simp only [Mem.al] at hx
        simp [Mem.al, upd, show x ≠ s.handles by omega, r.fresh x (by omega)]
  · have hlk := r.unlocked h b h3
    have hlt := live h b h3
    refine ⟨s.re h b.cells n, ⟨some s.handles, n, v.used⟩, ?_, ?_, ?_, rfl, rfl, rfl⟩
    · intro β' k; simp [reserve, h2, sexec, h3, hlk, Mem.re]
    · intro x b' hb hx β' k
      have hxh : x ≠ h := by intro e; subst e; exact hx h2
      have hlx := live x b' hb
      rw [← lk_re (by omega) hxh]
      have hbl : (s.lk x).blk h = some b := by simp [Mem.lk, upd, Ne.symm hxh, h3]
      simp [reserve, h2, sexec, hbl, hlk, Mem.re]
      rfl
    · refine ⟨by simp [r.len], ?_, ?_, ?_, ?_⟩
      · intro j w a' hw ha'
        by_cases e : j = i
        · subst e
          rw [List.getElem?_set_self hi] at hw; rw [List.getElem?_set_self hi'] at ha'
          cases hw; cases ha'
          refine .inr ⟨rfl, s.handles, _, rfl, by simp [Mem.re, upd]; rfl, by simp [resized_length], h5, by simp only; omega, ?_⟩
          intro m y hy
          have hm : m < a.xs.length := (List.getElem?_eq_some_iff.mp hy).1
          exact resized_get (by omega) (h7 m y hy)
        · rw [List.getElem?_set_ne (by omega)] at hw ha'
          rcases r.holds j w a' hw ha' with h1 | ⟨h1, x, b', g2, g3, g4, g5, g6, g7⟩
          · exact .inl h1
          · have := live x b' g3
            have hxh : x ≠ h := by intro e'; subst e'; exact e (r.apart j i w v x hw hv g2 h2)
            exact .inr ⟨h1, x, b', g2, by simp [Mem.re, upd, show x ≠ s.handles by omega, hxh, g3], g4, g5, g6, g7⟩
      · have key : ∀ (j : Nat) (w : Vec) x, (vs.set i ⟨some s.handles, n, v.used⟩)[j]? = some w → w.handle = some x →
            (j = i ∧ x = s.handles) ∨ (j ≠ i ∧ vs[j]? = some w ∧ x < s.handles) := by
          intro j w x hw hx
          by_cases e : j = i
          · subst e
            rw [List.getElem?_set_self hi] at hw; cases hw
            simp at hx; exact .inl ⟨rfl, hx.symm⟩
          · rw [List.getElem?_set_ne (by omega)] at hw
            refine .inr ⟨e, hw, ?_⟩
            have hj : j < st.length := by rw [← r.len]; exact (List.getElem?_eq_some_iff.mp hw).1
            rcases r.holds j w _ hw (List.getElem?_eq_getElem hj) with ⟨-, g2, -⟩ | ⟨-, y, b', g2, g3, -⟩
            · subst g2; cases hx
            · rw [g2] at hx; cases hx; exact live _ _ g3
        intro j k w w' x hw hw' hx hx'
        rcases key j w x hw hx with ⟨e1, e2⟩ | ⟨e1, e2, e3⟩ <;> rcases key k w' x hw' hx' with ⟨f1, f2⟩ | ⟨f1, f2, f3⟩
        · omega
        · omega
        · omega
        · exact r.apart j k w w' x e2 f2 hx hx'
      · intro x b' hx
        by_cases e : x = s.handles
        · subst e; simp [Mem.re, upd] at hx; subst hx; rfl
        · by_cases e2 : x = h
          · simp [Mem.re, upd, e2, show h ≠ s.handles by omega] at hx
          · simp [Mem.re, upd, e, e2] at hx; exact r.unlocked x b' hx
      · intro x hx
        simp only [Mem.re] at hx
        simp [Mem.re, upd, show x ≠ s.handles by omega, show x ≠ h by omega, r.fresh x (by omega)]

theorem ensure_grown {s : Mem α} {vs : List Vec} {st : List (Spec.Arr α)} (r : Spec.Rep s vs st) {i : Nat} {v : Vec} {a : Spec.Arr α}
    (hv : vs[i]? = some v) (ha : st[i]? = some a) (n pad : Nat) :
    ∃ s1 v1, Grown s vs st i v a n (fun β' (k : Vec → Prog α β') => ensureCapacity v n pad k) s1 v1 := by
  by_cases hc : n > v.cap
  · have hle : a.xs.length ≤ v.cap := by
      rcases r.holds i v a hv ha with ⟨-, h1, h2⟩ | ⟨h1, x, b, h2, h3, h4, h5, h6, h7⟩
      · simp [h2]
      · omega
    obtain ⟨s1, v1, h1, h2, h3, h4, h5, h6⟩ := reserve_grown r hv ha (n + pad) (by omega)
    refine ⟨s1, v1, ?_, ?_, ?_, by omega, h5, h6⟩
    · intro β' k; simp only [ensureCapacity, if_pos hc]; exact h1 β' k
    · intro x b hb hx β' k; simp only [ensureCapacity, if_pos hc]; exact h2 x b hb hx β' k
    · rw [show (a.had || decide (0 < n)) = true by simp [show 0 < n by omega]]; exact h3
  · refine ⟨s, v, ?_, ?_, ?_, by omega, rfl, rfl⟩
    · intro β' k; simp only [ensureCapacity, if_neg hc]
    · intro x b hb hx β' k; simp only [ensureCapacity, if_neg hc]
    · have hs : vs.set i v = vs := by
        obtain ⟨h1, h2⟩ := List.getElem?_eq_some_iff.mp hv
        rw [← h2]; exact List.set_getElem_self h1
      have hs2 : st.set i ⟨a.had || decide (0 < n), a.xs⟩ = st := by
        obtain ⟨h1, h2⟩ := List.getElem?_eq_some_iff.mp ha
        have : (⟨a.had || decide (0 < n), a.xs⟩ : Spec.Arr α) = a := by
          rcases r.holds i v a hv ha with ⟨e1, e2, e3⟩ | ⟨e1, -⟩
          · subst e2
            have hn : n = 0 := by simp [Vec.fresh] at hc; omega
            cases a; simp_all
          · cases a; simp_all
        rw [this, ← h2]; exact List.set_getElem_self h1
      rw [hs, hs2]; exact r

end Verif.Moving
