import Verif.Heap.Model
import Verif.Heap.Spec
import Verif.Algorithm.CopyProps
/-!
# Helper lemmas for the heap proofs
-/
namespace Verif.Heap
open Verif Verif.Algorithm Spec

variable {α : Type u}

/-- Transposition of two indices. -/
def tr (a b j : Nat) : Nat := if j = a then b else if j = b then a else j

/-- "The cell at `i` does not belong nearer the root than the cell at `p`". -/
def Ok (comp : α → α → Bool) (f : Nat) (m : List α) (p i : Nat) : Prop :=
  ∀ x y, m[f + p]? = some x → m[f + i]? = some y → comp x y = false

theorem swap_get {m : List α} {f a b : Nat} (ha : f + a < m.length) (hb : f + b < m.length) (j : Nat) :
    ((m.set (f + a) m[f + b]).set (f + b) m[f + a])[f + j]? = m[f + tr a b j]? := by
  unfold tr
  simp only [List.getElem?_set, List.length_set]
  by_cases h1 : j = a
  · subst h1
    by_cases h2 : b = j
    · subst h2; simp [ha]
    · rw [if_neg (by omega)]; simp [ha, hb]
  · by_cases h2 : j = b
    · subst h2; rw [if_neg h1]; simp [ha, hb]
    · rw [if_neg (by omega), if_neg (by omega), if_neg h1, if_neg h2]

theorem ok_swap {comp : α → α → Bool} {m : List α} {f a b : Nat} (ha : f + a < m.length)
    (hb : f + b < m.length) (p i : Nat) :
    Ok comp f ((m.set (f + a) m[f + b]).set (f + b) m[f + a]) p i ↔ Ok comp f m (tr a b p) (tr a b i) := by
  unfold Ok; rw [swap_get ha hb, swap_get ha hb]

theorem Ok.trans {comp : α → α → Bool} (hs : StrictWeak comp) {f : Nat} {m : List α} {a b c : Nat}
    (hb : f + b < m.length) (h1 : Ok comp f m a b) (h2 : Ok comp f m b c) : Ok comp f m a c := by
  intro x y hx hy
  exact hs.negTrans x m[f + b] y (h1 _ _ hx (by simp [hb])) (h2 _ _ (by simp [hb]) hy)

theorem Ok.refl {comp : α → α → Bool} (hs : StrictWeak comp) (f : Nat) (m : List α) (a : Nat) :
    Ok comp f m a a := by
  intro x y hx hy
  rw [hx] at hy; cases hy; exact hs.irrefl x

theorem Ok.of_lt {comp : α → α → Bool} (hs : StrictWeak comp) {f : Nat} {m : List α} {a b : Nat} {x y : α}
    (hx : m[f + a]? = some x) (hy : m[f + b]? = some y) (h : comp x y = true) : Ok comp f m b a := by
  intro x' y' hx' hy'
  rw [hx] at hy'; rw [hy] at hx'; cases hx'; cases hy'
  exact hs.asymm h

theorem isHeap_iff {comp : α → α → Bool} {k f n : Nat} {m : List α} :
    IsHeap comp k f n m ↔ ∀ i, 0 < i → i < n → Ok comp f m ((i - 1) / k) i := by
  constructor
  · intro h i h0 h1 x y hx hy; exact h i x y h0 h1 hx hy
  · intro h i x y h0 h1 hx hy; exact h i h0 h1 x y hx hy

theorem parent_iff {k i p : Nat} (hk : 0 < k) (hi : 0 < i) :
    (i - 1) / k = p ↔ p * k + 1 ≤ i ∧ i < p * k + 1 + k := by
  rw [Nat.div_eq_iff hk]; omega

theorem parent_lt {k i : Nat} (hi : 0 < i) : (i - 1) / k < i := by
  have := Nat.div_le_self (i - 1) k; omega

/-- Swapping two cells of the range is a rearrangement of the range. -/
theorem rearranged_swap {m : List α} {f n a b : Nat} (hn : f + n ≤ m.length) (ha : a < n) (hb : b < n) :
    Rearranged f n m ((m.set (f + a) (m[f + b]'(by omega))).set (f + b) (m[f + a]'(by omega))) := by
  refine ⟨by simp, ?_, ?_⟩
  · intro j hj
    simp only [List.getElem?_set]
    rw [if_neg (by omega), if_neg (by omega)]
  · have e : ∀ (l : List α) c v, c < n → ((l.set (f + c) v).drop f).take n = ((l.drop f).take n).set c v := by
      intro l c v hc
      rw [List.drop_set, if_neg (by omega), List.take_set]
      congr 1; omega
    rw [e _ _ _ hb, e _ _ _ ha]
    have hl : ((m.drop f).take n).length = n := by simp; omega
    have := List.set_set_perm (as := (m.drop f).take n) (i := a) (j := b) (by omega) (by omega)
    simpa using this

theorem Spec.Rearranged.refl (f n : Nat) (m : List α) : Rearranged f n m m :=
  ⟨rfl, fun _ _ => rfl, List.Perm.refl _⟩

theorem Spec.Rearranged.trans {f n : Nat} {a b c : List α} (h1 : Rearranged f n a b) (h2 : Rearranged f n b c) :
    Rearranged f n a c :=
  ⟨h2.length.trans h1.length, fun j hj => (h2.outside j hj).trans (h1.outside j hj), h2.perm.trans h1.perm⟩

/-- A rearrangement of a sub-range is one of the range. -/
theorem Spec.Rearranged.mono {f n n' : Nat} {a b : List α} (h : Rearranged f n a b) (hn : n ≤ n') :
    Rearranged f n' a b := by
  refine ⟨h.length, fun j hj => h.outside j (by omega), ?_⟩
  have e : ∀ l : List α, (l.drop f).take n' = (l.drop f).take n ++ ((l.drop (f + n)).take (n' - n)) := by
    intro l
    have : n' = n + (n' - n) := by omega
    conv => lhs; rw [this]
    rw [List.take_add, List.drop_drop]
  rw [e a, e b]
  have : b.drop (f + n) = a.drop (f + n) := by
    apply List.ext_getElem?
    intro i
    simp only [List.getElem?_drop]
    exact h.outside _ (by omega)
  rw [this]
  exact h.perm.append_right _

/-- Bubbling up (heap.h:66-85): if only the edge into `cur` may be broken, the whole range becomes a heap. -/
theorem upLoop_spec {comp : α → α → Bool} (hs : StrictWeak comp) (k f n : Nat) (hk : 0 < k) (m : List α)
    (cur : Nat) (hn : f + n ≤ m.length) (hc : cur < n)
    (h1 : ∀ i, 0 < i → i < n → i ≠ cur → Ok comp f m ((i - 1) / k) i)
    (h2 : ∀ i, 0 < i → i < n → 0 < cur → (i - 1) / k = cur → Ok comp f m ((cur - 1) / k) i) :
    ∃ m' c', upLoop comp k f m cur = some (m', c') ∧ IsHeap comp k f n m' ∧ Rearranged f n m m' ∧
      c' ≤ cur ∧ (c' = cur → m' = m) := by
  induction cur using Nat.strongRecOn generalizing m with
  | _ cur ih =>
    unfold upLoop
    by_cases h0 : cur = 0
    · rw [dif_pos h0]
      exact ⟨m, cur, rfl, isHeap_iff.mpr fun i hi hi2 => h1 i hi hi2 (by omega), .refl _ _ _, by omega, fun _ => rfl⟩
    · rw [dif_neg h0, if_neg (by omega)]
      have hp := parent_lt (k := k) (i := cur) (by omega)
      generalize hpar : (cur - 1) / k = par at hp ⊢
      have hpl : f + par < m.length := by omega
      have hcl : f + cur < m.length := by omega
      rw [rd_lt hpl, rd_lt hcl]
      simp only
      by_cases hcmp : comp m[f + par] m[f + cur] = true
      · rw [if_pos hcmp, iterSwap_lt hcl hpl]
        simp only
        generalize hm1 : (m.set (f + cur) m[f + par]).set (f + par) m[f + cur] = m1
        have hok : ∀ p i, Ok comp f m1 p i ↔ Ok comp f m (tr cur par p) (tr cur par i) := by
          intro p i; rw [← hm1]; exact ok_swap hcl hpl p i
        have hcp : Ok comp f m cur par := Ok.of_lt hs (by simp [hpl]) (by simp [hcl]) hcmp
        have hsw : Rearranged f n m m1 := by rw [← hm1]; exact rearranged_swap hn hc (by omega)
        have hedge : ∀ i, 0 < i → i < n → (i - 1) / k = par → i ≠ cur → Ok comp f m par i := by
          intro i hi hi2 hpi hic; rw [← hpi]; exact h1 i hi hi2 hic
        obtain ⟨m', c', e1, e2, e3, e4, e5⟩ := ih par hp m1 (by rw [hsw.length]; exact hn) (by omega)
          (by
            intro i hi hi2 hip
            rw [hok]
            by_cases hic : i = cur
            · subst hic; rw [hpar]
              have e1 : tr i par par = i := by unfold tr; grind
              have e2 : tr i par i = par := by unfold tr; grind
              rw [e1, e2]; exact hcp
            · have e2 : tr cur par i = i := by unfold tr; grind
              rw [e2]
              by_cases hpp : (i - 1) / k = par
              · rw [hpp]
                have e1 : tr cur par par = cur := by unfold tr; grind
                rw [e1]
                exact Ok.trans hs hpl hcp (hedge i hi hi2 hpp hic)
              · by_cases hpc : (i - 1) / k = cur
                · rw [hpc]
                  have e1 : tr cur par cur = par := by unfold tr; grind
                  rw [e1]; rw [← hpar]; exact h2 i hi hi2 (by omega) hpc
                · have e1 : tr cur par ((i - 1) / k) = (i - 1) / k := by unfold tr; grind
                  rw [e1]; exact h1 i hi hi2 hic)
          (by
            intro i hi hi2 hp0 hpi
            have hpp := parent_lt (k := k) (i := par) hp0
            generalize hgp : (par - 1) / k = gp at hpp ⊢
            rw [hok]
            have e0 : tr cur par gp = gp := by unfold tr; grind
            rw [e0]
            have hgo : Ok comp f m gp par := by rw [← hgp]; exact h1 par hp0 (by omega) (by omega)
            by_cases hic : i = cur
            · subst hic
              have e2 : tr i par i = par := by unfold tr; grind
              rw [e2]; exact hgo
            · have hip : i ≠ par := by rintro rfl; have := parent_lt (k := k) hi; omega
              have e2 : tr cur par i = i := by unfold tr; grind
              rw [e2]
              exact Ok.trans hs hpl hgo (hedge i hi hi2 hpi hic))
        exact ⟨m', c', e1, e2, hsw.trans e3, by omega, by omega⟩
      · rw [if_neg hcmp]
        refine ⟨m, cur, rfl, isHeap_iff.mpr fun i hi hi2 => ?_, .refl _ _ _, by omega, fun _ => rfl⟩
        by_cases hic : i = cur
        · subst hic; rw [hpar]
          intro x y hx hy
          simp [hpl] at hx; simp [hcl] at hy; subst hx; subst hy
          simpa using hcmp
        · exact h1 i hi hi2 hic

/-- Every edge below (and including) parent index `s` is in order. -/
def HeapFrom (comp : α → α → Bool) (k f n s : Nat) (m : List α) : Prop :=
  ∀ i, 0 < i → i < n → s ≤ (i - 1) / k → Ok comp f m ((i - 1) / k) i

/-- Pushing down (heap.h:98-124). -/
theorem restoreDown_spec {comp : α → α → Bool} (hs : StrictWeak comp) (k f n s : Nat) (hk : 0 < k)
    (m : List α) (cur : Nat) (hn : f + n ≤ m.length) (hc : cur < n ∨ n ≤ cur * k + 1) (hsc : s ≤ cur)
    (h1 : ∀ i, 0 < i → i < n → s ≤ (i - 1) / k → (i - 1) / k ≠ cur → Ok comp f m ((i - 1) / k) i)
    (h2 : ∀ i, 0 < i → i < n → s < cur → s ≤ (cur - 1) / k → (i - 1) / k = cur → Ok comp f m ((cur - 1) / k) i) :
    ∃ m', restoreDown comp k f n m cur = some m' ∧ HeapFrom comp k f n s m' ∧ Rearranged f n m m' ∧
      (∀ j, j < cur → m'[f + j]? = m[f + j]?) := by
  induction hd : n - cur using Nat.strongRecOn generalizing m cur with
  | _ d ih =>
    unfold restoreDown
    rw [dif_neg (by omega)]
    by_cases hl : n ≤ cur * k + 1
    · rw [dif_pos hl]
      refine ⟨m, rfl, ?_, .refl _ _ _, fun _ _ => rfl⟩
      intro i hi hi2 hsi
      refine h1 i hi hi2 hsi ?_
      intro he; have := (parent_iff hk hi).mp he; omega
    · rw [dif_neg hl]
      have hcn : cur < n := by omega
      obtain ⟨ch', e1, e2, e3, e4, -⟩ := max_element_spec hs m (f + (cur * k + 1))
        (min (f + (cur * k + 1) + k) (f + n)) (by omega) (by omega)
      obtain ⟨ch, rfl⟩ : ∃ c, ch' = f + c := ⟨ch' - f, by omega⟩
      have hle : cur ≤ cur * k := Nat.le_mul_of_pos_right cur hk
      have hchn : ch < n := by omega
      have hcur : cur < ch := by omega
      have hparch : (ch - 1) / k = cur := (parent_iff hk (by omega)).mpr ⟨by omega, by omega⟩
      have hcl : f + cur < m.length := by omega
      have hchl : f + ch < m.length := by omega
      have hmax : ∀ i, 0 < i → i < n → (i - 1) / k = cur → Ok comp f m ch i := by
        intro i hi hi2 hpi x y hx hy
        have := (parent_iff hk hi).mp hpi
        exact e4 (f + i) y x (by omega) (by omega) hy hx
      split
      · rename_i h; rw [e1] at h; simp at h
      · rename_i ch2 h
        rw [e1] at h
        have := Option.some.inj h
        subst this
        rw [rd_lt hcl, rd_lt hchl]
        simp only
        by_cases hcmp : comp m[f + cur] m[f + ch] = true
        · rw [if_pos hcmp, iterSwap_lt hchl hcl]
          simp only
          rw [show f + ch - f = ch by omega]
          generalize hm1 : (m.set (f + ch) m[f + cur]).set (f + cur) m[f + ch] = m1
          have hok : ∀ p i, Ok comp f m1 p i ↔ Ok comp f m (tr ch cur p) (tr ch cur i) := by
            intro p i; rw [← hm1]; exact ok_swap hchl hcl p i
          have hcp : Ok comp f m ch cur := Ok.of_lt hs (by simp [hcl]) (by simp [hchl]) hcmp
          have hsw : Rearranged f n m m1 := by rw [← hm1]; exact rearranged_swap hn hchn hcn
          obtain ⟨m', a1, a2, a3, a4⟩ := ih (n - ch) (by omega) m1 ch (by rw [hsw.length]; exact hn) (by omega)
            (by omega)
            (by
              intro i hi hi2 hsi hpi
              rw [hok]
              by_cases hpc : (i - 1) / k = cur
              · rw [hpc]
                have t1 : tr ch cur cur = ch := by unfold tr; grind
                rw [t1]
                by_cases hic : i = ch
                · subst hic
                  have t2 : tr i cur i = cur := by unfold tr; grind
                  rw [t2]; exact hcp
                · have : i ≠ cur := by rintro rfl; have := parent_lt (k := k) hi; omega
                  have t2 : tr ch cur i = i := by unfold tr; grind
                  rw [t2]; exact hmax i hi hi2 hpc
              · have t1 : tr ch cur ((i - 1) / k) = (i - 1) / k := by unfold tr; grind
                rw [t1]
                have hich : i ≠ ch := by rintro rfl; exact hpc hparch
                by_cases hic : i = cur
                · subst hic
                  have t2 : tr ch i i = ch := by unfold tr; grind
                  rw [t2]
                  have := parent_lt (k := k) hi
                  exact h2 ch (by omega) hchn (by omega) hsi hparch
                · have t2 : tr ch cur i = i := by unfold tr; grind
                  rw [t2]; exact h1 i hi hi2 hsi hpc)
            (by
              intro i hi hi2 _ _ hpi
              rw [hparch, hok]
              have hil := parent_lt (k := k) hi
              have t1 : tr ch cur cur = ch := by unfold tr; grind
              have t2 : tr ch cur i = i := by unfold tr; grind
              rw [t1, t2]
              have := h1 i hi hi2 (by omega) (by omega)
              rw [hpi] at this; exact this)
            rfl
          refine ⟨m', a1, a2, hsw.trans a3, ?_⟩
          intro j hj
          rw [a4 j (by omega), ← hm1, swap_get hchl hcl]
          congr 2; unfold tr; grind
        · rw [if_neg hcmp]
          refine ⟨m, rfl, ?_, .refl _ _ _, fun _ _ => rfl⟩
          intro i hi hi2 hsi
          by_cases hpc : (i - 1) / k = cur
          · rw [hpc]
            refine Ok.trans hs hchl ?_ (hmax i hi hi2 hpc)
            intro x y hx hy
            simp [hcl] at hx; simp [hchl] at hy; subst hx; subst hy
            simpa using hcmp
          · exact h1 i hi hi2 hsi hpc

theorem makeLoop_spec {comp : α → α → Bool} (hs : StrictWeak comp) (k f n : Nat) (hk : 0 < k)
    (m : List α) (i : Nat) (hn : f + n ≤ m.length) (hi : i < n)
    (h : HeapFrom comp k f n (i + 1) m) :
    ∃ m', makeLoop comp k f n m i = some m' ∧ IsHeap comp k f n m' ∧ Rearranged f n m m' := by
  have step : ∀ (m : List α) (i : Nat), f + n ≤ m.length → i < n → HeapFrom comp k f n (i + 1) m →
      ∃ m', restoreDown comp k f n m i = some m' ∧ HeapFrom comp k f n i m' ∧ Rearranged f n m m' := by
    intro m i hn hi h
    obtain ⟨m', e1, e2, e3, -⟩ := restoreDown_spec hs k f n i hk m i hn (.inl hi) (Nat.le_refl _)
      (fun j hj hj2 hs hne => h j hj hj2 (by omega)) (fun j _ _ hlt _ _ => absurd hlt (by omega))
    exact ⟨m', e1, e2, e3⟩
  induction i generalizing m with
  | zero =>
    obtain ⟨m', e1, e2, e3⟩ := step m 0 hn hi h
    refine ⟨m', by unfold makeLoop; rw [e1], ?_, e3⟩
    exact isHeap_iff.mpr fun j hj hj2 => e2 j hj hj2 (Nat.zero_le _)
  | succ i ih =>
    obtain ⟨m1, e1, e2, e3⟩ := step m (i + 1) hn hi h
    obtain ⟨m', a1, a2, a3⟩ := ih m1 (by rw [e3.length]; exact hn) (by omega) e2
    exact ⟨m', by unfold makeLoop; rw [e1]; exact a1, a2, e3.trans a3⟩

end Verif.Heap
