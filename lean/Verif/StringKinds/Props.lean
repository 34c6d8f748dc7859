import Verif.StringKinds.Spec
/-!
# Strings that own, share or refer to their characters (C96)
-/
namespace Verif.StringKinds
open Verif.DynArray (Res strlen)
open Verif.DynArray.Res (bind_ok ofOption_some)
open Spec (Chars Holds Fits OnlyChanged)

universe u
variable {α : Type u} [DecidableEq α]

/-! ## Memory, cell by cell -/

omit [DecidableEq α] in
theorem chars_iff (m : List α) (p : Nat) (l : List α) : Chars m p l ↔ ∀ j, j < l.length → m[p + j]? = l[j]? := by
  unfold Chars
  rw [List.prefix_iff_getElem?]
  constructor
  · intro h j hj
    have := h j hj
    rw [List.getElem?_drop] at this
    rw [this, List.getElem?_eq_getElem hj]
  · intro h j hj
    rw [List.getElem?_drop, h j hj, List.getElem?_eq_getElem hj]

omit [DecidableEq α] in
theorem chars_one (m : List α) (p : Nat) (z : α) : Chars m p [z] ↔ m[p]? = some z := by
  rw [chars_iff]
  constructor
  · intro h; simpa using h 0 (by simp)
  · intro h j hj
    have : j = 0 := by simp at hj; exact hj
    subst this; simpa using h

omit [DecidableEq α] in
theorem wr_get {m : List α} {i : Nat} {v : α} (h : i < m.length) :
    ∃ m', wr m i v = some m' ∧ m'.length = m.length ∧ ∀ j, m'[j]? = if j = i then some v else m[j]? := by
  refine ⟨m.set i v, wr_lt h, by simp, ?_⟩
  intro j
  rw [List.getElem?_set]
  by_cases hj : i = j
  · subst hj; simp [h]
  · simp [hj, Ne.symm hj]

theorem strlen_of {z : α} : ∀ (t l : List α), z ∉ t → t <+: l → l[t.length]? = some z → strlen z l = some t.length
  | [], l, _, _, h => by
    cases l with
    | nil => simp at h
    | cons x r => simp at h; subst h; simp [strlen]
  | a :: t, l, hz, hp, h => by
    obtain ⟨r, rfl⟩ := hp
    have hza : a ≠ z := fun e => hz (by simp [e])
    have hzt : z ∉ t := fun e => hz (by simp [e])
    have := strlen_of t (t ++ r) hzt ⟨r, rfl⟩ (by simpa using h)
    simp [strlen, hza, this]

omit [DecidableEq α] in
/-- copying upwards to a lower (or the same) place -/
theorem copyUp_low : ∀ (n : Nat) (m : List α) (dst src : Nat), dst ≤ src → src + n ≤ m.length →
    ∃ m', copyUp m dst src n = some m' ∧ m'.length = m.length ∧
      ∀ j, m'[j]? = if dst ≤ j ∧ j < dst + n then m[src + (j - dst)]? else m[j]?
  | 0, m, dst, src, _, _ => ⟨m, rfl, rfl, fun j => by rw [if_neg (by omega)]⟩
  | n + 1, m, dst, src, h, hs => by
    have hlt : src < m.length := by omega
    obtain ⟨m1, h1, hl1, hg1⟩ := wr_get (m := m) (i := dst) (v := m[src]) (by omega)
    obtain ⟨m', h', hl', hg'⟩ := copyUp_low n m1 (dst + 1) (src + 1) (by omega) (by omega)
    refine ⟨m', by simp [copyUp, rd_lt hlt, h1, h'], by omega, ?_⟩
    intro j
    rw [hg']
    by_cases hj : dst ≤ j ∧ j < dst + (n + 1)
    · rw [if_pos hj]
      by_cases he : j = dst
      · subst he
        rw [if_neg (by omega), hg1, if_pos rfl]; simp [hlt]
      · rw [if_pos (by omega), hg1, if_neg (by omega)]
        congr 1; omega
    · rw [if_neg hj, if_neg (by omega), hg1, if_neg (by omega)]

omit [DecidableEq α] in
/-- copying upwards to a higher place: the first `dst - src` characters over and over -/
theorem copyUp_high : ∀ (n : Nat) (m : List α) (dst src : Nat), src < dst → dst + n ≤ m.length →
    ∃ m', copyUp m dst src n = some m' ∧ m'.length = m.length ∧
      ∀ j, m'[j]? = if dst ≤ j ∧ j < dst + n then m[src + (j - dst) % (dst - src)]? else m[j]?
  | 0, m, dst, src, _, _ => ⟨m, rfl, rfl, fun j => by rw [if_neg (by omega)]⟩
  | n + 1, m, dst, src, h, hs => by
    have hlt : src < m.length := by omega
    obtain ⟨m1, h1, hl1, hg1⟩ := wr_get (m := m) (i := dst) (v := m[src]) (by omega)
    obtain ⟨m', h', hl', hg'⟩ := copyUp_high n m1 (dst + 1) (src + 1) (by omega) (by omega)
    refine ⟨m', by simp [copyUp, rd_lt hlt, h1, h'], by omega, ?_⟩
    intro j
    rw [hg']
    by_cases hj : dst ≤ j ∧ j < dst + (n + 1)
    · rw [if_pos hj]
      by_cases he : j = dst
      · subst he
        rw [if_neg (by omega), hg1, if_pos rfl]; simp [hlt]
      · rw [if_pos (by omega), hg1]
        obtain ⟨q, rfl⟩ : ∃ q, j = dst + 1 + q := ⟨j - (dst + 1), by omega⟩
        have e1 : dst + 1 + q - (dst + 1) = q := by omega
        have e2 : dst + 1 - (src + 1) = dst - src := by omega
        have e3 : dst + 1 + q - dst = q + 1 := by omega
        rw [e1, e2, e3]
        have hd : 0 < dst - src := by omega
        have hq := Nat.mod_lt q hd
        have hs1 : (q + 1) % (dst - src) = if q % (dst - src) + 1 = dst - src then 0 else q % (dst - src) + 1 := by
          rw [Nat.add_mod]
          split
          · rename_i hh
            by_cases h1 : dst - src = 1
            · rw [h1]; simp [Nat.mod_one]
            · rw [Nat.mod_eq_of_lt (a := 1) (by omega), hh, Nat.mod_self]
          · rw [Nat.mod_eq_of_lt (a := 1) (by omega), Nat.mod_eq_of_lt (by omega)]
        rw [hs1]
        by_cases hh : q % (dst - src) + 1 = dst - src
        · rw [if_pos (by omega), if_pos hh]; simp [hlt]
        · rw [if_neg (by omega), if_neg hh]; congr 1; omega
    · rw [if_neg hj, if_neg (by omega), hg1, if_neg (by omega)]

omit [DecidableEq α] in
/-- copying between places that have nothing in common -/
theorem copyUp_apart {n : Nat} {m : List α} {dst src : Nat} (h : dst + n ≤ src ∨ src + n ≤ dst ∨ dst = src)
    (hs : src + n ≤ m.length) (hd : dst + n ≤ m.length) :
    ∃ m', copyUp m dst src n = some m' ∧ m'.length = m.length ∧
      ∀ j, m'[j]? = if dst ≤ j ∧ j < dst + n then m[src + (j - dst)]? else m[j]? := by
  by_cases hc : dst ≤ src
  · exact copyUp_low n m dst src hc hs
  · obtain ⟨m', h1, h2, h3⟩ := copyUp_high n m dst src (by omega) hd
    refine ⟨m', h1, h2, fun j => ?_⟩
    rw [h3]
    by_cases hj : dst ≤ j ∧ j < dst + n
    · rw [if_pos hj, if_pos hj, Nat.mod_eq_of_lt (by omega)]
    · rw [if_neg hj, if_neg hj]

omit [DecidableEq α] in
/-- moving a block up -/
theorem copyDown_get : ∀ (n : Nat) (m : List α) (first by_ : Nat), first + n + by_ ≤ m.length →
    ∃ m', copyDown m first by_ n = some m' ∧ m'.length = m.length ∧
      ∀ j, m'[j]? = if first + by_ ≤ j ∧ j < first + by_ + n then m[j - by_]? else m[j]?
  | 0, m, first, by_, _ => ⟨m, rfl, rfl, fun j => by rw [if_neg (by omega)]⟩
  | n + 1, m, first, by_, h => by
    have hlt : first + n < m.length := by omega
    obtain ⟨m1, h1, hl1, hg1⟩ := wr_get (m := m) (i := first + n + by_) (v := m[first + n]) (by omega)
    obtain ⟨m', h', hl', hg'⟩ := copyDown_get n m1 first by_ (by omega)
    refine ⟨m', by simp [copyDown, rd_lt hlt, h1, h'], by omega, ?_⟩
    intro j
    rw [hg']
    by_cases he : j = first + n + by_
    · subst he
      rw [if_neg (by omega), hg1, if_pos rfl, if_pos (by omega)]
      have e : first + n + by_ - by_ = first + n := by omega
      rw [e, List.getElem?_eq_getElem hlt]
    · by_cases hj : first + by_ ≤ j ∧ j < first + by_ + (n + 1)
      · rw [if_pos hj, if_pos (by omega), hg1, if_neg (by omega)]
      · rw [if_neg hj, if_neg (by omega), hg1, if_neg he]

/-! ## Sizes -/

theorem size_of {z : α} {m : List α} {s : Str} {t : List α} (h : Holds z m s t) : size z m s = .ok t.length := by
  obtain ⟨hc, hm, ht, hf⟩ := h
  unfold size
  cases hterm : s.term with
  | false => simp [hf hterm]
  | true =>
    obtain ⟨hz, h0⟩ := ht hterm
    rw [chars_one] at h0
    have := strlen_of (z := z) t (m.drop s.ptr) hz hc (by rw [List.getElem?_drop]; exact h0)
    simp [this, Nat.mod_eq_of_lt hm]

theorem setSize_of (z : α) {m : List α} {s : Str} {n : Nat} (hm : n < s.modulus) (hl : s.ptr + n < m.length) :
    ∃ m' c, setSize z m s n = .ok (m', { s with msize := c }) ∧ m'.length = m.length ∧
      (∀ j, j ≠ s.ptr + n → m'[j]? = m[j]?) ∧ (s.term = true → m'[s.ptr + n]? = some z) ∧
      (s.term = false → c = n ∧ m' = m) := by
  unfold setSize
  cases hterm : s.term with
  | false => exact ⟨m, n, by simp [Nat.mod_eq_of_lt hm], rfl, fun _ _ => rfl, by simp, by simp⟩
  | true =>
    obtain ⟨m', h1, h2, h3⟩ := wr_get (m := m) (i := s.ptr + n) (v := z) hl
    refine ⟨m', s.msize, ?_, h2, fun j hj => by rw [h3, if_neg hj], fun _ => by rw [h3, if_pos rfl], by simp⟩
    simp only [Nat.mod_eq_of_lt hm, h1, ofOption_some, bind_ok, if_true, ← hterm]

omit [DecidableEq α] in
theorem chars_get {m : List α} {p : Nat} {l : List α} (h : Chars m p l) {j : Nat} (hj : j < l.length) :
    m[p + j]? = l[j]? := (chars_iff m p l).1 h j hj

omit [DecidableEq α] in
theorem chars_len {m : List α} {p : Nat} {l : List α} (h : Chars m p l) (hl : l ≠ []) : p + l.length ≤ m.length := by
  have := h.length_le
  have hpos : 0 < l.length := List.length_pos_iff.2 hl
  simp at this; omega

theorem holds_len {z : α} {m : List α} {s : Str} {t : List α} (h : Holds z m s t) (hl : s.ptr < m.length) :
    s.ptr + t.length ≤ m.length := by
  by_cases ht : t = []
  · subst ht; simp; omega
  · exact chars_len h.1 ht

theorem ensure_of {asserts : Bool} {s : Str} {n : Nat} (hc : n ≤ s.cap) (hm : n < s.modulus) :
    ensureCapacity asserts s n = .ok () := by
  unfold ensureCapacity
  rw [Nat.mod_eq_of_lt hm, if_neg (by omega)]

/-- a string whose characters and end mark are in place -/
theorem holds_mk {z : α} {m : List α} {s : Str} {t : List α} {c : Nat} (hm : t.length < s.modulus)
    (hc : ∀ j, j < t.length → m[s.ptr + j]? = t[j]?) (ht : s.term = true → z ∉ t ∧ m[s.ptr + t.length]? = some z)
    (hf : s.term = false → c = t.length) : Holds z m { s with msize := c } t :=
  ⟨(chars_iff _ _ _).2 hc, hm, fun h => ⟨(ht h).1, (chars_one _ _ _).2 (ht h).2⟩, hf⟩

/-! ## Appending -/

/-- `append(pointer, n)`: whenever the source lies outside the cells about to be written — which a piece of the string
itself always does — the string becomes its old text followed by the source, and nothing else changes. -/
theorem append_pointer (asserts : Bool) (z : α) (m : List α) (s : Str) (t l : List α) (p : Nat)
    (hh : Holds z m s t) (hsrc : Chars m p l) (hz : s.term = true → z ∉ l)
    (hfit : Fits m s (t.length + l.length))
    (hap : l.length = 0 ∨ p + l.length ≤ s.ptr + t.length ∨ s.ptr + t.length + l.length + 1 ≤ p) :
    ∃ m' s', appendPtr asserts z m s p l.length = .ok (m', s') ∧ Holds z m' s' (t ++ l) ∧
      s'.ptr = s.ptr ∧ OnlyChanged m m' (s.ptr + t.length) (l.length + 1) := by
  obtain ⟨hcap, hmod, hlen⟩ := hfit
  obtain ⟨m1, c, h1, hl1, hg1, ht1, hf1⟩ := setSize_of z (m := m) (s := s) (n := t.length + l.length) hmod hlen
  have hsl : l ≠ [] → p + l.length ≤ m.length := fun h => chars_len hsrc h
  have hcopy : ∃ m', copyUp m1 (s.ptr + t.length) p l.length = some m' ∧ m'.length = m1.length ∧
      ∀ j, m'[j]? = if s.ptr + t.length ≤ j ∧ j < s.ptr + t.length + l.length then
        m1[p + (j - (s.ptr + t.length))]? else m1[j]? := by
    by_cases hne : l = []
    · subst hne
      exact ⟨m1, rfl, rfl, fun j => by rw [if_neg (by simp only [List.length_nil]; omega)]⟩
    · have := hsl hne
      have hap' := hap.resolve_left (fun h => hne (List.length_eq_zero_iff.1 h))
      exact copyUp_apart (dst := s.ptr + t.length) (src := p) (by omega) (by omega) (by omega)
  obtain ⟨m', h2, hl2, hg2⟩ := hcopy
  have hlm : l.length % s.modulus = l.length := Nat.mod_eq_of_lt (by omega)
  refine ⟨m', { s with msize := c }, ?_, ?_, rfl, by omega, ?_⟩
  · unfold appendPtr grow
    rw [size_of hh]
    simp only [bind_ok, hlm, ensure_of (asserts := asserts) hcap hmod, h1, h2, ofOption_some]
  · refine holds_mk (by simpa using hmod) ?_ ?_ (fun h => by simpa using (hf1 h).1)
    · intro j hj
      simp only [List.length_append] at hj
      rw [hg2]
      by_cases hjt : j < t.length
      · rw [if_neg (by omega), hg1 _ (by omega), chars_get hh.1 hjt, List.getElem?_append_left hjt]
      · rw [if_pos (by omega), List.getElem?_append_right (by omega)]
        have e : p + (s.ptr + j - (s.ptr + t.length)) = p + (j - t.length) := by omega
        rw [e, hg1 _ ?_, chars_get hsrc (by omega)]
        omega
    · intro hterm
      refine ⟨?_, ?_⟩
      · intro hmem
        rcases List.mem_append.1 hmem with h | h
        · exact (hh.2.2.1 hterm).1 h
        · exact hz hterm h
      · rw [hg2, List.length_append, if_neg (by omega)]
        exact ht1 hterm
  · intro j hj
    rw [hg2, if_neg (by omega), hg1 _ (by omega)]

/-- what `copy` on a string does, once its size is known -/
theorem copyOut_of {z : α} {m : List α} {src : Str} {l : List α} {dst n : Nat} (hs : size z m src = .ok n)
    (hn : l.length ≤ n) (hc : Chars m src.ptr l)
    (hap : l.length = 0 ∨ src.ptr + l.length ≤ dst ∨ dst + l.length ≤ src.ptr) (hd : dst + l.length ≤ m.length) :
    ∃ m', copyOut z m src dst l.length = .ok m' ∧ m'.length = m.length ∧
      ∀ j, m'[j]? = if dst ≤ j ∧ j < dst + l.length then l[j - dst]? else m[j]? := by
  unfold copyOut memcpy
  rw [hs]
  simp only [bind_ok]
  rw [if_neg (by omega : ¬ l.length > n)]
  by_cases hne : l = []
  · subst hne
    exact ⟨m, by simp [copyUp], rfl, fun j => by rw [if_neg (by simp only [List.length_nil]; omega)]⟩
  · have hap' := hap.resolve_left (fun h => hne (List.length_eq_zero_iff.1 h))
    obtain ⟨m', h1, h2, h3⟩ := copyUp_apart (dst := dst) (src := src.ptr) (n := l.length) (m := m) (by omega)
      (chars_len hc hne) hd
    rw [if_pos (by omega), h1]
    refine ⟨m', rfl, h2, fun j => ?_⟩
    rw [h3]
    by_cases hj : dst ≤ j ∧ j < dst + l.length
    · rw [if_pos hj, if_pos hj, chars_get hc (by omega)]
    · rw [if_neg hj, if_neg hj]

/-- a source keeps its text while the target's end mark is moved, if that mark does not land on its characters -/
theorem holds_mark {z : α} {m m1 : List α} {s src : Str} {l : List α} {e : Nat} (hh : Holds z m src l)
    (hg : ∀ j, j ≠ e → m1[j]? = m[j]?) (ht : s.term = true → m1[e]? = some z) (hf : s.term = false → m1 = m)
    (hap : l.length = 0 ∨ src.ptr + l.length ≤ e ∨ e < src.ptr) : Holds z m1 src l := by
  cases hterm : s.term with
  | false => rw [hf hterm]; exact hh
  | true =>
    refine ⟨(chars_iff _ _ _).2 fun j hj => ?_, hh.2.1, fun h => ⟨(hh.2.2.1 h).1, ?_⟩, hh.2.2.2⟩
    · rw [hg _ ?_, chars_get hh.1 hj]
      omega
    · rw [chars_one]
      by_cases he : src.ptr + l.length = e
      · rw [he]; exact ht hterm
      · rw [hg _ he]; exact (chars_one _ _ _).1 (hh.2.2.1 h).2

theorem append_string_aux (asserts : Bool) (z : α) (m : List α) (s src : Str) (o : Option Str) (t l : List α)
    (ho : o = some src ∨ (o = none ∧ src = s))
    (hh : Holds z m s t) (hsrc : Holds z m src l) (hz : s.term = true → z ∉ l)
    (hfit : Fits m s (t.length + l.length))
    (hap : l.length = 0 ∨ src.ptr + l.length ≤ s.ptr + t.length ∨ s.ptr + t.length + l.length + 1 ≤ src.ptr) :
    ∃ m' s', appendStr asserts z m s o = .ok (m', s') ∧ Holds z m' s' (t ++ l) ∧
      s'.ptr = s.ptr ∧ s'.cap = s.cap ∧ s'.modulus = s.modulus ∧ s'.term = s.term ∧
      OnlyChanged m m' (s.ptr + t.length) (l.length + 1) := by
  obtain ⟨hcap, hmod, hlen⟩ := hfit
  obtain ⟨m1, c, h1, hl1, hg1, ht1, hf1⟩ := setSize_of z (m := m) (s := s) (n := t.length + l.length) hmod hlen
  have hsrc1 : Holds z m1 src l := holds_mark (s := s) hsrc hg1 ht1 (fun h => (hf1 h).2) (by omega)
  have hlm : l.length % s.modulus = l.length := Nat.mod_eq_of_lt (by omega)
  have hsz0 : size z m (o.getD s) = .ok l.length := by
    rcases ho with rfl | ⟨rfl, rfl⟩ <;> exact size_of hsrc
  have hcopy : ∃ m', copyOut z m1 (o.getD { s with msize := c }) (s.ptr + t.length) l.length = .ok m' ∧
      m'.length = m1.length ∧
      ∀ j, m'[j]? = if s.ptr + t.length ≤ j ∧ j < s.ptr + t.length + l.length then
        l[j - (s.ptr + t.length)]? else m1[j]? := by
    rcases ho with rfl | ⟨rfl, rfl⟩
    · exact copyOut_of (src := src) (size_of hsrc1) (Nat.le_refl _) hsrc1.1 (by omega) (by omega)
    · have hs2 : ∃ n, size z m1 { src with msize := c } = .ok n ∧ l.length ≤ n := by
        cases hterm : src.term with
        | false => exact ⟨c, by simp [size, hterm], by have := (hf1 hterm).1; omega⟩
        | true =>
          refine ⟨l.length, ?_, Nat.le_refl _⟩
          have := size_of hsrc1
          unfold size at this ⊢
          simpa [hterm] using this
      obtain ⟨n, hn1, hn2⟩ := hs2
      exact copyOut_of (src := { src with msize := c }) hn1 hn2 hsrc1.1 (by simp only; omega) (by omega)
  obtain ⟨m', h2, hl2, hg2⟩ := hcopy
  refine ⟨m', { s with msize := c }, ?_, ?_, rfl, rfl, rfl, rfl, by omega, ?_⟩
  · unfold appendStr grow
    rw [hsz0]
    simp only [bind_ok, hlm, size_of hh, ensure_of (asserts := asserts) hcap hmod, h1, h2]
  · refine holds_mk (by simpa using hmod) ?_ ?_ (fun h => by simpa using (hf1 h).1)
    · intro j hj
      simp only [List.length_append] at hj
      rw [hg2]
      by_cases hjt : j < t.length
      · rw [if_neg (by omega), hg1 _ (by omega), chars_get hh.1 hjt, List.getElem?_append_left hjt]
      · rw [if_pos (by omega), List.getElem?_append_right (by omega)]
        congr 1; omega
    · intro hterm
      refine ⟨?_, ?_⟩
      · intro hmem
        rcases List.mem_append.1 hmem with h | h
        · exact (hh.2.2.1 hterm).1 h
        · exact hz hterm h
      · rw [hg2, List.length_append, if_neg (by omega)]
        exact ht1 hterm
  · intro j hj
    rw [hg2, if_neg (by omega), hg1 _ (by omega)]

/-- `append(string)`: whenever the other string's characters lie outside the cells about to be written — which they
do also when it is another name for this string, or a tail of it — the string becomes the two texts one after the
other. -/
theorem append_string (asserts : Bool) (z : α) (m : List α) (s src : Str) (t l : List α)
    (hh : Holds z m s t) (hsrc : Holds z m src l) (hz : s.term = true → z ∉ l)
    (hfit : Fits m s (t.length + l.length))
    (hap : l.length = 0 ∨ src.ptr + l.length ≤ s.ptr + t.length ∨ s.ptr + t.length + l.length + 1 ≤ src.ptr) :
    ∃ m' s', appendStr asserts z m s (some src) = .ok (m', s') ∧ Holds z m' s' (t ++ l) ∧
      s'.ptr = s.ptr ∧ OnlyChanged m m' (s.ptr + t.length) (l.length + 1) := by
  obtain ⟨m', s', h1, h2, h3, _, _, _, h4⟩ := append_string_aux asserts z m s src (some src) t l (.inl rfl) hh hsrc hz hfit hap
  exact ⟨m', s', h1, h2, h3, h4⟩

/-- `s.append(s)` doubles the text. -/
theorem append_itself (asserts : Bool) (z : α) (m : List α) (s : Str) (t : List α)
    (hh : Holds z m s t) (hfit : Fits m s (t.length + t.length)) :
    ∃ m' s', appendStr asserts z m s none = .ok (m', s') ∧ Holds z m' s' (t ++ t) ∧
      s'.ptr = s.ptr ∧ OnlyChanged m m' (s.ptr + t.length) (t.length + 1) := by
  obtain ⟨m', s', h1, h2, h3, _, _, _, h4⟩ := append_string_aux asserts z m s s none t t (.inr ⟨rfl, rfl⟩) hh hh
    (fun h => (hh.2.2.1 h).1) hfit (by omega)
  exact ⟨m', s', h1, h2, h3, h4⟩

/-! ## Assigning -/

/-- `s = pointer`: when the source lies outside the cells about to be written, the string becomes the source. -/
theorem assign_pointer (asserts : Bool) (z : α) (m : List α) (s : Str) (l : List α) (p : Nat)
    (hz : z ∉ l) (hsrc : Chars m p (l ++ [z])) (hfit : Fits m s l.length)
    (hap : l.length = 0 ∨ p + l.length ≤ s.ptr ∨ s.ptr + l.length + 1 ≤ p) :
    ∃ m' s', assignPtr asserts z m s p = .ok (m', s') ∧ Holds z m' s' l ∧
      s'.ptr = s.ptr ∧ OnlyChanged m m' s.ptr (l.length + 1) := by
  obtain ⟨hcap, hmod, hlen⟩ := hfit
  obtain ⟨m1, c, h1, hl1, hg1, ht1, hf1⟩ := setSize_of z (m := m) (s := s) (n := l.length) hmod hlen
  have hpl := chars_len hsrc (by simp)
  simp only [List.length_append, List.length_singleton] at hpl
  have hsl : strlen z (m.drop p) = some l.length := by
    have hp : l <+: m.drop p := (List.prefix_append l [z]).trans hsrc
    refine strlen_of l _ hz hp ?_
    have := chars_get hsrc (j := l.length) (by simp)
    rw [List.getElem?_drop, this]; simp
  have hlm : l.length % s.modulus = l.length := Nat.mod_eq_of_lt hmod
  have hcopy : ∃ m', copyUp m1 s.ptr p l.length = some m' ∧ m'.length = m1.length ∧
      ∀ j, m'[j]? = if s.ptr ≤ j ∧ j < s.ptr + l.length then m1[p + (j - s.ptr)]? else m1[j]? := by
    by_cases hne : l = []
    · subst hne
      exact ⟨m1, rfl, rfl, fun j => by rw [if_neg (by simp only [List.length_nil]; omega)]⟩
    · have hap' := hap.resolve_left (fun h => hne (List.length_eq_zero_iff.1 h))
      exact copyUp_apart (dst := s.ptr) (src := p) (by omega) (by omega) (by omega)
  obtain ⟨m', h2, hl2, hg2⟩ := hcopy
  refine ⟨m', { s with msize := c }, ?_, ?_, rfl, by omega, ?_⟩
  · unfold assignPtr ensureTotalSize
    rw [hsl]
    simp only [ofOption_some, bind_ok, hlm, ensure_of (asserts := asserts) hcap hmod, h1, h2]
  · refine holds_mk hmod ?_ ?_ (fun h => (hf1 h).1)
    · intro j hj
      rw [hg2, if_pos (by omega)]
      have e : p + (s.ptr + j - s.ptr) = p + j := by omega
      rw [e, hg1 _ ?_, chars_get hsrc (by simp; omega), List.getElem?_append_left hj]
      omega
    · intro hterm
      exact ⟨hz, by rw [hg2, if_neg (by omega)]; exact ht1 hterm⟩
  · intro j hj
    rw [hg2, if_neg (by omega), hg1 _ (by omega)]

theorem assign_string_aux (asserts : Bool) (z : α) (m : List α) (s src : Str) (l : List α)
    (hsrc : Holds z m src l) (hz : s.term = true → z ∉ l) (hfit : Fits m s l.length)
    (hap : l.length = 0 ∨ src.ptr + l.length ≤ s.ptr ∨ s.ptr + l.length + 1 ≤ src.ptr) :
    ∃ m' s', assignStr asserts z m s src = .ok (m', s') ∧ Holds z m' s' l ∧
      s'.ptr = s.ptr ∧ s'.cap = s.cap ∧ s'.modulus = s.modulus ∧ s'.term = s.term ∧
      OnlyChanged m m' s.ptr (l.length + 1) := by
  obtain ⟨hcap, hmod, hlen⟩ := hfit
  obtain ⟨m1, c, h1, hl1, hg1, ht1, hf1⟩ := setSize_of z (m := m) (s := s) (n := l.length) hmod hlen
  have hsrc1 : Holds z m1 src l := holds_mark (s := s) hsrc hg1 ht1 (fun h => (hf1 h).2) (by omega)
  obtain ⟨m', h2, hl2, hg2⟩ := copyOut_of (src := src) (dst := s.ptr) (size_of hsrc1) (Nat.le_refl _) hsrc1.1 (by omega) (by omega)
  refine ⟨m', { s with msize := c }, ?_, ?_, rfl, rfl, rfl, rfl, by omega, ?_⟩
  · unfold assignStr ensureTotalSize
    rw [size_of hsrc]
    simp only [bind_ok, ensure_of (asserts := asserts) hcap hmod, h1, h2]
  · refine holds_mk hmod ?_ ?_ (fun h => (hf1 h).1)
    · intro j hj
      rw [hg2, if_pos (by omega)]
      congr 1; omega
    · intro hterm
      exact ⟨hz hterm, by rw [hg2, if_neg (by omega)]; exact ht1 hterm⟩
  · intro j hj
    rw [hg2, if_neg (by omega), hg1 _ (by omega)]

/-- `s = string` (of another type): when the source's characters lie outside the cells about to be written, the string
becomes a copy of them; the source keeps its own. -/
theorem assign_string (asserts : Bool) (z : α) (m : List α) (s src : Str) (l : List α)
    (hsrc : Holds z m src l) (hz : s.term = true → z ∉ l) (hfit : Fits m s l.length)
    (hap : l.length = 0 ∨ src.ptr + l.length ≤ s.ptr ∨ s.ptr + l.length + 1 ≤ src.ptr) :
    ∃ m' s', assignStr asserts z m s src = .ok (m', s') ∧ Holds z m' s' l ∧
      s'.ptr = s.ptr ∧ OnlyChanged m m' s.ptr (l.length + 1) := by
  obtain ⟨m', s', h1, h2, h3, _, _, _, h4⟩ := assign_string_aux asserts z m s src l hsrc hz hfit hap
  exact ⟨m', s', h1, h2, h3, h4⟩

/-! ## Inserting -/

theorem insert_steps (asserts : Bool) (z : α) (m : List α) (s : Str) (t : List α) (p i n : Nat)
    (hh : Holds z m s t) (hi : i ≤ t.length) (hfit : Fits m s (t.length + n)) :
    ∃ m1 c, m1.length = m.length ∧
      (∀ m2, copyUp m1 (s.ptr + i) p n = some m2 →
        insertPtr asserts z m s i p n = .ok (m2, { s with msize := c })) ∧
      (∀ j, j < i → m1[s.ptr + j]? = t[j]?) ∧
      (∀ j, i ≤ j → j < t.length → m1[s.ptr + n + j]? = t[j]?) ∧
      (∀ j, i ≤ j → j < i + n → j < t.length → m1[s.ptr + j]? = t[j]?) ∧
      (∀ j, (j < s.ptr + i ∨ s.ptr + t.length + n + 1 ≤ j) → m1[j]? = m[j]?) ∧
      (s.term = true → m1[s.ptr + t.length + n]? = some z) ∧ (s.term = false → c = t.length + n) := by
  obtain ⟨hcap, hmod, hlen⟩ := hfit
  obtain ⟨m0, c, h0, hl0, hg0, ht0, hf0⟩ := setSize_of z (m := m) (s := s) (n := t.length + n) hmod hlen
  obtain ⟨m1, h1, hl1, hg1⟩ := copyDown_get (t.length - i) m0 (s.ptr + i) n (by omega)
  have hnm : n % s.modulus = n := Nat.mod_eq_of_lt (by omega)
  refine ⟨m1, c, by omega, ?_, ?_, ?_, ?_, ?_, ?_, fun h => (hf0 h).1⟩
  · intro m2 h2
    unfold insertPtr ensureTotalSize
    rw [size_of hh]
    simp only [bind_ok, hnm, ensure_of (asserts := asserts) hcap hmod, h0, if_pos hi, h1, h2, ofOption_some]
  · intro j hj
    rw [hg1, if_neg (by omega), hg0 _ (by omega), chars_get hh.1 (by omega)]
  · intro j hj1 hj2
    rw [hg1, if_pos (by omega)]
    have e : s.ptr + n + j - n = s.ptr + j := by omega
    rw [e]
    by_cases hn : j = t.length + n
    · omega
    · rw [hg0 _ (by omega), chars_get hh.1 hj2]
  · intro j hj1 hj2 hj3
    rw [hg1, if_neg (by omega), hg0 _ (by omega), chars_get hh.1 hj3]
  · intro j hj
    rw [hg1, if_neg (by omega), hg0 _ (by omega)]
  · intro hterm
    rw [hg1, if_neg (by omega)]
    have := ht0 hterm
    rw [← this]; congr 1; omega

/-- assembling the result of an insertion -/
theorem insert_holds {z : α} {m1 m2 : List α} {s : Str} {t l : List α} {i c : Nat} (hh : s.term = true → z ∉ t)
    (hz : s.term = true → z ∉ l) (hi : i ≤ t.length) (hmod : t.length + l.length < s.modulus)
    (ha : ∀ j, j < i → m1[s.ptr + j]? = t[j]?)
    (hb : ∀ j, i ≤ j → j < t.length → m1[s.ptr + l.length + j]? = t[j]?)
    (ht : s.term = true → m1[s.ptr + t.length + l.length]? = some z) (hf : s.term = false → c = t.length + l.length)
    (hg : ∀ j, (j < s.ptr + i ∨ s.ptr + i + l.length ≤ j) → m2[j]? = m1[j]?)
    (hl : ∀ j, j < l.length → m2[s.ptr + i + j]? = l[j]?) :
    Holds z m2 { s with msize := c } (t.take i ++ l ++ t.drop i) := by
  have hlen : (t.take i ++ l ++ t.drop i).length = t.length + l.length := by simp; omega
  refine holds_mk (by omega) ?_ ?_ (fun h => by rw [hlen]; exact hf h)
  · intro j hj
    rw [hlen] at hj
    by_cases h1 : j < i
    · rw [hg _ (by omega), ha j h1, List.append_assoc, List.getElem?_append_left (by simp; omega), List.getElem?_take]
      simp [h1]
    · by_cases h2 : j < i + l.length
      · have := hl (j - i) (by omega)
        have e : s.ptr + i + (j - i) = s.ptr + j := by omega
        rw [e] at this
        rw [this, List.append_assoc, List.getElem?_append_right (by simp; omega),
          List.getElem?_append_left (by simp; omega)]
        congr 1; simp; omega
      · have := hb (j - l.length) (by omega) (by omega)
        have e : s.ptr + l.length + (j - l.length) = s.ptr + j := by omega
        rw [e] at this
        rw [hg _ (by omega), this, List.getElem?_append_right (by simp; omega), List.getElem?_drop]
        congr 1; simp; omega
  · intro hterm
    refine ⟨?_, ?_⟩
    · intro hmem
      rcases List.mem_append.1 hmem with h | h
      · rcases List.mem_append.1 h with h | h
        · exact hh hterm (List.mem_of_mem_take h)
        · exact hz hterm h
      · exact hh hterm (List.mem_of_mem_drop h)
    · rw [hlen, hg _ (by omega), ← Nat.add_assoc]; exact ht hterm

theorem insert_pointer_aux (asserts : Bool) (z : α) (m : List α) (s : Str) (t l : List α) (p i : Nat)
    (hh : Holds z m s t) (hi : i ≤ t.length) (hsrc : Chars m p l) (hz : s.term = true → z ∉ l)
    (hfit : Fits m s (t.length + l.length))
    (hap : l.length = 0 ∨ p + l.length ≤ s.ptr + i ∨ s.ptr + t.length + l.length + 1 ≤ p) :
    ∃ m' s', insertPtr asserts z m s i p l.length = .ok (m', s') ∧ Holds z m' s' (t.take i ++ l ++ t.drop i) ∧
      s'.ptr = s.ptr ∧ s'.cap = s.cap ∧ s'.modulus = s.modulus ∧ s'.term = s.term ∧
      OnlyChanged m m' (s.ptr + i) (t.length - i + l.length + 1) := by
  obtain ⟨m1, c, hl1, hins, ha, hb, -, hout, ht, hf⟩ := insert_steps asserts z m s t p i l.length hh hi hfit
  obtain ⟨hcap, hmod, hlen⟩ := hfit
  have hcopy : ∃ m', copyUp m1 (s.ptr + i) p l.length = some m' ∧ m'.length = m1.length ∧
      ∀ j, m'[j]? = if s.ptr + i ≤ j ∧ j < s.ptr + i + l.length then m1[p + (j - (s.ptr + i))]? else m1[j]? := by
    by_cases hne : l = []
    · subst hne
      exact ⟨m1, rfl, rfl, fun j => by rw [if_neg (by simp only [List.length_nil]; omega)]⟩
    · have hap' := hap.resolve_left (fun h => hne (List.length_eq_zero_iff.1 h))
      have := chars_len hsrc hne
      exact copyUp_apart (dst := s.ptr + i) (src := p) (by omega) (by omega) (by omega)
  obtain ⟨m2, h2, hl2, hg2⟩ := hcopy
  refine ⟨m2, _, hins m2 h2, insert_holds (fun h => (hh.2.2.1 h).1) hz hi hmod ha hb ht hf ?_ ?_, rfl, rfl, rfl, rfl,
    by omega, ?_⟩
  · intro j hj
    rw [hg2, if_neg (by omega)]
  · intro j hj
    rw [hg2, if_pos (by omega)]
    have e : p + (s.ptr + i + j - (s.ptr + i)) = p + j := by omega
    rw [e, hout _ ?_, chars_get hsrc hj]
    omega
  · intro j hj
    rw [hg2, if_neg (by omega), hout _ (by omega)]

/-- `insert(i, pointer, n)`: when the source lies outside the cells about to be written — text of the string itself in
front of the insertion point included — the source appears at position `i`. -/
theorem insert_pointer (asserts : Bool) (z : α) (m : List α) (s : Str) (t l : List α) (p i : Nat)
    (hh : Holds z m s t) (hi : i ≤ t.length) (hsrc : Chars m p l) (hz : s.term = true → z ∉ l)
    (hfit : Fits m s (t.length + l.length))
    (hap : l.length = 0 ∨ p + l.length ≤ s.ptr + i ∨ s.ptr + t.length + l.length + 1 ≤ p) :
    ∃ m' s', insertPtr asserts z m s i p l.length = .ok (m', s') ∧ Holds z m' s' (t.take i ++ l ++ t.drop i) ∧
      s'.ptr = s.ptr ∧ OnlyChanged m m' (s.ptr + i) (t.length - i + l.length + 1) := by
  obtain ⟨m', s', h1, h2, h3, _, _, _, h4⟩ := insert_pointer_aux asserts z m s t l p i hh hi hsrc hz hfit hap
  exact ⟨m', s', h1, h2, h3, h4⟩

/-- the character that ends up at place `j` of an inserted piece, when the piece is the `n` characters of the string
itself from `k` on and is inserted at `i` -/
def ownInserted (t : List α) (i k n j : Nat) : Option α :=
  if k < i then t[k + j % (i - k)]? else if k + j < i + n then t[k + j]? else t[k + j - n]?

/-- **Violation.** `insert(i, pointer, n)` with a piece of the string itself, `n` characters from `k` on.  What comes
out is the old text with `n` characters put in at `i`, but not always the piece that was given: when the piece starts
in front of `i` the characters between `k` and `i` are repeated over and over, and when it starts behind `i` the last
ones are read from where the tail has already been moved away. -/
theorem insert_own (asserts : Bool) (z : α) (m : List α) (s : Str) (t : List α) (i k n : Nat)
    (hh : Holds z m s t) (hi : i ≤ t.length) (hk : k + n ≤ t.length) (hfit : Fits m s (t.length + n)) :
    ∃ m' s' l, insertPtr asserts z m s i (s.ptr + k) n = .ok (m', s') ∧
      Holds z m' s' (t.take i ++ l ++ t.drop i) ∧ l.length = n ∧ ∀ j, j < n → l[j]? = ownInserted t i k n j := by
  obtain ⟨m1, c, hl1, hins, ha, hb, hmid, hout, ht, hf⟩ := insert_steps asserts z m s t (s.ptr + k) i n hh hi hfit
  obtain ⟨hcap, hmod, hlen⟩ := hfit
  have hcopy : ∃ m2, copyUp m1 (s.ptr + i) (s.ptr + k) n = some m2 ∧
      (∀ j, j < n → m2[s.ptr + i + j]? = ownInserted t i k n j) ∧
      (∀ j, (j < s.ptr + i ∨ s.ptr + i + n ≤ j) → m2[j]? = m1[j]?) := by
    by_cases hki : k < i
    · obtain ⟨m2, h1, h2, h3⟩ := copyUp_high n m1 (s.ptr + i) (s.ptr + k) (by omega) (by omega)
      refine ⟨m2, h1, fun j hj => ?_, fun j hj => by rw [h3, if_neg (by omega)]⟩
      rw [h3, if_pos (by omega), ownInserted, if_pos hki]
      have e1 : s.ptr + i - (s.ptr + k) = i - k := by omega
      have e2 : s.ptr + i + j - (s.ptr + i) = j := by omega
      rw [e1, e2, Nat.add_assoc]
      have := Nat.mod_lt j (y := i - k) (by omega)
      rw [ha _ (by omega)]
    · obtain ⟨m2, h1, h2, h3⟩ := copyUp_low n m1 (s.ptr + i) (s.ptr + k) (by omega) (by omega)
      refine ⟨m2, h1, fun j hj => ?_, fun j hj => by rw [h3, if_neg (by omega)]⟩
      rw [h3, if_pos (by omega), ownInserted, if_neg hki]
      have e2 : s.ptr + k + (s.ptr + i + j - (s.ptr + i)) = s.ptr + (k + j) := by omega
      rw [e2]
      by_cases hj2 : k + j < i + n
      · rw [if_pos hj2, hmid _ (by omega) hj2 (by omega)]
      · rw [if_neg hj2]
        have := hb (k + j - n) (by omega) (by omega)
        rw [← this]; congr 1; omega
  obtain ⟨m2, h2, hin, hg2⟩ := hcopy
  have hsome : ∀ j, j < n → ∃ x, ownInserted t i k n j = some x ∧ x ∈ t := by
    intro j hj
    have key : ∀ q, q < t.length → ∃ x, t[q]? = some x ∧ x ∈ t := fun q hq =>
      ⟨t[q], List.getElem?_eq_getElem hq, List.getElem_mem hq⟩
    unfold ownInserted
    split
    · have := Nat.mod_lt j (y := i - k) (by omega)
      exact key _ (by omega)
    · split
      · exact key _ (by omega)
      · exact key _ (by omega)
  have hlist : ∀ q, q ≤ n → ∃ l : List α, l.length = q ∧ (∀ j, j < q → l[j]? = ownInserted t i k n j) ∧ ∀ x ∈ l, x ∈ t := by
    intro q
    induction q with
    | zero => intro _; exact ⟨[], rfl, by simp, by simp⟩
    | succ q ih =>
      intro hq
      obtain ⟨l, e1, e2, e3⟩ := ih (by omega)
      obtain ⟨x, hx1, hx2⟩ := hsome q (by omega)
      refine ⟨l ++ [x], by simp [e1], ?_, ?_⟩
      · intro j hj
        by_cases hjq : j = q
        · subst hjq; rw [hx1, List.getElem?_append_right (by omega)]; simp [e1]
        · rw [List.getElem?_append_left (by omega)]; exact e2 j (by omega)
      · intro y hy
        rcases List.mem_append.1 hy with h | h
        · exact e3 y h
        · simp at h; subst h; exact hx2
  obtain ⟨l, hl, hlj, hmem⟩ := hlist n (Nat.le_refl _)
  refine ⟨m2, _, l, hins m2 h2, ?_, hl, hlj⟩
  subst hl
  exact insert_holds (fun h => (hh.2.2.1 h).1) (fun h hz => (hh.2.2.1 h).1 (hmem z hz)) hi hmod ha hb ht hf hg2
    (fun j hj => by rw [hin j hj, hlj j hj])

/-- A piece of the string itself is inserted properly when it ends in front of the insertion point or starts right at
it. -/
theorem insert_own_partial (asserts : Bool) (z : α) (m : List α) (s : Str) (t : List α) (i k n : Nat)
    (hh : Holds z m s t) (hi : i ≤ t.length) (hk : k + n ≤ t.length) (hfit : Fits m s (t.length + n))
    (hok : k + n ≤ i ∨ k = i) :
    ∃ m' s', insertPtr asserts z m s i (s.ptr + k) n = .ok (m', s') ∧
      Holds z m' s' (t.take i ++ (t.drop k).take n ++ t.drop i) := by
  obtain ⟨m', s', l, h1, h2, h3, h4⟩ := insert_own asserts z m s t i k n hh hi hk hfit
  have : l = (t.drop k).take n := by
    apply List.ext_getElem?
    intro j
    by_cases hj : j < n
    · rw [h4 j hj, List.getElem?_take, if_pos hj, List.getElem?_drop, ownInserted]
      split
      · rw [Nat.mod_eq_of_lt (by omega)]
      · rw [if_pos (by omega)]
    · rw [List.getElem?_eq_none (by omega), List.getElem?_eq_none (by simp; omega)]
  subst this
  exact ⟨m', s', h1, h2⟩

/-- **Violation.** A piece that straddles the insertion point is not what gets inserted, unless the string has the same
character at the start of the piece and at the insertion point: `s.insert(i, s)` does this for every `0 < i < size`. -/
theorem insert_straddling_wrong (asserts : Bool) (z : α) (m : List α) (s : Str) (t : List α) (i k n : Nat)
    (hh : Holds z m s t) (hk : k + n ≤ t.length) (hfit : Fits m s (t.length + n))
    (h1 : k < i) (h2 : i < k + n) (hne : t[k]? ≠ t[i]?) :
    ∃ m' s' r, insertPtr asserts z m s i (s.ptr + k) n = .ok (m', s') ∧ Holds z m' s' r ∧
      r ≠ t.take i ++ (t.drop k).take n ++ t.drop i := by
  obtain ⟨m', s', l, e1, e2, e3, e4⟩ := insert_own asserts z m s t i k n hh (by omega) hk hfit
  refine ⟨m', s', _, e1, e2, ?_⟩
  intro he
  have hl : l = (t.drop k).take n := by
    simp only [List.append_assoc, List.append_cancel_left_eq] at he
    exact (List.append_inj he (by simp; omega)).1
  have := e4 (i - k) (by omega)
  rw [hl, List.getElem?_take, if_pos (by omega), List.getElem?_drop, ownInserted, if_pos h1, Nat.mod_self] at this
  apply hne
  have e : k + (i - k) = i := by omega
  rw [e] at this
  rw [this]; rfl

/-! ## Assigning a tail of the string to itself -/

theorem holds_tail {z : α} {m : List α} {s : Str} {t : List α} {k : Nat} (hh : Holds z m s t) (ht : s.term = true)
    (hk : k ≤ t.length) : Chars m (s.ptr + k) (t.drop k ++ [z]) ∧ z ∉ t.drop k := by
  obtain ⟨hz, h0⟩ := hh.2.2.1 ht
  refine ⟨(chars_iff _ _ _).2 fun j hj => ?_, fun h => hz (List.mem_of_mem_drop h)⟩
  simp only [List.length_append, List.length_drop, List.length_singleton] at hj
  by_cases hj2 : j < t.length - k
  · rw [List.getElem?_append_left (by simp; omega), List.getElem?_drop, Nat.add_assoc, chars_get hh.1 (by omega)]
  · have : j = t.length - k := by omega
    subst this
    rw [List.getElem?_append_right (by simp)]
    have e : s.ptr + k + (t.length - k) = s.ptr + t.length := by omega
    rw [e, (chars_one _ _ _).1 h0]; simp

/-- **Violation.** `s = s.c_str() + k` on a null-terminated string: the new end mark is written before the characters
are copied.  With `n` characters from `k` on, the result is right when `k = 0` or `n < k`, and loses its last `k`
characters otherwise. -/
theorem assign_own_tail (asserts : Bool) (z : α) (m : List α) (s : Str) (t : List α) (k : Nat)
    (hh : Holds z m s t) (hterm : s.term = true) (hk : k ≤ t.length) (hcap : t.length ≤ s.cap) :
    ∃ m' s', assignPtr asserts z m s (s.ptr + k) = .ok (m', s') ∧
      Holds z m' s' (if k = 0 ∨ t.length - k < k then t.drop k else (t.drop k).take (t.length - k - k)) := by
  obtain ⟨hsrc, hz⟩ := holds_tail hh hterm hk
  have hlen : s.ptr + t.length < m.length := by
    have := chars_len (hh.2.2.1 hterm).2 (by simp); simp only [List.length_singleton] at this; omega
  have hmod := hh.2.1
  have hsl : strlen z (m.drop (s.ptr + k)) = some (t.length - k) := by
    have hp : t.drop k <+: m.drop (s.ptr + k) := (List.prefix_append _ [z]).trans hsrc
    have := strlen_of (t.drop k) _ hz hp (by
      have := chars_get hsrc (j := (t.drop k).length) (by simp)
      rw [List.getElem?_drop, this]; simp)
    simpa using this
  obtain ⟨m1, c, h1, hl1, hg1, ht1, hf1⟩ := setSize_of z (m := m) (s := s) (n := t.length - k) (by omega) (by omega)
  obtain ⟨m2, h2, hl2, hg2⟩ := copyUp_low (t.length - k) m1 s.ptr (s.ptr + k) (by omega) (by omega)
  refine ⟨m2, { s with msize := c }, ?_, ?_⟩
  · unfold assignPtr ensureTotalSize
    rw [hsl]
    simp only [ofOption_some, bind_ok, Nat.mod_eq_of_lt (show t.length - k < s.modulus by omega),
      ensure_of (asserts := asserts) (s := s) (n := t.length - k) (by omega) (by omega), h1, h2]
  · have hread : ∀ j, j < t.length - k → k + j ≠ t.length - k → m2[s.ptr + j]? = t[k + j]? := by
      intro j hj hne
      rw [hg2, if_pos (by omega), hg1 _ (by omega)]
      have e : s.ptr + k + (s.ptr + j - s.ptr) = s.ptr + (k + j) := by omega
      rw [e, chars_get hh.1 (by omega)]
    have hend : m2[s.ptr + (t.length - k)]? = some z := by
      rw [hg2, if_neg (by omega)]; exact ht1 hterm
    split
    · rename_i hcase
      refine holds_mk (by simp; omega) ?_ (fun _ => ⟨hz, by simpa using hend⟩) (by simp [hterm])
      intro j hj
      simp only [List.length_drop] at hj
      rw [hread j hj (by omega), List.getElem?_drop]
    · rename_i hcase
      have hlen' : ((t.drop k).take (t.length - k - k)).length = t.length - k - k := by simp
      refine holds_mk (by omega) ?_ (fun _ => ⟨fun h => hz (List.mem_of_mem_take h), ?_⟩) (by simp [hterm])
      · intro j hj
        rw [hlen'] at hj
        rw [hread j (by omega) (by omega), List.getElem?_take, if_pos hj, List.getElem?_drop]
      · rw [hlen', hg2, if_pos (by omega)]
        have e : s.ptr + k + (s.ptr + (t.length - k - k) - s.ptr) = s.ptr + (t.length - k) := by omega
        rw [e]; exact ht1 hterm

/-- **Violation.** `s = r` where `r` is a null-terminated string of another type over the tail of `s` from `k` on, `n`
characters long.  The new end mark may cut `r` itself short, and the rest is copied with `memcpy`: the result is right
when `n < k`; when `0 < k ≤ n ≤ 2k` some of the old characters stay in place; otherwise (also for `k = 0`, another name
for the whole text) the ranges overlap, which is undefined. -/
theorem assign_tail_string (asserts : Bool) (z : α) (m : List α) (s r : Str) (t : List α) (k : Nat)
    (hh : Holds z m s t) (hterm : s.term = true) (hr : r.term = true) (hrp : r.ptr = s.ptr + k) (hrm : t.length < r.modulus)
    (hk : k ≤ t.length) (hcap : t.length ≤ s.cap) :
    (t.length - k < k → ∃ m' s', assignStr asserts z m s r = .ok (m', s') ∧ Holds z m' s' (t.drop k)) ∧
    (0 < k → k ≤ t.length - k → t.length - k ≤ 2 * k →
      ∃ m' s', assignStr asserts z m s r = .ok (m', s') ∧
        Holds z m' s' ((t.drop k).take (t.length - k - k) ++ (t.take (t.length - k)).drop (t.length - k - k))) ∧
    (2 * k < t.length - k → assignStr asserts z m s r = .ub) := by
  obtain ⟨hsrc, hz⟩ := holds_tail hh hterm hk
  have hlen : s.ptr + t.length < m.length := by
    have := chars_len (hh.2.2.1 hterm).2 (by simp); simp only [List.length_singleton] at this; omega
  have hmod := hh.2.1
  have hholds : Holds z m r (t.drop k) := by
    refine ⟨?_, by simp; omega, fun _ => ⟨hz, ?_⟩, by simp [hr]⟩
    · rw [hrp]; exact (List.prefix_append _ [z]).trans hsrc
    · have e : r.ptr + (t.drop k).length = s.ptr + t.length := by simp; omega
      rw [e]; exact (hh.2.2.1 hterm).2
  obtain ⟨m1, c, h1, hl1, hg1, ht1, -⟩ := setSize_of z (m := m) (s := s) (n := t.length - k) (by omega) (by omega)
  have hrun : assignStr asserts z m s r =
      (copyOut z m1 r s.ptr (t.length - k)).bind fun m' => .ok (m', { s with msize := c }) := by
    unfold assignStr ensureTotalSize
    rw [size_of hholds]
    simp only [bind_ok, List.length_drop,
      ensure_of (asserts := asserts) (s := s) (n := t.length - k) (by omega) (by omega), h1]
  have hcut : k ≤ t.length - k → 0 < k → Holds z m1 r ((t.drop k).take (t.length - k - k)) := by
    intro hkn hk0
    have hlen' : ((t.drop k).take (t.length - k - k)).length = t.length - k - k := by simp
    refine ⟨(chars_iff _ _ _).2 fun j hj => ?_, by omega, fun _ => ⟨fun h => hz (List.mem_of_mem_take h), ?_⟩, by simp [hr]⟩
    · rw [hlen'] at hj
      rw [List.getElem?_take, if_pos hj, List.getElem?_drop, hrp, hg1 _ (by omega), Nat.add_assoc,
        chars_get hh.1 (by omega)]
    · rw [chars_one, hlen']
      have e : r.ptr + (t.length - k - k) = s.ptr + (t.length - k) := by omega
      rw [e]; exact ht1 hterm
  refine ⟨fun hc => ?_, fun hk0 hc1 hc2 => ?_, fun hc => ?_⟩
  · obtain ⟨m', s', a, b, _⟩ := assign_string asserts z m s r (t.drop k) hholds (fun _ => hz)
      ⟨by simp; omega, by simp; omega, by simp; omega⟩ (by simp; omega)
    exact ⟨m', s', a, b⟩
  · have hs := size_of (hcut hc1 hk0)
    have hlen' : ((t.drop k).take (t.length - k - k)).length = t.length - k - k := by simp
    rw [hlen'] at hs
    obtain ⟨m2, h2, hl2, hg2⟩ := copyUp_low (t.length - k - k) m1 s.ptr r.ptr (by omega) (by omega)
    refine ⟨m2, { s with msize := c }, ?_, ?_⟩
    · rw [hrun]
      unfold copyOut memcpy
      rw [hs]
      simp only [bind_ok]
      have hcnt : (if t.length - k > t.length - k - k then t.length - k - k else t.length - k) = t.length - k - k := by
        split <;> omega
      rw [hcnt, if_pos (by omega), h2]
      rfl
    · have hll : ((t.drop k).take (t.length - k - k) ++ (t.take (t.length - k)).drop (t.length - k - k)).length
          = t.length - k := by simp
      refine holds_mk (by omega) ?_ (fun _ => ⟨?_, ?_⟩) (by simp [hterm])
      · intro j hj
        rw [hll] at hj
        rw [hg2]
        by_cases hj2 : j < t.length - k - k
        · rw [if_pos (by omega), List.getElem?_append_left (by omega), List.getElem?_take, if_pos hj2,
            List.getElem?_drop, hg1 _ (by omega)]
          have e : r.ptr + (s.ptr + j - s.ptr) = s.ptr + (k + j) := by omega
          rw [e, chars_get hh.1 (by omega)]
        · rw [if_neg (by omega), List.getElem?_append_right (by omega), hlen', List.getElem?_drop, List.getElem?_take,
            hg1 _ (by omega)]
          have e : t.length - k - k + (j - (t.length - k - k)) = j := by omega
          rw [e, if_pos (by omega), chars_get hh.1 (by omega)]
      · intro hmem
        have hzt := (hh.2.2.1 hterm).1
        rcases List.mem_append.1 hmem with h | h
        · exact hz (List.mem_of_mem_take h)
        · exact hzt (List.mem_of_mem_take (List.mem_of_mem_drop h))
      · rw [hll, hg2, if_neg (by omega)]; exact ht1 hterm
  · rw [hrun]
    have hsz : ∃ q, size z m1 r = .ok q ∧ k < q ∧ q ≤ t.length - k := by
      by_cases hk0 : k = 0
      · refine ⟨t.length - k, ?_, by omega, Nat.le_refl _⟩
        have : Holds z m1 r (t.drop k) := holds_mark (s := s) hholds hg1 ht1 (by simp [hterm]) (by simp; omega)
        simpa using size_of this
      · refine ⟨t.length - k - k, ?_, by omega, by omega⟩
        have := size_of (hcut (by omega) (by omega))
        simpa using this
    obtain ⟨q, hq, hq1, hq2⟩ := hsz
    unfold copyOut memcpy
    rw [hq]
    simp only [bind_ok]
    have hcnt : (if t.length - k > q then q else t.length - k) = q := by split <;> omega
    rw [hcnt, if_neg (by omega)]
    rfl

/-! ## Several strings -/

theorem shows_holds {z : α} {room : Nat → Nat} {bufs : List Nat} {m : List α} {strs : List Str} {a : Spec.State α}
    (h : Spec.Shows z room bufs m strs a) {i : Nat} {s : Str} {r : Spec.Ref} (hs : strs[i]? = some s)
    (hr : a.refs[i]? = some r) :
    r = ⟨s.ptr, s.cap, s.modulus⟩ ∧ s.term = true ∧ s.ptr ∈ bufs ∧
      (Spec.sees a r = true → Holds z m s (a.text s.ptr)) := by
  obtain ⟨h1, h2, h3, h4, h5⟩ := h
  have hrr : r = ⟨s.ptr, s.cap, s.modulus⟩ := by
    rw [← h1, List.getElem?_map, hs] at hr
    simpa using hr.symm
  have hmem := List.mem_of_getElem? hs
  have hb : s.ptr ∈ bufs := by
    have := h3 r (List.mem_of_getElem? hr)
    rw [hrr] at this; exact this
  refine ⟨hrr, h2 s hmem, hb, fun hsee => ?_⟩
  obtain ⟨hz, hroom, hch⟩ := h5 _ hb
  rw [hrr] at hsee
  simp only [Spec.sees, decide_eq_true_eq] at hsee
  refine ⟨(List.prefix_append _ [z]).trans hch, hsee, fun _ => ⟨hz, ?_⟩, by simp [h2 s hmem]⟩
  rw [chars_one]
  have := chars_get hch (j := (a.text s.ptr).length) (by simp)
  rw [this]; simp

theorem shows_lookup {z : α} {room : Nat → Nat} {bufs : List Nat} {m : List α} {strs : List Str} {a : Spec.State α}
    (h : Spec.Shows z room bufs m strs a) {i : Nat} {r : Spec.Ref} (hr : a.refs[i]? = some r) :
    ∃ s, strs[i]? = some s := by
  rw [← h.1, List.getElem?_map] at hr
  cases hs : strs[i]? with
  | none => rw [hs] at hr; simp at hr
  | some s => exact ⟨s, rfl⟩

/-- writing a new text through one string -/
theorem shows_write {z : α} {room : Nat → Nat} {bufs : List Nat} {m m' : List α} {strs : List Str} {a : Spec.State α}
    (h : Spec.Shows z room bufs m strs a) {i : Nat} {s s' : Str} (hs : strs[i]? = some s)
    {t' : List α} (hh : Holds z m' s' t') (hp : s'.ptr = s.ptr) (hc : s'.cap = s.cap) (hm : s'.modulus = s.modulus)
    (ht : s'.term = s.term) {p n : Nat} (ho : OnlyChanged m m' p n) (hp1 : s.ptr ≤ p) (hp2 : p + n ≤ s.ptr + room s.ptr)
    (hroom : t'.length < room s.ptr) : Spec.Shows z room bufs m' (strs.set i s') (a.set s.ptr t') := by
  have hi : i < strs.length := by
    rcases Nat.lt_or_ge i strs.length with h | h
    · exact h
    · rw [List.getElem?_eq_none h] at hs; simp at hs
  have hmem := List.mem_of_getElem? hs
  have hb : s.ptr ∈ bufs := by
    apply h.2.2.1 ⟨s.ptr, s.cap, s.modulus⟩
    rw [← h.1]; exact List.mem_map.2 ⟨s, hmem, rfl⟩
  obtain ⟨h1, h2, h3, h4, h5⟩ := h
  have hterm : s.term = true := h2 s hmem
  refine ⟨?_, ?_, h3, ?_, ?_⟩
  · show _ = a.refs
    rw [← h1, List.map_set, hp, hc, hm]
    apply List.ext_getElem?
    intro j
    rw [List.getElem?_set]
    by_cases hj : i = j
    · subst hj; simp only [if_true, List.length_map, hi, List.getElem?_map, hs, Option.map_some]
    · simp [hj]
  · intro x hx
    rcases List.mem_or_eq_of_mem_set hx with h | h
    · exact h2 x h
    · rw [h, ht]; exact hterm
  · rw [Spec.Apart, ho.1]; exact h4
  · intro b hbb
    show z ∉ (if b = s.ptr then t' else a.text b) ∧ _ ∧ _
    by_cases he : b = s.ptr
    · subst he
      simp only [Spec.State.set, if_true]
      obtain ⟨hz, hend⟩ := hh.2.2.1 (ht ▸ hterm)
      refine ⟨hz, hroom, (chars_iff _ _ _).2 fun j hj => ?_⟩
      simp only [List.length_append, List.length_singleton] at hj
      rw [← hp]
      by_cases hj2 : j < t'.length
      · rw [List.getElem?_append_left hj2, chars_get hh.1 hj2]
      · have : j = t'.length := by omega
        subst this
        rw [(chars_one _ _ _).1 hend]; simp
    · obtain ⟨hz, hr, hch⟩ := h5 b hbb
      simp only [Spec.State.set, if_neg he]
      refine ⟨hz, hr, (chars_iff _ _ _).2 fun j hj => ?_⟩
      rw [ho.2 _ ?_, chars_get hch hj]
      simp only [List.length_append, List.length_singleton] at hj
      rcases h4.2 b hbb s.ptr hb he with hx | hx <;> omega

theorem step_shows (asserts : Bool) {z : α} {room : Nat → Nat} {bufs : List Nat} {w : World α} {a a' : Spec.State α}
    (op : Op α) (h : Spec.Shows z room bufs w.mem w.strs a) (hs : Spec.step room a op = some a') :
    ∃ w', step asserts z w op = .ok w' ∧ Spec.Shows z room bufs w'.mem w'.strs a' := by
  have hwrite : ∀ (d : Spec.Ref) (t : List α) (b : Spec.State α), Spec.write room a d t = some b →
      Spec.sees a d = true ∧ t.length < room d.buf ∧ t.length ≤ d.cap ∧ t.length < d.modulus ∧ b = a.set d.buf t := by
    intro d t b hb
    unfold Spec.write at hb
    split at hb
    · rename_i hc
      simp only [Bool.and_eq_true] at hc
      simp only [Spec.fits, decide_eq_true_eq] at hc
      simp only [Option.some.injEq] at hb
      exact ⟨hc.1, hc.2.1, hc.2.2.1, hc.2.2.2, hb.symm⟩
    · simp at hb
  have hbound : ∀ b ∈ bufs, b + room b ≤ w.mem.length := h.2.2.2.1.1
  have hapart := h.2.2.2.1.2
  cases op with
  | alias2 j cap md =>
    simp only [Spec.step] at hs
    cases hr : a.refs[j]? with
    | none => simp [hr] at hs
    | some r =>
      obtain ⟨s, hsj⟩ := shows_lookup h hr
      obtain ⟨hrr, hterm, hb, -⟩ := shows_holds h hsj hr
      simp only [hr, Option.some.injEq] at hs
      subst hs
      refine ⟨{ w with strs := w.strs ++ [alias2 s cap md] }, by simp only [step, hsj], ?_⟩
      obtain ⟨h1, h2, h3, h4, h5⟩ := h
      refine ⟨?_, ?_, ?_, h4, h5⟩
      · simp [h1, alias2, hrr]
      · intro x hx
        rcases List.mem_append.1 hx with hx | hx
        · exact h2 x hx
        · simp at hx; subst hx; rfl
      · intro x hx
        rcases List.mem_append.1 hx with hx | hx
        · exact h3 x hx
        · simp at hx; subst hx; rw [hrr]; exact hb
  | alias3 j md =>
    simp only [Spec.step] at hs
    cases hr : a.refs[j]? with
    | none => simp [hr] at hs
    | some r =>
      obtain ⟨s, hsj⟩ := shows_lookup h hr
      obtain ⟨hrr, hterm, hb, -⟩ := shows_holds h hsj hr
      simp only [hr] at hs
      split at hs
      · rename_i hc
        simp only [Option.some.injEq] at hs
        subst hs
        refine ⟨{ w with strs := w.strs ++ [alias3 s md] }, by simp only [step, hsj], ?_⟩
        have hcap : (alias3 s md).cap = r.cap - 1 := by
          rw [hrr] at hc ⊢
          simp only [alias3, maxSize, hterm, if_true]
          have e : s.cap + s.modulus - 1 = (s.cap - 1) + s.modulus := by simp only at hc; omega
          simp only at hc
          rw [e, Nat.add_mod_right, Nat.mod_eq_of_lt (by omega : s.cap - 1 < s.modulus), Nat.mod_eq_of_lt (by omega)]
        obtain ⟨h1, h2, h3, h4, h5⟩ := h
        refine ⟨?_, ?_, ?_, h4, h5⟩
        · simp only [List.map_append, h1, List.map_cons, List.map_nil, hcap]
          rw [hrr]; rfl
        · intro x hx
          rcases List.mem_append.1 hx with hx | hx
          · exact h2 x hx
          · simp at hx; subst hx; rfl
        · intro x hx
          rcases List.mem_append.1 hx with hx | hx
          · exact h3 x hx
          · simp at hx; subst hx; rw [hrr]; exact hb
      · simp at hs
  | assignSame i j =>
    simp only [Spec.step] at hs
    cases hri : a.refs[i]? with
    | none => simp [hri] at hs
    | some d =>
      cases hrj : a.refs[j]? with
      | none => simp [hri, hrj] at hs
      | some r =>
        obtain ⟨si, hsi⟩ := shows_lookup h hri
        obtain ⟨sj, hsj⟩ := shows_lookup h hrj
        obtain ⟨hrr, hterm, hb, -⟩ := shows_holds h hsj hrj
        simp only [hri, hrj, Option.some.injEq] at hs
        subst hs
        refine ⟨{ w with strs := w.strs.set i (assignSame si sj) }, by simp only [step, hsi, hsj], ?_⟩
        obtain ⟨h1, h2, h3, h4, h5⟩ := h
        refine ⟨?_, ?_, ?_, h4, h5⟩
        · show (w.strs.set i sj).map _ = a.refs.set i r
          rw [List.map_set, h1, hrr]
        · intro x hx
          rcases List.mem_or_eq_of_mem_set hx with hx | hx
          · exact h2 x hx
          · rw [hx]; exact hterm
        · intro x hx
          rcases List.mem_or_eq_of_mem_set hx with hx | hx
          · exact h3 x hx
          · rw [hx, hrr]; exact hb
  | assignStr i j =>
    simp only [Spec.step] at hs
    cases hri : a.refs[i]? with
    | none => simp [hri] at hs
    | some d =>
      cases hrj : a.refs[j]? with
      | none => simp [hri, hrj] at hs
      | some r =>
        obtain ⟨si, hsi⟩ := shows_lookup h hri
        obtain ⟨sj, hsj⟩ := shows_lookup h hrj
        obtain ⟨hdd, hti, hbi, hhi⟩ := shows_holds h hsi hri
        obtain ⟨hrr, htj, hbj, hhj⟩ := shows_holds h hsj hrj
        simp only [hri, hrj] at hs
        split at hs
        · rename_i hc
          simp only [Bool.and_eq_true, Bool.or_eq_true, decide_eq_true_eq, List.isEmpty_iff] at hc
          obtain ⟨w1, w2, w3, w4, rfl⟩ := hwrite _ _ _ hs
          have hj := hhj hc.1
          obtain ⟨hz, hrm, hch⟩ := h.2.2.2.2 _ hbj
          rw [hdd, hrr] at hc w2 w3 w4 ⊢
          simp only at hc w2 w3 w4 ⊢
          have := hbound _ hbi
          obtain ⟨m', s', e1, e2, e3, e4, e5, e6, e7⟩ := assign_string_aux asserts z w.mem si sj (a.text sj.ptr) hj
            (fun _ => hz) ⟨w3, w4, by omega⟩ (by
              rcases hc.2 with hne | he
              · rcases hapart _ hbi _ hbj hne with hx | hx <;> omega
              · left; rw [he]; rfl)
          refine ⟨⟨m', w.strs.set i s'⟩, by simp only [step, hsi, hsj, e1, World.put], ?_⟩
          exact shows_write h hsi e2 e3 e4 e5 e6 e7 (Nat.le_refl _) (by omega) w2
        · simp at hs
  | append i j =>
    simp only [Spec.step] at hs
    cases hri : a.refs[i]? with
    | none => simp [hri] at hs
    | some d =>
      cases hrj : a.refs[j]? with
      | none => simp [hri, hrj] at hs
      | some r =>
        obtain ⟨si, hsi⟩ := shows_lookup h hri
        obtain ⟨sj, hsj⟩ := shows_lookup h hrj
        obtain ⟨hdd, hti, hbi, hhi⟩ := shows_holds h hsi hri
        obtain ⟨hrr, htj, hbj, hhj⟩ := shows_holds h hsj hrj
        simp only [hri, hrj] at hs
        split at hs
        · rename_i hc
          obtain ⟨w1, w2, w3, w4, rfl⟩ := hwrite _ _ _ hs
          have hj := hhj hc
          have hi := hhi w1
          obtain ⟨hz, hrm, hch⟩ := h.2.2.2.2 _ hbj
          rw [hdd, hrr] at w2 w3 w4 ⊢
          simp only [List.length_append] at w2 w3 w4 ⊢
          have := hbound _ hbi
          have hap : (a.text sj.ptr).length = 0 ∨ sj.ptr + (a.text sj.ptr).length ≤ si.ptr + (a.text si.ptr).length ∨
              si.ptr + (a.text si.ptr).length + (a.text sj.ptr).length + 1 ≤ sj.ptr := by
            by_cases hne : si.ptr = sj.ptr
            · rw [hne]; omega
            · rcases hapart _ hbi _ hbj hne with hx | hx <;> omega
          have ho : (if i = j then none else some sj) = some sj ∨ ((if i = j then none else some sj) = none ∧ sj = si) := by
            by_cases hij : i = j
            · subst hij
              right
              rw [hsi] at hsj
              simp only [Option.some.injEq] at hsj
              exact ⟨if_pos rfl, hsj.symm⟩
            · left; exact if_neg hij
          obtain ⟨m', s', e1, e2, e3, e4, e5, e6, e7⟩ := append_string_aux asserts z w.mem si sj
            (if i = j then none else some sj) (a.text si.ptr) (a.text sj.ptr) ho hi hj
            (fun _ => hz) ⟨w3, w4, by omega⟩ hap
          refine ⟨⟨m', w.strs.set i s'⟩, by simp only [step, hsi, hsj, e1, World.put], ?_⟩
          exact shows_write h hsi e2 e3 e4 e5 e6 e7 (by omega) (by omega) (by simpa using w2)
        · simp at hs
  | insert i k j =>
    simp only [Spec.step] at hs
    cases hri : a.refs[i]? with
    | none => simp [hri] at hs
    | some d =>
      cases hrj : a.refs[j]? with
      | none => simp [hri, hrj] at hs
      | some r =>
        obtain ⟨si, hsi⟩ := shows_lookup h hri
        obtain ⟨sj, hsj⟩ := shows_lookup h hrj
        obtain ⟨hdd, hti, hbi, hhi⟩ := shows_holds h hsi hri
        obtain ⟨hrr, htj, hbj, hhj⟩ := shows_holds h hsj hrj
        simp only [hri, hrj] at hs
        split at hs
        · rename_i hc
          simp only [Bool.and_eq_true, Bool.or_eq_true, decide_eq_true_eq] at hc
          obtain ⟨w1, w2, w3, w4, rfl⟩ := hwrite _ _ _ hs
          have hj := hhj hc.1.1
          have hi := hhi w1
          obtain ⟨hz, hrm, hch⟩ := h.2.2.2.2 _ hbj
          rw [hdd, hrr] at hc w2 w3 w4 ⊢
          simp only at hc w2 w3 w4 ⊢
          have hk := hc.1.2
          have hlen : ((a.text si.ptr).take k ++ a.text sj.ptr ++ (a.text si.ptr).drop k).length
              = (a.text si.ptr).length + (a.text sj.ptr).length := by simp; omega
          rw [hlen] at w2 w3 w4
          have := hbound _ hbi
          have hins : ∃ m' s', insertPtr asserts z w.mem si k sj.ptr (a.text sj.ptr).length = .ok (m', s') ∧
              Holds z m' s' ((a.text si.ptr).take k ++ a.text sj.ptr ++ (a.text si.ptr).drop k) ∧
              s'.ptr = si.ptr ∧ s'.cap = si.cap ∧ s'.modulus = si.modulus ∧ s'.term = si.term ∧
              OnlyChanged w.mem m' (si.ptr + k) ((a.text si.ptr).length - k + (a.text sj.ptr).length + 1) := by
            by_cases hne : si.ptr = sj.ptr
            · rcases hc.2 with (hx | hx) | hx
              · exact absurd hne hx
              · -- at the front: nothing is left to do after the move
                subst hx
                obtain ⟨m1, c, hl1, hins, ha, hb, hmid, hout, ht, hf⟩ :=
                  insert_steps asserts z w.mem si (a.text si.ptr) sj.ptr 0 (a.text sj.ptr).length hi hk ⟨w3, w4, by omega⟩
                obtain ⟨m2, h2, hl2, hg2⟩ := copyUp_low (a.text sj.ptr).length m1 (si.ptr + 0) sj.ptr (by omega) (by omega)
                refine ⟨m2, _, hins m2 h2, insert_holds (fun h => (hi.2.2.1 h).1) (fun _ => hz) hk w4 ha hb ht hf ?_ ?_,
                  rfl, rfl, rfl, rfl, by omega, ?_⟩
                · intro q hq; rw [hg2, if_neg (by omega)]
                · intro q hq
                  rw [hg2, if_pos (by omega)]
                  have e : sj.ptr + (si.ptr + 0 + q - (si.ptr + 0)) = si.ptr + q := by omega
                  rw [e, hmid q (by omega) (by omega) (by rw [hne]; exact hq), hne]
                · intro q hq
                  rw [hg2, if_neg (by omega), hout _ (by omega)]
              · exact insert_pointer_aux asserts z w.mem si _ _ sj.ptr k hi hk hj.1 (fun _ => hz) ⟨w3, w4, by omega⟩
                  (by rw [← hne]; omega)
            · exact insert_pointer_aux asserts z w.mem si _ _ sj.ptr k hi hk hj.1 (fun _ => hz) ⟨w3, w4, by omega⟩ (by
                rcases hapart _ hbi _ hbj hne with hx | hx <;> omega)
          obtain ⟨m', s', e1, e2, e3, e4, e5, e6, e7⟩ := hins
          refine ⟨⟨m', w.strs.set i s'⟩, by
            simp only [step, hsi, hsj, insertStr, size_of hj, bind_ok, e1, World.put], ?_⟩
          exact shows_write h hsi e2 e3 e4 e5 e6 e7 (by omega) (by omega) (by omega)
        · simp at hs
  | pushOwn i k =>
    simp only [Spec.step] at hs
    cases hri : a.refs[i]? with
    | none => simp [hri] at hs
    | some d =>
      obtain ⟨si, hsi⟩ := shows_lookup h hri
      obtain ⟨hdd, hti, hbi, hhi⟩ := shows_holds h hsi hri
      simp only [hri] at hs
      cases hck : (a.text d.buf)[k]? with
      | none => simp [hck] at hs
      | some c =>
        simp only [hck] at hs
        obtain ⟨w1, w2, w3, w4, rfl⟩ := hwrite _ _ _ hs
        have hi := hhi w1
        rw [hdd] at hck w2 w3 w4 ⊢
        simp only [List.length_append, List.length_singleton] at hck w2 w3 w4 ⊢
        have hklt : k < (a.text si.ptr).length := by
          rcases Nat.lt_or_ge k (a.text si.ptr).length with hx | hx
          · exact hx
          · rw [List.getElem?_eq_none hx] at hck; simp at hck
        have := hbound _ hbi
        have hz : z ∉ [c] := by
          have := (hi.2.2.1 hti).1
          intro hx
          simp at hx; subst hx
          exact this (List.mem_of_getElem? hck)
        have hsame : ∀ m' s', appendPtr asserts z w.mem si (si.ptr + k) 1 = .ok (m', s') →
            s'.cap = si.cap ∧ s'.modulus = si.modulus ∧ s'.term = si.term := by
          intro m' s' he
          unfold appendPtr grow at he
          rw [size_of hi] at he
          simp only [bind_ok] at he
          obtain ⟨m1, c', h1, -⟩ := setSize_of z (m := w.mem) (s := si) (n := (a.text si.ptr).length + 1) (by omega) (by omega)
          rw [Nat.mod_eq_of_lt (by omega : 1 < si.modulus)] at he
          rw [ensure_of (asserts := asserts) (s := si) (n := (a.text si.ptr).length + 1) (by omega) (by omega)] at he
          simp only [bind_ok, h1] at he
          cases hcu : copyUp m1 (si.ptr + (a.text si.ptr).length) (si.ptr + k) 1 with
          | none => simp [hcu] at he
          | some m2 =>
            simp only [hcu, ofOption_some, bind_ok, Res.ok.injEq, Prod.mk.injEq] at he
            rw [← he.2]; exact ⟨rfl, rfl, rfl⟩
        obtain ⟨m', s', e1, e2, e3, e7⟩ := append_pointer asserts z w.mem si (a.text si.ptr) [c] (si.ptr + k) hi
          ((chars_one _ _ _).2 (by rw [chars_get hi.1 hklt, hck])) (fun _ => hz)
          ⟨w3, w4, by simp only [List.length_singleton]; omega⟩ (by simp only [List.length_singleton]; omega)
        obtain ⟨e4, e5, e6⟩ := hsame m' s' e1
        simp only [List.length_singleton] at e1
        refine ⟨⟨m', w.strs.set i s'⟩, by simp only [step, hsi, e1, World.put], ?_⟩
        exact shows_write h hsi e2 e3 e4 e5 e6 e7 (by omega) (by simp only [List.length_singleton]; omega) (by simpa using w2)
  | clear i =>
    simp only [Spec.step] at hs
    cases hri : a.refs[i]? with
    | none => simp [hri] at hs
    | some d =>
      obtain ⟨si, hsi⟩ := shows_lookup h hri
      obtain ⟨hdd, hti, hbi, hhi⟩ := shows_holds h hsi hri
      simp only [hri] at hs
      obtain ⟨w1, w2, w3, w4, rfl⟩ := hwrite _ _ _ hs
      rw [hdd] at w2 w3 w4 ⊢
      simp only [List.length_nil] at w2 w3 w4 ⊢
      have := hbound _ hbi
      obtain ⟨m', c, h1, hl1, hg1, ht1, -⟩ := setSize_of z (m := w.mem) (s := si) (n := 0) w4 (by omega)
      refine ⟨⟨m', w.strs.set i { si with msize := c }⟩, ?_, ?_⟩
      · simp only [step, hsi, ensureTotalSize, ensure_of (asserts := asserts) w3 w4, bind_ok, h1, World.put]
      · refine shows_write (n := 1) (p := si.ptr) h hsi (s' := { si with msize := c }) (t' := []) ?_ rfl rfl rfl rfl
          ⟨hl1, fun j hj => hg1 j (by omega)⟩ (Nat.le_refl _) (by omega) w2
        exact holds_mk w4 (by simp) (fun h => ⟨by simp, by simpa using ht1 h⟩) (by simp [hti])

/-- For every history of null-terminated strings over some buffers — strings made to refer to one another's
characters, assigned, appended, inserted and cleared through any of their names — in which every new text fits and no
string is assigned or inserted into itself across its own characters: nothing goes wrong, and every buffer holds the one
text its strings share, so that a change made through one name is seen through all the others and by nobody else. -/
theorem shared_histories (asserts : Bool) (z : α) (room : Nat → Nat) (bufs : List Nat) (ops : List (Op α)) :
    ∀ (w : World α) (a a' : Spec.State α), Spec.Shows z room bufs w.mem w.strs a → Spec.run room a ops = some a' →
      ∃ w', run asserts z w ops = .ok w' ∧ Spec.Shows z room bufs w'.mem w'.strs a' := by
  induction ops with
  | nil => intro w a a' h hr; simp only [Spec.run, Option.some.injEq] at hr; subst hr; exact ⟨w, rfl, h⟩
  | cons op ops ih =>
    intro w a a' h hr
    simp only [Spec.run] at hr
    cases hs : Spec.step room a op with
    | none => simp [hs] at hr
    | some a1 =>
      simp only [hs, Option.bind_some] at hr
      obtain ⟨w1, h1, h2⟩ := step_shows asserts op h hs
      obtain ⟨w', h3, h4⟩ := ih w1 a1 a' h2 hr
      exact ⟨w', by simp only [run, h1, bind_ok, h3], h4⟩

/-- At any point of such a history `size()` and the characters of a string whose size type can express it are those of
its buffer's text. -/
theorem shared_reads {z : α} {room : Nat → Nat} {bufs : List Nat} {m : List α} {strs : List Str} {a : Spec.State α}
    (h : Spec.Shows z room bufs m strs a) (i : Nat) (s : Str) (hs : strs[i]? = some s)
    (hm : (a.text s.ptr).length < s.modulus) :
    size z m s = .ok (a.text s.ptr).length ∧ Chars m s.ptr (a.text s.ptr) ∧
      empty z m s = .ok (a.text s.ptr).isEmpty := by
  have hr : a.refs[i]? = some ⟨s.ptr, s.cap, s.modulus⟩ := by rw [← h.1, List.getElem?_map, hs]; rfl
  obtain ⟨-, ht, hb, hh⟩ := shows_holds h hs hr
  have hh := hh (by simpa [Spec.sees] using hm)
  refine ⟨size_of hh, hh.1, ?_⟩
  obtain ⟨hz, h0⟩ := hh.2.2.1 ht
  unfold empty
  cases hx : a.text s.ptr with
  | nil =>
    rw [hx] at h0
    simp only [List.length_nil, Nat.add_zero] at h0
    simp [rd, (chars_one _ _ _).1 h0]
  | cons c r =>
    have := chars_get hh.1 (j := 0) (by rw [hx]; simp)
    rw [hx] at this hz
    simp only [Nat.add_zero, List.getElem?_cons_zero] at this
    have hc : c ≠ z := fun e => hz (by simp [e])
    simp [rd, this, hc]

/-- A `layer2` string made over a terminated array shows the array's text; nothing is written. -/
theorem refer_terminated (z : α) (m : List α) (p cap modulus : Nat) (t : List α) (hz : z ∉ t)
    (h : Chars m p (t ++ [z])) (hm : t.length < modulus) : Holds z m (refer2 p cap modulus) t := by
  refine ⟨(List.prefix_append _ _).trans h, hm, fun _ => ⟨hz, (chars_one _ _ _).2 ?_⟩, by simp [refer2]⟩
  show m[p + t.length]? = _
  rw [chars_get h (by simp)]; simp

/-- A string made over a buffer of which the first characters are in use shows these; only the terminator behind them
is written. -/
theorem refer_sized (z : α) (m : List α) (p cap modulus : Nat) (term : Bool) (t : List α) (hz : term = true → z ∉ t)
    (h : Chars m p t) (hm : t.length < modulus) (hl : p + t.length < m.length) :
    ∃ m' s', referSized z m p t.length cap modulus term = .ok (m', s') ∧ Holds z m' s' t ∧ s'.ptr = p ∧ s'.cap = cap ∧
      OnlyChanged m m' (p + t.length) 1 := by
  obtain ⟨m', c, h1, hl1, hg1, ht1, hf1⟩ := setSize_of z (m := m) (s := ⟨p, cap, modulus, term, 0⟩) (n := t.length) hm hl
  refine ⟨m', _, h1, holds_mk hm ?_ ?_ (fun h => (hf1 h).1), rfl, rfl, hl1, fun j hj => hg1 j (by show j ≠ p + t.length; omega)⟩
  · intro j hj
    rw [hg1 _ (by simp only; omega)]
    exact chars_get h hj
  · intro ht
    exact ⟨hz ht, ht1 ht⟩

/-! ## Capacities, same-type assignment, constant strings -/

/-- a `layer3` string made from a `layer3` string made from …, `k` times -/
def copies3 (s : Str) : Nat → Str
  | 0 => s
  | k + 1 => alias3 (copies3 s k) s.modulus

/-- **Violation.** Each `layer3` string made from a null-terminated string says it has room for one character less
than the string it was made from, though both refer to the same buffer. -/
theorem layer3_copies_shrink (s : Str) (hterm : s.term = true) (hm : s.cap ≤ s.modulus) (k : Nat) (hk : k ≤ s.cap)
    (hpos : 0 < k) :
    (copies3 s k).ptr = s.ptr ∧ (copies3 s k).cap = s.cap - k := by
  have key : ∀ k, k ≤ s.cap → (copies3 s k).ptr = s.ptr ∧ (copies3 s k).cap = s.cap - k ∧
      (copies3 s k).term = true ∧ (copies3 s k).modulus = s.modulus := by
    intro k
    induction k with
    | zero => intro _; exact ⟨rfl, rfl, hterm, rfl⟩
    | succ k ih =>
      intro hk
      obtain ⟨h1, h2, h3, h4⟩ := ih (by omega)
      refine ⟨h1, ?_, rfl, rfl⟩
      show maxSize (copies3 s k) % s.modulus = _
      unfold maxSize
      rw [h3, if_pos rfl, h2, h4]
      have e : s.cap - k + s.modulus - 1 = (s.cap - (k + 1)) + s.modulus := by omega
      rw [e, Nat.add_mod_right, Nat.mod_eq_of_lt (by omega : s.cap - (k + 1) < s.modulus), Nat.mod_eq_of_lt (by omega)]
  exact ⟨(key k hk).1, (key k hk).2.1⟩

/-- **Violation.** A `layer2` string made from another string keeps its own idea of the capacity: when that is larger
than the buffer, appending through it succeeds — with assertions compiled in — and writes past the end of the other
string's buffer. -/
theorem layer2_alias_overruns (asserts : Bool) (z : α) (m : List α) (s : Str) (t l : List α) (p cap modulus : Nat)
    (hh : Holds z m s t) (hterm : s.term = true) (hsrc : Chars m p l) (hz : z ∉ l)
    (hfull : s.cap ≤ t.length + l.length) (hcap : t.length + l.length ≤ cap) (hmod : t.length + l.length < modulus)
    (hm : s.ptr + (t.length + l.length) < m.length) (hap : p + l.length ≤ s.ptr) :
    ∃ m' s', appendPtr asserts z m (alias2 s cap modulus) p l.length = .ok (m', s') ∧
      ∃ q, s.ptr + s.cap ≤ q ∧ m'[q]? = some z := by
  have hh' : Holds z m (alias2 s cap modulus) t :=
    ⟨hh.1, by show t.length < modulus; omega, fun _ => hh.2.2.1 hterm, by simp [alias2]⟩
  obtain ⟨m', s', h1, h2, h3, -⟩ := append_pointer asserts z m (alias2 s cap modulus) t l p hh' hsrc (fun _ => hz)
    ⟨hcap, hmod, hm⟩ (by simp only [alias2]; omega)
  refine ⟨m', s', h1, s.ptr + (t.length + l.length), by omega, ?_⟩
  have hterm' : s'.term = true := by
    unfold appendPtr grow at h1
    rw [size_of hh'] at h1
    simp only [bind_ok] at h1
    obtain ⟨m1, c', e1, -⟩ := setSize_of z (m := m) (s := alias2 s cap modulus) (n := t.length + l.length) hmod hm
    rw [show l.length % (alias2 s cap modulus).modulus = l.length from Nat.mod_eq_of_lt (by simp only [alias2]; omega)] at h1
    rw [ensure_of (asserts := asserts) (s := alias2 s cap modulus) (n := t.length + l.length) hcap hmod] at h1
    simp only [bind_ok, e1] at h1
    cases hcu : copyUp m1 ((alias2 s cap modulus).ptr + t.length) p l.length with
    | none => simp [hcu] at h1
    | some m2 =>
      simp only [hcu, ofOption_some, bind_ok, Res.ok.injEq, Prod.mk.injEq] at h1
      rw [← h1.2]; rfl
  have := (chars_one _ _ _).1 (h2.2.2.1 hterm').2
  rw [h3, List.length_append] at this
  exact this

/-- **Violation.** Assignment between two `layer2` or two `layer3` strings of one type does not copy the text, as
assignment between different types does: the left string now refers to the right one's characters, so a later append to
the right one shows in the left one too. -/
theorem same_type_assignment_shares (asserts : Bool) (z : α) (m : List α) (x y : Str) (t l : List α) (p : Nat)
    (hy : Holds z m y t) (hterm : y.term = true) (hsrc : Chars m p l) (hz : z ∉ l) (hfit : Fits m y (t.length + l.length))
    (hap : p + l.length ≤ y.ptr) :
    ∃ m' y', appendPtr asserts z m y p l.length = .ok (m', y') ∧ Holds z m' (assignSame x y) (t ++ l) := by
  obtain ⟨m', y', h1, h2, h3, -⟩ := append_pointer asserts z m y t l p hy hsrc (fun _ => hz) hfit (by omega)
  refine ⟨m', y', h1, ?_⟩
  have hmod := hfit.2.1
  have hterm' : y'.term = true := by
    unfold appendPtr grow at h1
    rw [size_of hy] at h1
    simp only [bind_ok] at h1
    obtain ⟨m1, c', e1, -⟩ := setSize_of z (m := m) (s := y) (n := t.length + l.length) hmod hfit.2.2
    rw [show l.length % y.modulus = l.length from Nat.mod_eq_of_lt (by omega)] at h1
    rw [ensure_of (asserts := asserts) (s := y) (n := t.length + l.length) hfit.1 hmod] at h1
    simp only [bind_ok, e1] at h1
    cases hcu : copyUp m1 (y.ptr + t.length) p l.length with
    | none => simp [hcu] at h1
    | some m2 =>
      simp only [hcu, ofOption_some, bind_ok, Res.ok.injEq, Prod.mk.injEq] at h1
      rw [← h1.2]; exact hterm
  have h5 := h2.2.2.1 hterm'
  have hc := h2.1
  rw [h3] at h5 hc
  exact ⟨hc, by simpa [assignSame] using hmod, fun _ => h5, by simp [assignSame, hterm]⟩

/-- **Violation.** `layer3::const_string::empty()` answers the opposite, for every string. -/
theorem const_string_empty_inverted (n : Nat) : constEmpty n = !(decide (constSize n = 0)) := by
  unfold constEmpty constSize
  cases n <;> simp

/-! ## Cases that meet the hypotheses

Buffer 0–9 holds "abcd" (1 2 3 4), buffer 10–17 holds "xy" (8 9), the cells 18–19 are somebody else's. -/

instance {z : α} {m : List α} {s : Str} {t : List α} : Decidable (Holds z m s t) := by
  unfold Holds Chars; infer_instance
instance {m : List α} {s : Str} {n : Nat} : Decidable (Fits m s n) := by unfold Fits; infer_instance
instance {m : List α} {p : Nat} {l : List α} : Decidable (Chars m p l) := by unfold Chars; infer_instance

def exMem : List Nat := [1, 2, 3, 4, 0, 7, 7, 7, 7, 7, 8, 9, 0, 7, 7, 7, 7, 7, 7, 7]
def exA : Str := ⟨0, 10, 256, true, 0⟩
def exB : Str := ⟨10, 8, 256, true, 0⟩
/-- the same, with a capacity of only six -/
def exC : Str := ⟨10, 6, 256, true, 0⟩

-- refer_terminated, refer_sized
example : Holds 0 exMem (refer2 0 10 256) [1, 2, 3, 4] :=
  refer_terminated 0 exMem 0 10 256 [1, 2, 3, 4] (by decide) (by decide +kernel) (by decide)
example : (referSized 0 exMem 10 1 8 256 true) =
    .ok ([1, 2, 3, 4, 0, 7, 7, 7, 7, 7, 8, 0, 0, 7, 7, 7, 7, 7, 7, 7], exB) := by decide +kernel
-- append_pointer, append_string, append_itself, assign_pointer, assign_string, insert_pointer
example : Holds 0 exMem exA [1, 2, 3, 4] ∧ Holds 0 exMem exB [8, 9] ∧ Fits exMem exA 8 ∧ Fits exMem exB 6 ∧
    Chars exMem 1 [2, 3] ∧ Chars exMem 10 ([8, 9] ++ [0]) := by decide +kernel
example : ∃ m' s', appendPtr true 0 exMem exA 1 2 = .ok (m', s') ∧ Holds 0 m' s' [1, 2, 3, 4, 2, 3] ∧
    s'.ptr = 0 ∧ OnlyChanged exMem m' 4 3 :=
  append_pointer true 0 exMem exA [1, 2, 3, 4] [2, 3] 1 (by decide +kernel) (by decide +kernel) (by decide +kernel)
    (by decide +kernel) (by decide)
example : ∃ m' s', appendStr true 0 exMem exA none = .ok (m', s') ∧ Holds 0 m' s' [1, 2, 3, 4, 1, 2, 3, 4] ∧
    s'.ptr = 0 ∧ OnlyChanged exMem m' 4 5 :=
  append_itself true 0 exMem exA [1, 2, 3, 4] (by decide +kernel) (by decide +kernel)
example : ∃ m' s', insertPtr true 0 exMem exA 1 10 2 = .ok (m', s') ∧ Holds 0 m' s' [1, 8, 9, 2, 3, 4] ∧
    s'.ptr = 0 ∧ OnlyChanged exMem m' 1 6 :=
  insert_pointer true 0 exMem exA [1, 2, 3, 4] [8, 9] 10 1 (by decide +kernel) (by decide) (by decide +kernel)
    (by decide +kernel) (by decide +kernel) (by decide)
-- insert_own, insert_straddling_wrong: "abcd".insert(2, "bc" of itself) gives "abbbcd"
example : (insertPtr true 0 exMem exA 2 1 2) =
    .ok ([1, 2, 2, 2, 3, 4, 0, 7, 7, 7, 8, 9, 0, 7, 7, 7, 7, 7, 7, 7], exA) := by decide +kernel
example : ∃ m' s' r, insertPtr true 0 exMem exA 2 1 2 = .ok (m', s') ∧ Holds 0 m' s' r ∧ r ≠ [1, 2, 2, 3, 3, 4] :=
  insert_straddling_wrong true 0 exMem exA [1, 2, 3, 4] 2 1 2 (by decide +kernel) (by decide) (by decide +kernel)
    (by decide) (by decide) (by decide)
-- assign_own_tail: s = s.c_str() + 1 leaves "bc" of "abcd"; assign_tail_string: the same through a string over the tail
example : (assignPtr true 0 exMem exA 1) = .ok ([2, 3, 0, 0, 0, 7, 7, 7, 7, 7, 8, 9, 0, 7, 7, 7, 7, 7, 7, 7], exA) := by
  decide +kernel
example : assignStr true 0 exMem exA ⟨1, 10, 256, true, 0⟩ = .ub :=
  (assign_tail_string true 0 exMem exA ⟨1, 10, 256, true, 0⟩ [1, 2, 3, 4] 1 (by decide +kernel) rfl rfl rfl (by decide)
    (by decide) (by decide)).2.2 (by decide)
-- shared_histories: a second name for the first buffer, appends through both, a copy to the other buffer, a rebinding
def exRoom (b : Nat) : Nat := if b = 0 then 10 else 8
def exState : Spec.State Nat := ⟨[⟨0, 10, 256⟩, ⟨10, 8, 256⟩], fun b => if b = 0 then [1, 2, 3, 4] else [8, 9]⟩
def exOps : List (Op Nat) :=
  [.alias3 0 256, .append 2 1, .assignStr 1 0, .pushOwn 0 0, .clear 1, .insert 1 0 2, .assignSame 2 1, .append 1 1]
example : Spec.Shows 0 exRoom [0, 10] exMem [exA, exB] exState := by
  refine ⟨rfl, by decide, by decide, ⟨by decide, by decide⟩, by decide +kernel⟩
example : (Spec.run exRoom exState (exOps.take 7)).map (fun a => (a.refs, a.text 0, a.text 10)) =
    some ([⟨0, 10, 256⟩, ⟨10, 8, 256⟩, ⟨10, 8, 256⟩], [1, 2, 3, 4, 8, 9, 1], [1, 2, 3, 4, 8, 9, 1]) := by decide +kernel
-- the eighth call would not fit
example : (Spec.run exRoom exState exOps).isNone := by decide +kernel
example : ((run true 0 ⟨exMem, [exA, exB]⟩ (exOps.take 7)).bind fun w => .ok w.mem) =
    .ok [1, 2, 3, 4, 8, 9, 1, 0, 7, 7, 1, 2, 3, 4, 8, 9, 1, 0, 7, 7] := by decide +kernel
-- layer3_copies_shrink: the third copy refuses (with assertions) what the string itself can hold
example : (copies3 exA 3).cap = 7 ∧ (copies3 exA 3).ptr = 0 := by decide
-- layer2_alias_overruns: a string of six cells; the alias writes to the seventh and eighth
example : ∃ m' s', appendPtr true 0 exMem (alias2 exC 100 256) 5 5 = .ok (m', s') ∧
    ∃ q, 16 ≤ q ∧ m'[q]? = some 0 :=
  layer2_alias_overruns true 0 exMem exC [8, 9] [7, 7, 7, 7, 7] 5 100 256 (by decide +kernel) rfl
    (by decide +kernel) (by decide) (by decide) (by decide) (by decide) (by decide) (by decide)
-- same_type_assignment_shares
example : ∃ m' y', appendPtr true 0 exMem exB 0 2 = .ok (m', y') ∧ Holds 0 m' (assignSame exA exB) [8, 9, 1, 2] :=
  same_type_assignment_shares true 0 exMem exA exB [8, 9] [1, 2] 0 (by decide +kernel) rfl (by decide +kernel) (by decide)
    (by decide +kernel) (by decide)

end Verif.StringKinds
