import Verif.DynArray.Spec
import Verif.Algorithm.CopyProps

/-!
# Fixed-capacity vectors and strings: edits within capacity, and overfull requests (C10, C11)
-/
namespace Verif.DynArray

variable {α : Type u} [DecidableEq α]

/-! ## Buffer writes -/

theorem writeAll_effect (b : List α) (pos : Nat) (src : List α) (h : pos + src.length ≤ b.length) :
    ∃ b', writeAll b pos src = some b' ∧ b'.length = b.length ∧
      ∀ j, b'[j]? = if pos ≤ j ∧ j < pos + src.length then src[j - pos]? else b[j]? := by
  induction src generalizing b pos with
  | nil => exact ⟨b, rfl, rfl, by intro j; simp; omega⟩
  | cons x r ih =>
    simp only [List.length_cons] at h ⊢
    obtain ⟨b', e1, e2, e3⟩ := ih (b.set pos x) (pos + 1) (by simp; omega)
    refine ⟨b', by simp only [writeAll, wr_lt (show pos < b.length by omega), e1], by simpa using e2, ?_⟩
    intro j; rw [e3]
    by_cases hj : j = pos
    · subst hj
      rw [if_neg (by omega), if_pos (by omega), List.getElem?_set_self (by omega)]; simp
    · rw [List.getElem?_set_ne (by omega)]
      by_cases h2 : pos + 1 ≤ j ∧ j < pos + 1 + r.length
      · rw [if_pos h2, if_pos (by omega), show j - pos = (j - (pos + 1)) + 1 by omega,
          List.getElem?_cons_succ]
      · rw [if_neg h2, if_neg (by omega)]

theorem writeAll_overrun (b : List α) (pos : Nat) (src : List α) (h : b.length < pos + src.length)
    (hne : src ≠ []) : writeAll b pos src = none := by
  induction src generalizing b pos with
  | nil => exact absurd rfl hne
  | cons x r ih =>
    simp only [List.length_cons] at h
    by_cases hp : pos < b.length
    · simp only [writeAll, wr_lt hp]
      exact ih _ _ (by simp; omega) (by rintro rfl; simp at h; omega)
    · simp [writeAll, wr, hp]

theorem memmove_effect (b : List α) (dst src n : Nat) (h1 : dst + n ≤ b.length) (h2 : src + n ≤ b.length) :
    ∃ b', memmove b dst src n = some b' ∧ b'.length = b.length ∧
      ∀ j, b'[j]? = if dst ≤ j ∧ j < dst + n then b[src + (j - dst)]? else b[j]? := by
  refine ⟨b.take dst ++ (b.drop src).take n ++ b.drop (dst + n), by simp [memmove, h1, h2], ?_, ?_⟩
  · simp; omega
  · intro j
    by_cases hj : j < dst
    · rw [if_neg (by omega), List.getElem?_append_left (by simp; omega),
        List.getElem?_append_left (by simp; omega), List.getElem?_take_of_lt hj]
    · by_cases hk : j < dst + n
      · rw [if_pos (by omega), List.getElem?_append_left (by simp; omega),
          List.getElem?_append_right (by simp; omega)]
        simp only [List.length_take]
        rw [Nat.min_eq_left (by omega), List.getElem?_take_of_lt (by omega), List.getElem?_drop]
      · rw [if_neg (by omega), List.getElem?_append_right (by simp; omega), List.getElem?_drop]
        congr 1; simp; omega

/-! ## The representation of a list by a container -/

/-- The container represents `l`: its cells start with `l`, `l` fits, and the length policy agrees. -/
structure Rep (c : Cfg α) (a : Arr α) (l : List α) : Prop where
  capM : a.buf.length < c.modulus
  fits : l.length ≤ a.buf.length
  pre : ∀ i, i < l.length → a.buf[i]? = l[i]?
  msz : c.nullTerm = false → a.msize = l.length
  term : c.nullTerm = true → a.buf[l.length]? = some c.zero
  nz : c.nullTerm = true → c.zero ∉ l

/-- how many values fit -/
def room (c : Cfg α) (a : Arr α) : Nat := if c.nullTerm then a.buf.length - 1 else a.buf.length

theorem Rep.lt_of_term {c : Cfg α} {a : Arr α} {l : List α} (h : Rep c a l) (hn : c.nullTerm = true) :
    l.length < a.buf.length := by
  have := h.term hn
  exact (List.getElem?_eq_some_iff.mp this).1

theorem strlen_eq {z : α} {b l : List α} (hp : ∀ i, i < l.length → b[i]? = l[i]?)
    (ht : b[l.length]? = some z) (hz : z ∉ l) : strlen z b = some l.length := by
  induction l generalizing b with
  | nil => cases b with
    | nil => simp at ht
    | cons x r => simp at ht; simp [strlen, ht]
  | cons y l ih =>
    cases b with
    | nil => simp at ht
    | cons x r =>
      have h0 := hp 0 (by simp)
      simp at h0
      simp only [List.mem_cons, not_or] at hz
      have : x ≠ z := by rw [h0]; exact fun h => hz.1 h.symm
      simp only [strlen, this, if_false]
      rw [ih (b := r) (fun i hi => by simpa using hp (i + 1) (by simp; omega)) (by simpa using ht) hz.2]
      simp

theorem Rep.size_eq {c : Cfg α} {a : Arr α} {l : List α} (h : Rep c a l) : size c a = .ok l.length := by
  unfold size
  by_cases hn : c.nullTerm = true
  · rw [if_pos hn, strlen_eq h.pre (h.term hn) (h.nz hn)]
    have := h.lt_of_term hn; have := h.capM
    simp [Nat.mod_eq_of_lt (show l.length < c.modulus by omega)]
  · rw [if_neg hn, h.msz (by simpa using hn)]

theorem Rep.holds {c : Cfg α} {a : Arr α} {l : List α} (h : Rep c a l) : Holds c a l := by
  refine ⟨h.size_eq, fun i hi => ?_⟩
  unfold index rd
  rw [h.pre i hi, List.getElem?_eq_getElem hi]; rfl

theorem Rep.room_le {c : Cfg α} {a : Arr α} {l : List α} (h : Rep c a l) : l.length ≤ room c a := by
  unfold room
  split
  · have := h.lt_of_term ‹_›; omega
  · exact h.fits

/-- the container after `size(n)` -/
def resized (c : Cfg α) (a : Arr α) (n : Nat) : Arr α :=
  if c.nullTerm then { a with buf := a.buf.set n c.zero } else { a with msize := n }

@[simp] theorem resized_length (c : Cfg α) (a : Arr α) (n : Nat) :
    (resized c a n).buf.length = a.buf.length := by unfold resized; split <;> simp

theorem resized_get_ne (c : Cfg α) (a : Arr α) (n j : Nat) (h : j ≠ n) :
    (resized c a n).buf[j]? = a.buf[j]? := by
  unfold resized; split
  · simp only; rw [List.getElem?_set_ne (by omega)]
  · rfl

theorem resized_get_term (c : Cfg α) (a : Arr α) (n : Nat) (hn : c.nullTerm = true)
    (h : n < a.buf.length) : (resized c a n).buf[n]? = some c.zero := by
  unfold resized; rw [if_pos hn]; simp only; rw [List.getElem?_set_self h]

theorem resized_msize (c : Cfg α) (a : Arr α) (n : Nat) (hn : c.nullTerm = false) :
    (resized c a n).msize = n := by unfold resized; simp [hn]

theorem setSize_ok (c : Cfg α) (a : Arr α) (n : Nat) (hM : n < c.modulus)
    (ht : c.nullTerm = true → n < a.buf.length) : setSize c a n = .ok (resized c a n) := by
  unfold setSize resized
  rw [Nat.mod_eq_of_lt hM]
  split
  · rw [wr_lt (ht ‹_›)]; simp
  · rfl

theorem fits_lt {c : Cfg α} {a : Arr α} {l : List α} (h : Rep c a l) {n : Nat} (hn : n ≤ room c a) :
    n ≤ a.buf.length ∧ n < c.modulus ∧ (c.nullTerm = true → n < a.buf.length) := by
  have h1 := h.capM
  unfold room at hn
  split at hn
  · have := h.lt_of_term ‹_›; exact ⟨by omega, by omega, fun _ => by omega⟩
  · exact ⟨hn, by omega, fun h => absurd h ‹_›⟩

theorem ensureTotalCapacity_ok {c : Cfg α} {a : Arr α} {l : List α} (h : Rep c a l) {n : Nat}
    (hn : n ≤ room c a) : ensureTotalCapacity c a n = .ok true := by
  obtain ⟨h1, h2, _⟩ := fits_lt h hn
  unfold ensureTotalCapacity Arr.capacity
  rw [Nat.mod_eq_of_lt h2, if_neg (by omega)]

theorem ensureTotalSize_ok {c : Cfg α} {a : Arr α} {l : List α} (h : Rep c a l) {n : Nat}
    (hn : n ≤ room c a) : ensureTotalSize c a n = .ok (resized c a n, true) := by
  obtain ⟨h1, h2, h3⟩ := fits_lt h hn
  unfold ensureTotalSize
  rw [ensureTotalCapacity_ok h hn]
  simp [setSize_ok c a n h2 h3]

theorem grow_ok {c : Cfg α} {a : Arr α} {l : List α} (h : Rep c a l) {k : Nat}
    (hk : l.length + k ≤ room c a) :
    grow c a k = .ok (resized c a (l.length + k), l.length) := by
  obtain ⟨h1, h2, h3⟩ := fits_lt h hk
  unfold grow
  rw [h.size_eq]
  simp only [Res.bind_ok]
  rw [ensureTotalCapacity_ok h hk]
  simp [setSize_ok c a _ h2 h3]

/-- Writing the cells of the resized container so that they start with `l'` represents `l'`. -/
theorem rep_of {c : Cfg α} {a : Arr α} {l : List α} (h : Rep c a l) (l' b' : List α)
    (hl : l'.length ≤ room c a) (hb : b'.length = a.buf.length)
    (hp : ∀ i, i < l'.length → b'[i]? = l'[i]?)
    (ht : b'[l'.length]? = (resized c a l'.length).buf[l'.length]?)
    (hz : c.nullTerm = true → c.zero ∉ l') :
    Rep c { resized c a l'.length with buf := b' } l' := by
  obtain ⟨h1, h2, h3⟩ := fits_lt h hl
  refine ⟨?_, ?_, hp, ?_, ?_, hz⟩
  · simp only [hb]; exact h.capM
  · simp only [hb]; exact h1
  · intro hn; simp [resized_msize c a _ hn]
  · intro hn; simp only [ht, resized_get_term c a _ hn (h3 hn)]

/-! ## The individual edits -/

theorem construct_rep (c : Cfg α) (buf : List α) (hM : buf.length < c.modulus)
    (hc : c.nullTerm = true → 0 < buf.length) : ∃ a, construct c buf = .ok a ∧ Rep c a [] ∧
      a.buf.length = buf.length := by
  refine ⟨resized c ⟨buf, 0⟩ 0, setSize_ok c _ 0 (by omega) hc, ⟨by simpa using hM, by simp, by simp, ?_, ?_,
    by simp⟩, by simp⟩
  · intro h; simp [resized_msize c _ _ h]
  · intro h; exact resized_get_term c _ 0 h (hc h)

theorem append_rep {c : Cfg α} {a : Arr α} {l : List α} (h : Rep c a l) (src : List α)
    (hf : (l ++ src).length ≤ room c a) (hz : c.nullTerm = true → c.zero ∉ src) :
    ∃ a', append c a src = .ok a' ∧ Rep c a' (l ++ src) ∧ a'.buf.length = a.buf.length := by
  obtain ⟨h1, h2, h3⟩ := fits_lt h hf
  have hfl : l.length + src.length ≤ room c a := by simpa using hf
  simp only [List.length_append] at h1 h2 h3
  have hm : src.length % c.modulus = src.length := Nat.mod_eq_of_lt (by omega)
  obtain ⟨b', e1, e2, e3⟩ := writeAll_effect (resized c a (l.length + src.length)).buf l.length src
    (by simp; omega)
  rw [resized_length] at e2
  refine ⟨{ resized c a (l ++ src).length with buf := b' }, ?_, rep_of h _ b' hf e2 ?_ ?_ ?_, by simpa using e2⟩
  · unfold append
    rw [hm, grow_ok h hfl]
    simp only [Res.bind_ok, List.take_length, e1, Res.ofOption_some, List.length_append]
  · intro i hi
    simp only [List.length_append] at hi
    rw [e3]
    by_cases hil : i < l.length
    · rw [if_neg (by omega), resized_get_ne _ _ _ _ (by omega), h.pre i hil, List.getElem?_append_left hil]
    · rw [if_pos (by omega), List.getElem?_append_right (by omega)]
  · rw [e3, if_neg (by simp), List.length_append]
  · intro hn; simp [h.nz hn, hz hn]

theorem pushBack_eq_append (c : Cfg α) (a : Arr α) (v : α) (hM : 1 < c.modulus) :
    pushBack c a v = append c a [v] := by
  unfold pushBack append
  have : (1 : Nat) % c.modulus = 1 := Nat.mod_eq_of_lt hM
  simp only [List.length_singleton, this]
  congr 1; funext p
  simp [writeAll]
  cases wr p.1.buf p.2 v <;> rfl

theorem pushBack_rep {c : Cfg α} {a : Arr α} {l : List α} (h : Rep c a l) (v : α)
    (hf : (l ++ [v]).length ≤ room c a) (hz : c.nullTerm = true → c.zero ≠ v) :
    ∃ a', pushBack c a v = .ok a' ∧ Rep c a' (l ++ [v]) ∧ a'.buf.length = a.buf.length := by
  have := (fits_lt h hf).2.1
  rw [pushBack_eq_append c a v (by simp at this; omega)]
  exact append_rep h [v] hf (by simpa using hz)

theorem appendFill_rep {c : Cfg α} {a : Arr α} {l : List α} (h : Rep c a l) (n : Nat) (v : α)
    (hf : (l ++ List.replicate n v).length ≤ room c a) (hz : c.nullTerm = true → 0 < n → c.zero ≠ v) :
    ∃ a', appendFill c a n v = .ok a' ∧ Rep c a' (l ++ List.replicate n v) ∧
      a'.buf.length = a.buf.length := by
  induction n generalizing a l with
  | zero => exact ⟨a, rfl, by simpa using h, rfl⟩
  | succ n ih =>
    simp only [List.length_append, List.length_replicate] at hf
    obtain ⟨a', e1, e2, e3⟩ := pushBack_rep h v (by simp; omega) (fun hn => hz hn (by omega))
    obtain ⟨a'', f1, f2, f3⟩ := ih e2 (by simp; unfold room at hf ⊢; rw [e3]; split at hf <;> simp_all <;> omega)
      (fun hn _ => hz hn (by omega))
    refine ⟨a'', by simp [appendFill, e1, f1], ?_, by omega⟩
    rw [List.replicate_succ]
    simpa using f2

theorem insertRange_rep {c : Cfg α} {a : Arr α} {l : List α} (h : Rep c a l) (pos : Nat) (src : List α)
    (hpos : pos ≤ l.length) (hf : (l.take pos ++ src ++ l.drop pos).length ≤ room c a)
    (hz : c.nullTerm = true → c.zero ∉ src) :
    ∃ a', insertRange c a pos src = .ok (a', true) ∧ Rep c a' (l.take pos ++ src ++ l.drop pos) ∧
      a'.buf.length = a.buf.length := by
  have hlen : (l.take pos ++ src ++ l.drop pos).length = l.length + src.length := by simp; omega
  rw [hlen] at hf
  obtain ⟨h1, h2, h3⟩ := fits_lt h hf
  have hm : src.length % c.modulus = src.length := Nat.mod_eq_of_lt (by omega)
  obtain ⟨b1, e1, e2, e3⟩ := Algorithm.copy_backward_effect (resized c a (l.length + src.length)).buf pos
    l.length (l.length + src.length) hpos (by simpa using h.fits) (by omega) (by simpa using h1) (by omega)
  rw [resized_length] at e2
  obtain ⟨b2, f1, f2, f3⟩ := writeAll_effect b1 pos src (by omega)
  refine ⟨{ resized c a (l.take pos ++ src ++ l.drop pos).length with buf := b2 }, ?_,
    rep_of h _ b2 (by omega) (by omega) ?_ ?_ ?_, by simp; omega⟩
  · unfold insertRange
    rw [h.size_eq]
    simp only [Res.bind_ok, hm]
    rw [ensureTotalSize_ok h hf]
    simp only [Res.bind_ok, Bool.true_eq_false, if_false, e1, Res.ofOption_some, f1, hlen]
  · intro i hi
    rw [hlen] at hi
    rw [f3]
    by_cases hil : i < pos
    · rw [if_neg (by omega), e3, if_neg (by omega), resized_get_ne _ _ _ _ (by omega), h.pre i (by omega),
        List.append_assoc, List.getElem?_append_left (by simp; omega), List.getElem?_take_of_lt hil]
    · by_cases his : i < pos + src.length
      · rw [if_pos (by omega), List.append_assoc, List.getElem?_append_right (by simp; omega),
          List.getElem?_append_left (by simp; omega)]
        congr 1; simp; omega
      · rw [if_neg (by omega), e3, if_pos (by omega), resized_get_ne _ _ _ _ (by omega),
          h.pre _ (by omega), List.getElem?_append_right (by simp; omega), List.getElem?_drop]
        congr 1; simp; omega
  · rw [hlen, f3, if_neg (by omega), e3, if_neg (by omega)]
  · intro hn hmem
    simp only [List.mem_append] at hmem
    rcases hmem with (hm | hm) | hm
    · exact h.nz hn (List.mem_of_mem_take hm)
    · exact hz hn hm
    · exact h.nz hn (List.mem_of_mem_drop hm)

theorem insert_rep {c : Cfg α} {a : Arr α} {l : List α} (h : Rep c a l) (pos : Nat) (v : α)
    (hpos : pos ≤ l.length) (hf : (l.take pos ++ v :: l.drop pos).length ≤ room c a)
    (hz : c.nullTerm = true → c.zero ≠ v) :
    ∃ a', insert c a pos v = .ok a' ∧ Rep c a' (l.take pos ++ v :: l.drop pos) ∧
      a'.buf.length = a.buf.length := by
  have hlen : (l.take pos ++ v :: l.drop pos).length = l.length + 1 := by simp; omega
  rw [hlen] at hf
  obtain ⟨h1, h2, h3⟩ := fits_lt h hf
  have hm : (l.length + 1) % c.modulus = l.length + 1 := Nat.mod_eq_of_lt (by omega)
  obtain ⟨b1, e1, e2, e3⟩ := Algorithm.copy_backward_effect (resized c a (l.length + 1)).buf pos
    l.length (l.length + 1) hpos (by simpa using h.fits) (by omega) (by simpa using h1) (by omega)
  rw [resized_length] at e2
  refine ⟨{ resized c a (l.take pos ++ v :: l.drop pos).length with buf := b1.set pos v }, ?_,
    rep_of h _ _ (by omega) (by simp; omega) ?_ ?_ ?_, by simp; omega⟩
  · unfold insert
    rw [h.size_eq]
    simp only [Res.bind_ok, hm]
    rw [grow_ok h hf]
    simp only [Res.bind_ok, Nat.add_sub_cancel, e1, Res.ofOption_some,
      wr_lt (show pos < b1.length by omega), hlen]
  · intro i hi
    rw [hlen] at hi
    by_cases hil : i < pos
    · rw [List.getElem?_set_ne (by omega), e3, if_neg (by omega), resized_get_ne _ _ _ _ (by omega),
        h.pre i (by omega), List.getElem?_append_left (by simp; omega), List.getElem?_take_of_lt hil]
    · by_cases his : i = pos
      · subst his
        rw [List.getElem?_set_self (by omega), List.getElem?_append_right (by simp; omega)]
        simp [Nat.min_eq_left hpos]
      · rw [List.getElem?_set_ne (by omega), e3, if_pos (by omega), resized_get_ne _ _ _ _ (by omega),
          h.pre _ (by omega), List.getElem?_append_right (by simp; omega)]
        simp only [List.length_take, Nat.min_eq_left hpos]
        rw [show i - pos = (i - pos - 1) + 1 by omega, List.getElem?_cons_succ, List.getElem?_drop]
        congr 1; omega
  · rw [hlen, List.getElem?_set_ne (by omega), e3, if_neg (by omega)]
  · intro hn hmem
    simp only [List.mem_append, List.mem_cons] at hmem
    rcases hmem with hm | hm | hm
    · exact h.nz hn (List.mem_of_mem_take hm)
    · exact hz hn hm
    · exact h.nz hn (List.mem_of_mem_drop hm)

theorem eraseRaw_rep {c : Cfg α} {a : Arr α} {l : List α} (h : Rep c a l) (pos count : Nat)
    (hpos : pos + count ≤ l.length) :
    ∃ a', eraseRaw c a pos count = .ok a' ∧ Rep c a' (l.take pos ++ l.drop (pos + count)) ∧
      a'.buf.length = a.buf.length := by
  have hlen : (l.take pos ++ l.drop (pos + count)).length = l.length - count := by simp; omega
  have hcap := h.capM
  have hfit := h.fits
  have hget : ∀ (b' : List α) (n : Nat), l.length ≤ n + (pos + count) →
      (∀ j, b'[j]? = if pos ≤ j ∧ j < pos + n then a.buf[pos + count + (j - pos)]? else a.buf[j]?) →
      ∀ i, i < l.length - count → b'[i]? = (l.take pos ++ l.drop (pos + count))[i]? := by
    intro b' n hn f3 i hi
    rw [f3]
    by_cases hil : i < pos
    · rw [if_neg (by omega), h.pre i (by omega), List.getElem?_append_left (by simp; omega),
        List.getElem?_take_of_lt hil]
    · rw [if_pos (by omega), h.pre _ (by omega), List.getElem?_append_right (by simp; omega),
        List.getElem?_drop]
      congr 1; simp; omega
  have hnz : c.nullTerm = true → c.zero ∉ l.take pos ++ l.drop (pos + count) := by
    intro hn hmem
    simp only [List.mem_append] at hmem
    rcases hmem with hm | hm
    · exact h.nz hn (List.mem_of_mem_take hm)
    · exact h.nz hn (List.mem_of_mem_drop hm)
  by_cases hn : c.nullTerm = true
  · have hlt := h.lt_of_term hn
    obtain ⟨b, f1, f2, f3⟩ := memmove_effect a.buf pos (pos + count) (l.length + 1 - (pos + count))
      (by omega) (by omega)
    refine ⟨{ a with buf := b }, ?_, ⟨by simp; omega, by simp; omega, ?_, by simp [hn], ?_, hnz⟩, f2⟩
    · unfold eraseRaw
      rw [h.size_eq]
      simp [hn, f1, show pos + count ≤ l.length + 1 by omega]
    · rw [hlen]; exact hget b _ (by omega) f3
    · intro _
      rw [hlen]
      show b[l.length - count]? = _
      rw [f3, if_pos (by omega), ← h.term hn]
      congr 1; omega
  · have hn' : c.nullTerm = false := by simpa using hn
    obtain ⟨b, f1, f2, f3⟩ := memmove_effect a.buf pos (pos + count) (l.length - (pos + count))
      (by omega) (by omega)
    refine ⟨{ buf := b, msize := l.length - count }, ?_, ⟨by simp; omega, by simp; omega, ?_, ?_, by simp [hn'], hnz⟩, f2⟩
    · unfold eraseRaw
      rw [h.size_eq]
      have hmod : (l.length + c.modulus - count) % c.modulus = l.length - count := by
        rw [show l.length + c.modulus - count = (l.length - count) + c.modulus by omega, Nat.add_mod_right,
          Nat.mod_eq_of_lt (by omega)]
      simp [hn', setSize, f1, hpos, hmod]
    · rw [hlen]; exact hget b _ (by omega) f3
    · intro _; rw [hlen]

theorem strErase_rep {c : Cfg α} {a : Arr α} {l : List α} (h : Rep c a l) (pos count : Nat)
    (hpos : pos ≤ l.length) :
    ∃ a', strErase c a pos count = .ok a' ∧ Rep c a' (l.take pos ++ l.drop (pos + count)) ∧
      a'.buf.length = a.buf.length := by
  have hcap := h.capM; have hfit := h.fits
  have hmod : (l.length + c.modulus - pos) % c.modulus = l.length - pos := by
    rw [show l.length + c.modulus - pos = (l.length - pos) + c.modulus by omega, Nat.add_mod_right,
      Nat.mod_eq_of_lt (by omega)]
  unfold strErase
  rw [h.size_eq]
  simp only [Res.bind_ok, hmod]
  split
  · obtain ⟨a', e1, e2, e3⟩ := eraseRaw_rep h pos (l.length - pos) (by omega)
    refine ⟨a', e1, ?_, e3⟩
    rw [List.drop_eq_nil_of_le (by omega)]
    rw [List.drop_eq_nil_of_le (by omega)] at e2
    exact e2
  · exact eraseRaw_rep h pos count (by omega)

theorem truncate_rep {c : Cfg α} {a : Arr α} {l : List α} (h : Rep c a l) (n : Nat) (hn : n ≤ l.length) :
    ∃ a', resize c a n = .ok (a', true) ∧ Rep c a' (l.take n) ∧ a'.buf.length = a.buf.length := by
  have hr : n ≤ room c a := by have := h.room_le; omega
  refine ⟨resized c a n, by unfold resize; exact ensureTotalSize_ok h hr, ?_, by simp⟩
  have hlen : (l.take n).length = n := by simp; omega
  have := rep_of h (l.take n) (resized c a n).buf (by omega) (by simp) ?_ ?_ ?_
  · rw [hlen] at this; exact this
  · rw [hlen]; intro i hi
    rw [resized_get_ne _ _ _ _ (by omega), h.pre i (by omega), List.getElem?_take_of_lt hi]
  · rw [hlen]
  · exact fun hn hm => h.nz hn (List.mem_of_mem_take hm)

theorem popBack_rep {c : Cfg α} {a : Arr α} {l : List α} (h : Rep c a l) (hne : l ≠ []) :
    ∃ a', popBack c a = .ok a' ∧ Rep c a' l.dropLast ∧ a'.buf.length = a.buf.length := by
  have hpos : 0 < l.length := List.length_pos_iff.mpr hne
  have hcap := h.capM; have hfit := h.fits
  obtain ⟨a', e1, e2, e3⟩ := truncate_rep h (l.length - 1) (by omega)
  refine ⟨a', ?_, by rw [List.dropLast_eq_take]; exact e2, e3⟩
  unfold resize at e1
  have hr : l.length - 1 ≤ room c a := by have := h.room_le; omega
  rw [ensureTotalSize_ok h hr] at e1
  injection e1 with e1
  unfold popBack
  rw [h.size_eq]
  simp only [Res.bind_ok]
  have : setSize c a (l.length + c.modulus - 1) = setSize c a (l.length - 1) := by
    unfold setSize
    rw [show l.length + c.modulus - 1 = (l.length - 1) + c.modulus by omega, Nat.add_mod_right]
  obtain ⟨_, h2, h3⟩ := fits_lt h hr
  rw [this, setSize_ok c a _ h2 h3, (Prod.mk.inj e1).1]

theorem clear_rep {c : Cfg α} {a : Arr α} {l : List α} (h : Rep c a l) :
    ∃ a', clear c a = .ok a' ∧ Rep c a' [] ∧ a'.buf.length = a.buf.length := by
  obtain ⟨a', e1, e2, e3⟩ := truncate_rep h 0 (by omega)
  exact ⟨a', by simp [clear, e1], by simpa using e2, e3⟩

theorem assign_rep {c : Cfg α} {a : Arr α} {l : List α} (h : Rep c a l) (src : List α)
    (hf : src.length ≤ room c a) (hz : c.nullTerm = true → c.zero ∉ src) :
    ∃ a', assign c a src = .ok a' ∧ Rep c a' src ∧ a'.buf.length = a.buf.length := by
  obtain ⟨h1, h2, h3⟩ := fits_lt h hf
  obtain ⟨b', e1, e2, e3⟩ := writeAll_effect (resized c a src.length).buf 0 src (by simp; omega)
  rw [resized_length] at e2
  refine ⟨{ resized c a src.length with buf := b' }, ?_, rep_of h _ b' hf e2 ?_ ?_ hz, by simpa using e2⟩
  · unfold assign
    rw [ensureTotalSize_ok h hf]
    simp [Nat.mod_eq_of_lt h2, e1]
  · intro i hi
    rw [e3, if_pos (by omega)]; simp
  · rw [e3, if_neg (by omega)]

end Verif.DynArray
