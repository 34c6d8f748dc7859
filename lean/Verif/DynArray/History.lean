import Verif.DynArray.Props

/-!
# C10 and C11: histories of edits, resize, erase of wide elements, overfull requests
-/
namespace Verif.DynArray

variable {α : Type u} [DecidableEq α]

/-- The modelled C++ call for an edit. -/
def Op.run (c : Cfg α) (a : Arr α) : Op α → Res (Arr α)
  | .pushBack v => DynArray.pushBack c a v
  | .append src => DynArray.append c a src
  | .appendFill n v => DynArray.appendFill c a n v
  | .insert pos v => DynArray.insert c a pos v
  | .insertRange pos src => (DynArray.insertRange c a pos src).bind fun p => .ok p.1
  | .eraseAt pos => (DynArray.eraseAt c a pos).bind fun p => .ok p.1
  | .erase pos count => DynArray.strErase c a pos count
  | .popBack => DynArray.popBack c a
  | .truncate n => (DynArray.resize c a n).bind fun p => .ok p.1
  | .clear => DynArray.clear c a
  | .assign src => DynArray.assign c a src

/-- A history of edits. -/
def runAll (c : Cfg α) (a : Arr α) : List (Op α) → Res (Arr α)
  | [] => .ok a
  | o :: os => (o.run c a).bind fun a' => runAll c a' os

/-- The sequence a history should leave. -/
def specAll (l : List α) : List (Op α) → List α
  | [] => l
  | o :: os => specAll (o.spec l) os

/-- A history that stays within `limit` values, respects the standard's position preconditions and, for a
null-terminated container, never stores the terminator as a value. -/
def Legal (c : Cfg α) (limit : Nat) (l : List α) : List (Op α) → Prop
  | [] => True
  | o :: os => o.Pre l ∧ (o.spec l).length ≤ limit ∧ (c.nullTerm = true → c.zero ∉ o.spec l) ∧
      Legal c limit (o.spec l) os

theorem step_rep {c : Cfg α} {a : Arr α} {l : List α} (h : Rep c a l) (o : Op α) (hp : o.Pre l)
    (hf : (o.spec l).length ≤ room c a) (hz : c.nullTerm = true → c.zero ∉ o.spec l) :
    ∃ a', o.run c a = .ok a' ∧ Rep c a' (o.spec l) ∧ a'.buf.length = a.buf.length := by
  cases o with
  | pushBack v => exact pushBack_rep h v hf (fun hn => by have := hz hn; simp [Op.spec] at this; exact this.2)
  | append src => exact append_rep h src hf (fun hn => by have := hz hn; simp [Op.spec] at this; exact this.2)
  | appendFill n v =>
    refine appendFill_rep h n v hf (fun hn hpos hv => hz hn ?_)
    simp only [Op.spec, List.mem_append, List.mem_replicate]; right; exact ⟨by omega, hv⟩
  | insert pos v =>
    exact insert_rep h pos v hp hf (fun hn hv => hz hn (by simp [Op.spec, hv]))
  | insertRange pos src =>
    obtain ⟨a', e1, e2, e3⟩ := insertRange_rep h pos src hp hf
      (fun hn hv => hz hn (by simp [Op.spec, hv]))
    exact ⟨a', by simp [Op.run, e1], e2, e3⟩
  | eraseAt pos =>
    obtain ⟨a', e1, e2, e3⟩ := eraseRaw_rep h pos 1 hp
    exact ⟨a', by simp [Op.run, DynArray.eraseAt, e1], e2, e3⟩
  | erase pos count => exact strErase_rep h pos count hp
  | popBack => exact popBack_rep h hp
  | truncate n =>
    obtain ⟨a', e1, e2, e3⟩ := truncate_rep h n hp
    exact ⟨a', by simp [Op.run, e1], e2, e3⟩
  | clear => exact clear_rep h
  | assign src => exact assign_rep h src hf (fun hn => hz hn)

theorem runAll_rep {c : Cfg α} {a : Arr α} {l : List α} (h : Rep c a l) (ops : List (Op α))
    (hL : Legal c (room c a) l ops) :
    ∃ a', runAll c a ops = .ok a' ∧ Rep c a' (specAll l ops) ∧ a'.buf.length = a.buf.length := by
  induction ops generalizing a l with
  | nil => exact ⟨a, rfl, h, rfl⟩
  | cons o os ih =>
    obtain ⟨h1, h2, h3, h4⟩ := hL
    obtain ⟨a1, e1, e2, e3⟩ := step_rep h o h1 h2 h3
    obtain ⟨a2, f1, f2, f3⟩ := ih e2 (by unfold room; rw [e3]; exact h4)
    exact ⟨a2, by simp [runAll, e1, f1], f2, by omega⟩

/-! ## C10 -/

/-- C10 (partial: erase is covered for one-byte elements, growing `resize` is excluded because it is wrong,
see below): start from an empty container over any buffer and apply any history of edits that stays within
the container's room (`capacity()`, less the terminator cell for a null-terminated string).  Every operation is
defined (nothing outside the buffer is touched), the container then holds exactly the list the standard
operations produce, the buffer keeps its capacity and `size() ≤ capacity()`. -/
theorem edits_agree_partial (c : Cfg α) (buf : List α) (hM : buf.length < c.modulus)
    (hc : c.nullTerm = true → 0 < buf.length) (ops : List (Op α))
    (hL : Legal c (if c.nullTerm then buf.length - 1 else buf.length) [] ops) :
    ∃ a0 a, construct c buf = .ok a0 ∧ Holds c a0 [] ∧ runAll c a0 ops = .ok a ∧
      Holds c a (specAll [] ops) ∧ a.capacity = buf.length ∧ (specAll [] ops).length ≤ a.capacity := by
  obtain ⟨a0, e1, e2, e3⟩ := construct_rep c buf hM hc
  obtain ⟨a, f1, f2, f3⟩ := runAll_rep e2 ops (by unfold room; rw [e3]; exact hL)
  refine ⟨a0, a, e1, e2.holds, f1, f2.holds, ?_, ?_⟩
  · unfold Arr.capacity; omega
  · have := f2.fits; unfold Arr.capacity; omega

/-- a `layer1::vector<uint8_t, 6>`-like container -/
def exVec : Cfg Nat := { modulus := 256, nullTerm := false, zero := 0, asserts := true }
/-- a `layer1::string<8>`-like container -/
def exStr : Cfg Nat := { modulus := 256, nullTerm := true, zero := 0, asserts := true }

def exOps : List (Op Nat) :=
  [.append [1, 2, 3], .pushBack 4, .insert 1 9, .eraseAt 0, .insertRange 2 [7, 7], .erase 3 2, .popBack,
    .truncate 2]

instance (o : Op α) (l : List α) : Decidable (o.Pre l) := by
  cases o <;> simp only [Op.Pre] <;> infer_instance
instance decLegal (c : Cfg α) (limit : Nat) : (l : List α) → (ops : List (Op α)) →
    Decidable (Legal c limit l ops)
  | _, [] => instDecidableTrue
  | l, o :: os =>
    have := decLegal c limit (o.spec l) os
    inferInstanceAs (Decidable (_ ∧ _ ∧ _ ∧ _))

example : Legal exVec 6 [] exOps := by decide +kernel
example : Legal exStr 7 [] exOps := by decide +kernel
example : specAll [] exOps = [9, 2] := by decide +kernel

/-- C10: the positions the calls report: `erase(it)` returns the position of the element that followed. -/
theorem erase_returns (c : Cfg α) (a : Arr α) (l : List α) (h : Rep c a l) (pos : Nat)
    (hp : pos < l.length) :
    ∃ a', eraseAt c a pos = .ok (a', pos) ∧ Holds c a' (l.take pos ++ l.drop (pos + 1)) := by
  obtain ⟨a', e1, e2, _⟩ := eraseRaw_rep h pos 1 hp
  exact ⟨a', by simp [eraseAt, e1], e2.holds⟩

example : ((construct exVec [0, 0, 0]).bind fun a => (append exVec a [1, 2, 3]).bind
    fun a => eraseAt exVec a 1) = .ok (⟨[1, 3, 3], 2⟩, 1) := by decide

/-! ### growing `resize` -/

/-- C10 fails for a growing `resize` of an explicitly sized container: the new elements are whatever bytes
were in the buffer, not value-initialised. -/
theorem resize_grow_exposes_stale (c : Cfg α) (hn : c.nullTerm = false) (a : Arr α) (l : List α)
    (h : Rep c a l) (n : Nat) (h1 : l.length ≤ n) (h2 : n ≤ a.capacity) :
    ∃ a', resize c a n = .ok (a', true) ∧ Holds c a' (l ++ (a.buf.take n).drop l.length) := by
  have hr : n ≤ room c a := by unfold room; simp [hn]; exact h2
  refine ⟨_, ensureTotalSize_ok h hr, Rep.holds (?_ : Rep c _ _)⟩
  unfold Arr.capacity at h2
  have hlen : (l ++ (a.buf.take n).drop l.length).length = n := by simp; omega
  refine ⟨by simpa using h.capM, by simp; omega, ?_, ?_, by simp [hn], by simp [hn]⟩
  · rw [hlen]
    intro i hi
    have : (resized c a n).buf = a.buf := by simp [resized, hn]
    rw [this]
    by_cases hil : i < l.length
    · rw [h.pre i hil, List.getElem?_append_left hil]
    · rw [List.getElem?_append_right (by omega), List.getElem?_drop, List.getElem?_take_of_lt (by omega)]
      congr 1; omega
  · intro _; rw [hlen, resized_msize c a n hn]

/-- … so after `clear()` a `resize` brings the old elements back. -/
example : ((append exVec ⟨[0, 0, 0, 0], 0⟩ [5, 6, 7]).bind fun a => (clear exVec a).bind fun a =>
    resize exVec a 2) = .ok (⟨[5, 6, 7, 0], 2⟩, true) := by decide

/-- C10 fails for a growing `resize` of a null-terminated string: it reports success and the string is
unchanged — `size()` does not grow. -/
theorem resize_grow_ignored (c : Cfg α) (hn : c.nullTerm = true) (a : Arr α) (l : List α)
    (h : Rep c a l) (n : Nat) (h1 : l.length ≤ n) (h2 : n < a.capacity) :
    ∃ a', resize c a n = .ok (a', true) ∧ Holds c a' l := by
  unfold Arr.capacity at h2
  have hr : n ≤ room c a := by unfold room; simp [hn]; omega
  refine ⟨_, ensureTotalSize_ok h hr, Rep.holds (?_ : Rep c _ l)⟩
  have hlt := h.lt_of_term hn
  refine ⟨by simpa using h.capM, by simp; omega, ?_, by simp [hn], ?_, h.nz⟩
  · intro i hi; rw [resized_get_ne _ _ _ _ (by omega), h.pre i hi]
  · intro _
    by_cases hl : l.length = n
    · rw [hl]; exact resized_get_term c a n hn h2
    · rw [resized_get_ne _ _ _ _ (by omega), h.term hn]

example : (append exStr ⟨[0, 1, 1, 1, 1], 0⟩ [5]).bind (fun a => resize exStr a 3)
    = .ok (⟨[5, 0, 1, 0, 1], 0⟩, true) := by decide

/-! ### erase of elements wider than a byte -/

/-- The exact effect of `erase` on a container whose elements are `esz` bytes wide: the size is right, but only
`size - (index + count)` *bytes* are moved. -/
theorem erase_bytes_effect {β : Type} [DecidableEq β] (bytes : List β) (esz size idx count : Nat)
    (he : 0 < esz) (hs : size * esz ≤ bytes.length) (hi : idx + count ≤ size) :
    ∃ b', eraseBytes bytes esz size idx count = .ok (b', size - count) ∧ b'.length = bytes.length ∧
      ∀ j, b'[j]? = if idx * esz ≤ j ∧ j < idx * esz + (size - (idx + count))
        then bytes[j + count * esz]? else bytes[j]? := by
  have h1 : (size - (idx + count)) ≤ (size - (idx + count)) * esz := Nat.le_mul_of_pos_right _ he
  have h2 : idx * esz + count * esz + (size - (idx + count)) * esz = size * esz := by
    rw [← Nat.add_mul, ← Nat.add_mul]; congr 1; omega
  obtain ⟨b', e1, e2, e3⟩ := memmove_effect bytes (idx * esz) (idx * esz + count * esz)
    (size - (idx + count)) (by omega) (by omega)
  refine ⟨b', by simp [eraseBytes, hi, e1], e2, ?_⟩
  intro j; rw [e3]
  split
  · congr 1; omega
  · rfl

/-- C10 for `erase` with one-byte elements at byte level: the bytes after the gap move down. -/
theorem erase_byte_elements {β : Type} [DecidableEq β] (bytes : List β) (size idx count : Nat)
    (hs : size ≤ bytes.length) (hi : idx + count ≤ size) :
    ∃ b', eraseBytes bytes 1 size idx count = .ok (b', size - count) ∧
      b'.take (size - count) = bytes.take idx ++ ((bytes.take size).drop (idx + count)) := by
  obtain ⟨b', e1, e2, e3⟩ := erase_bytes_effect bytes 1 size idx count (by omega) (by omega) hi
  refine ⟨b', e1, ?_⟩
  apply List.ext_getElem?
  intro j
  by_cases hj : j < size - count
  · rw [List.getElem?_take_of_lt hj, e3]
    simp only [Nat.mul_one]
    by_cases hj2 : j < idx
    · rw [if_neg (by omega), List.getElem?_append_left (by simp; omega), List.getElem?_take_of_lt hj2]
    · rw [if_pos (by omega), List.getElem?_append_right (by simp; omega), List.getElem?_drop,
        List.getElem?_take_of_lt (by simp; omega)]
      congr 1; simp; omega
  · rw [List.getElem?_eq_none (by simp; omega), List.getElem?_eq_none (by simp; omega)]

example : eraseBytes [1, 2, 3, 4, 9] 1 4 1 1 = .ok ([1, 3, 4, 4, 9], 3) := by decide

/-- C10 fails for `erase` on elements of two or more bytes: whenever an element follows the erased ones, the
*last* byte of the last surviving element keeps its old value instead of the value that should have moved there.
So whenever those two bytes differ the container no longer holds the right elements. -/
theorem erase_wide_wrong {β : Type} [DecidableEq β] (bytes : List β) (esz size idx count : Nat)
    (he : 2 ≤ esz) (hs : size * esz ≤ bytes.length) (hc : 0 < count) (hi : idx + count < size) :
    ∃ b', eraseBytes bytes esz size idx count = .ok (b', size - count) ∧
      b'[(size - count) * esz - 1]? = bytes[(size - count) * esz - 1]? ∧
      (bytes[(size - count) * esz - 1]? ≠ bytes[size * esz - 1]? →
        b'[(size - count) * esz - 1]? ≠ bytes[size * esz - 1]?) := by
  obtain ⟨b', e1, e2, e3⟩ := erase_bytes_effect bytes esz size idx count (by omega) hs (by omega)
  have hkey : b'[(size - count) * esz - 1]? = bytes[(size - count) * esz - 1]? := by
    rw [e3, if_neg]
    rintro ⟨_, h2⟩
    obtain ⟨k, hk⟩ : ∃ k, size - count = idx + k ∧ 0 < k := ⟨size - count - idx, by omega, by omega⟩
    have hk2 : k * 2 ≤ k * esz := Nat.mul_le_mul_left _ he
    rw [hk.1, Nat.add_mul] at h2
    omega
  exact ⟨b', e1, hkey, fun h => by rw [hkey]; exact h⟩

/-- erasing the first of three 16-bit elements `0x0101, 0x0202, 0x0303` leaves `0x0202, 0x0202`. -/
example : eraseBytes [1, 1, 2, 2, 3, 3] 2 3 0 1 = .ok ([2, 2, 2, 2, 3, 3], 2) := by decide

/-! ## C11 -/

/-- C11 (partial): the one configuration in which an overfull request does no damage.  With `assert` compiled
in, and the requested total representable in `size_type`, an `append` beyond the capacity stops the program before
any cell is written. -/
theorem overfull_append_aborts_partial (c : Cfg α) (ha : c.asserts = true) (a : Arr α) (l : List α)
    (h : Rep c a l) (src : List α) (hover : a.capacity < l.length + src.length)
    (hM : l.length + src.length < c.modulus) : append c a src = .abort := by
  unfold append grow
  rw [h.size_eq, Nat.mod_eq_of_lt (show src.length < c.modulus by omega)]
  simp only [Res.bind_ok]
  unfold ensureTotalCapacity
  rw [Nat.mod_eq_of_lt hM, if_pos hover]
  simp [reserve, ha]

/-- likewise `insert` of a range -/
theorem overfull_insert_aborts_partial (c : Cfg α) (ha : c.asserts = true) (a : Arr α) (l : List α)
    (h : Rep c a l) (pos : Nat) (src : List α) (hover : a.capacity < l.length + src.length)
    (hM : l.length + src.length < c.modulus) : insertRange c a pos src = .abort := by
  unfold insertRange
  rw [h.size_eq]
  simp only [Res.bind_ok, Nat.mod_eq_of_lt (show src.length < c.modulus by omega)]
  unfold ensureTotalSize ensureTotalCapacity
  rw [Nat.mod_eq_of_lt hM, if_pos hover]
  simp [reserve, ha]

/-- likewise `insert` of one value and `push_back` -/
theorem overfull_single_aborts_partial (c : Cfg α) (ha : c.asserts = true) (a : Arr α) (l : List α)
    (h : Rep c a l) (pos : Nat) (v : α) (hover : l.length = a.capacity) (hM : l.length + 1 < c.modulus) :
    insert c a pos v = .abort ∧ pushBack c a v = .abort := by
  have hg : grow c a 1 = .abort := by
    unfold grow
    rw [h.size_eq]
    simp only [Res.bind_ok]
    unfold ensureTotalCapacity
    rw [Nat.mod_eq_of_lt hM, if_pos (by omega)]
    simp [reserve, ha]
  unfold insert pushBack
  rw [h.size_eq, hg]
  simp

example : append exVec ⟨[1, 2, 0], 2⟩ [7, 8] = .abort := by decide
example : insertRange exVec ⟨[1, 2, 0], 2⟩ 1 [7, 8] = .abort := by decide

/-- C11 fails when `assert` is compiled out: *every* overfull, non-empty `append` to an explicitly sized container
writes outside the buffer. -/
theorem overfull_append_release (c : Cfg α) (hn : c.nullTerm = false) (ha : c.asserts = false) (a : Arr α)
    (l : List α) (h : Rep c a l) (src : List α) (hne : src ≠ []) (hM : src.length < c.modulus)
    (hover : a.capacity < l.length + src.length) : append c a src = .ub := by
  unfold append grow
  rw [h.size_eq, Nat.mod_eq_of_lt hM]
  have hcap : ∀ n, ensureTotalCapacity c a n = .ok true := by
    intro n; unfold ensureTotalCapacity reserve; split <;> simp [ha]
  simp only [Res.bind_ok, hcap, setSize, hn, Bool.false_eq_true, if_false, List.take_length]
  rw [writeAll_overrun _ _ _ hover hne]; rfl

/-- … and so does every overfull `push_back` and single `insert`. -/
theorem overfull_push_release (c : Cfg α) (hn : c.nullTerm = false) (ha : c.asserts = false) (a : Arr α)
    (l : List α) (h : Rep c a l) (v : α) (hfull : l.length = a.capacity) (hM : 1 < c.modulus) :
    pushBack c a v = .ub := by
  rw [pushBack_eq_append c a v hM]
  exact overfull_append_release c hn ha a l h [v] (by simp) (by simpa using hM) (by simp; omega)

/-- C11 fails even with `assert` compiled in, because the size computation is done in the narrow `size_type`
(8 bits for buffers of up to 255 cells): whenever the requested total wraps around to a value that fits, the check
passes and the copy runs off the buffer. -/
theorem overfull_append_wraps (c : Cfg α) (hn : c.nullTerm = false) (a : Arr α)
    (l : List α) (h : Rep c a l) (src : List α) (hM : src.length < c.modulus)
    (hover : a.capacity < l.length + src.length) (hwrap : (l.length + src.length) % c.modulus ≤ a.capacity) :
    append c a src = .ub := by
  have hne : src ≠ [] := by
    rintro rfl
    have := h.fits; unfold Arr.capacity at hover; simp at hover; omega
  unfold append grow
  rw [h.size_eq, Nat.mod_eq_of_lt hM]
  simp only [Res.bind_ok]
  unfold ensureTotalCapacity
  rw [if_neg (by omega)]
  simp only [Res.bind_ok, setSize, hn, Bool.false_eq_true, if_false, List.take_length]
  rw [writeAll_overrun _ _ _ hover hne]; rfl

/-- the witness is an ordinary one: 200 bytes in a 250-byte vector, append 100 more. -/
example : append exVec ⟨List.replicate 250 1, 200⟩ (List.replicate 100 2) = .ub := by decide +kernel

/-- C11 fails for null-terminated strings already *at* the reported `capacity()`: an append or insert that brings
the text to exactly `capacity()` characters passes the check and writes the terminator one past the buffer, in every
build mode. -/
theorem terminator_overrun (c : Cfg α) (hn : c.nullTerm = true) (a : Arr α) (l : List α) (h : Rep c a l)
    (pos : Nat) (src : List α) (hexact : l.length + src.length = a.capacity) :
    append c a src = .ub ∧ insertRange c a pos src = .ub := by
  have hcapM := h.capM
  unfold Arr.capacity at hexact
  have hm : src.length % c.modulus = src.length := Nat.mod_eq_of_lt (by omega)
  have hm2 : (l.length + src.length) % c.modulus = l.length + src.length := Nat.mod_eq_of_lt (by omega)
  have hset : setSize c a (l.length + src.length) = .ub := by
    unfold setSize; rw [if_pos hn, hm2]; simp [wr]; rw [if_neg (by omega)]; rfl
  have hcap : ensureTotalCapacity c a (l.length + src.length) = .ok true := by
    unfold ensureTotalCapacity Arr.capacity; rw [hm2, if_neg (by omega)]
  constructor
  · unfold append grow
    rw [h.size_eq]
    simp [hm, hcap, hset]
  · unfold insertRange ensureTotalSize
    rw [h.size_eq]
    simp [hm, hcap, hset]

/-- a `layer1::string<4>`-like buffer holding "ab": appending "cd" overruns. -/
example : append exStr ⟨[97, 98, 0, 0], 0⟩ [99, 100] = .ub := by decide

/-- A request that does fit below `max_size()` is never refused: within the room, `append` and `insert` succeed in
every build mode (the counterpart of the refusals above). -/
theorem fitting_request_succeeds (c : Cfg α) (a : Arr α) (l : List α) (h : Rep c a l) (src : List α)
    (hz : c.nullTerm = true → c.zero ∉ src) (hf : l.length + src.length ≤ maxSize c a) (pos : Nat)
    (hp : pos ≤ l.length) :
    (∃ a', append c a src = .ok a' ∧ Holds c a' (l ++ src)) ∧
    (∃ a', insertRange c a pos src = .ok (a', true) ∧ Holds c a' (l.take pos ++ src ++ l.drop pos)) := by
  have hr : l.length + src.length ≤ room c a := by
    unfold maxSize Arr.capacity at hf; unfold room; split at hf <;> simp_all
  obtain ⟨a1, e1, e2, _⟩ := append_rep h src (by simpa using hr) hz
  obtain ⟨a2, f1, f2, _⟩ := insertRange_rep h pos src hp (by simp; omega) hz
  exact ⟨⟨a1, e1, e2.holds⟩, a2, f1, f2.holds⟩

end Verif.DynArray
