import Verif.DynArray.History

/-!
# Vectors and strings over fixed buffers, with the optional checks and moves compiled in

`src/estd/internal/dynamic_array.h` built with `FEATURE_ESTD_DYNAMIC_ARRAY_MEMMOVE = 1` or with
`FEATURE_ESTD_DYNAMIC_ARRAY_BOUNDS_CHECK = 1` (internal/feature/dynamic_array.h:10-39).  With the second
option, `FEATURE_ESTD_DYNAMIC_ARRAY_APPEND_TRUNC` must be 0 (a build with exceptions): the other branch,
dynamic_array.h:468, names a member `grow_result` does not have and does not compile.
-/
namespace Verif.DynArray

variable {α : Type} [DecidableEq α]

/-- `append_result`, dynamic_array.h:441-445, and `grow_result::increased_by`, 109-122: `expected<size_type,
size_type>`, a count either way. -/
inductive Answer where
  | ok (n : Nat)
  | error (n : Nat)
  deriving DecidableEq, Repr

/-- `insert(pos, first, last)` with `MEMMOVE = 1`, dynamic_array.h:303-322 with the `copy_assist` of 229-238, for
one-byte elements (so that the byte count handed to `memmove` is also the element count). -/
def insertRangeM (c : Cfg α) (a : Arr α) (pos : Nat) (src : List α) : Res (Arr α × Bool) :=
  (size c a).bind fun sz =>
    let inputSz := src.length % c.modulus
    (ensureTotalSize c a (sz + inputSz)).bind fun (a', okc) =>
      if okc = false then .ok (a', false)
      else
        (Res.ofOption (memmove a'.buf (sz + inputSz - (sz - pos)) pos (sz - pos))).bind fun b =>
          (Res.ofOption (writeAll b pos src)).bind fun b' => .ok ({ a' with buf := b' }, true)

/-- The same for elements `esz` bytes wide, on the bytes of a container that has room, dynamic_array.h:303-322
with 229-238: `d_last - sz` and `first` are addresses of elements, but the length handed to `memmove` is the
*element* count.  `src` is the bytes of the `k` elements inserted.  Result: the bytes and the new size. -/
def insertBytesM {β : Type} [DecidableEq β] (bytes : List β) (esz size pos k : Nat) (src : List β) :
    Res (List β × Nat) :=
  if pos ≤ size then
    (Res.ofOption (memmove bytes ((pos + k) * esz) (pos * esz) (size - pos))).bind fun b =>
      (Res.ofOption (writeAll b (pos * esz) src)).bind fun b' => .ok (b', size + k)
  else .ub

/-- `grow(k)` with `BOUNDS_CHECK = 1`, dynamic_array.h:422-439 with 157-179: the new array, the size before, and
whether the growth was granted (with by how much), `size() - starting_size` being a `size_type`. -/
def growC (c : Cfg α) (a : Arr α) (by_ : Nat) : Res (Arr α × Nat × Answer) :=
  (size c a).bind fun st =>
    (ensureTotalCapacity c a (st + by_)).bind fun okc =>
      if okc then (setSize c a (st + by_)).bind fun a' => .ok (a', st, .ok by_)
      else (size c a).bind fun now =>
        let d := (now + c.modulus - st) % c.modulus
        (setSize c a (st + d)).bind fun a' => .ok (a', st, .error d)

/-- `append(buf, len)` with `BOUNDS_CHECK = 1`, dynamic_array.h:457-485: the new array and what the caller is
told. -/
def appendC (c : Cfg α) (a : Arr α) (src : List α) : Res (Arr α × Answer) :=
  (growC c a (src.length % c.modulus)).bind fun (a', st, r) =>
    match r with
    | .error _ => .ok (a', .error 0)
    | .ok _ =>
      (Res.ofOption (writeAll a'.buf st (src.take (src.length % c.modulus)))).bind fun b =>
        .ok ({ a' with buf := b }, .ok (src.length % c.modulus))

/-! ## `memmove` for range insertion -/

theorem copyBackward_memmove (m : List α) (first last d : Nat) (h1 : first ≤ last) (h2 : last ≤ d)
    (h3 : d ≤ m.length) :
    (Algorithm.copyBackward m first last d).map Prod.fst = memmove m (d - (last - first)) first (last - first) := by
  obtain ⟨m', e1, e2, e3⟩ := Algorithm.copy_backward_effect m first last d h1 (by omega) (by omega) h3 (by omega)
  obtain ⟨b', f1, f2, f3⟩ := memmove_effect m (d - (last - first)) first (last - first) (by omega) (by omega)
  rw [e1, f1]
  simp only [Option.map_some, Option.some.injEq]
  apply List.ext_getElem?
  intro j
  rw [e3, f3]
  by_cases hj : d - (last - first) ≤ j ∧ j < d
  · rw [if_pos hj, if_pos (by omega)]; congr 1; omega
  · rw [if_neg hj, if_neg (by omega)]

/-- C106: with one-byte elements (every `char` string), compiling in `memmove` changes nothing: every insertion of
a range that fits gives the same container, the same report, and the sequence the standard asks for. -/
theorem memmove_insert_partial (c : Cfg α) (a : Arr α) (l : List α) (h : Rep c a l) (pos : Nat) (src : List α)
    (hpos : pos ≤ l.length) (hf : l.length + src.length ≤ room c a) (hz : c.nullTerm = true → c.zero ∉ src) :
    insertRangeM c a pos src = insertRange c a pos src ∧
      ∃ a', insertRangeM c a pos src = .ok (a', true) ∧ Holds c a' (l.take pos ++ src ++ l.drop pos) := by
  have hlen : (l.take pos ++ src ++ l.drop pos).length = l.length + src.length := by simp; omega
  obtain ⟨h1, h2, h3⟩ := fits_lt h hf
  have hm : src.length % c.modulus = src.length := Nat.mod_eq_of_lt (by omega)
  have key : insertRangeM c a pos src = insertRange c a pos src := by
    have hc := copyBackward_memmove (resized c a (l.length + src.length)).buf pos l.length (l.length + src.length)
      hpos (by omega) (by simpa using h1)
    unfold insertRangeM insertRange
    rw [h.size_eq]
    simp only [Res.bind_ok, hm]
    rw [ensureTotalSize_ok h hf]
    simp only [Res.bind_ok, Bool.true_eq_false, if_false]
    rw [← hc]
    cases Algorithm.copyBackward (resized c a (l.length + src.length)).buf pos l.length (l.length + src.length) with
    | none => rfl
    | some q => rfl
  obtain ⟨a', e1, e2, _⟩ := insertRange_rep h pos src hpos (by rw [hlen]; exact hf) hz
  exact ⟨key, a', by rw [key]; exact e1, e2.holds⟩

example : insertRangeM exStr ⟨[5, 6, 0, 1, 1], 0⟩ 1 [8, 9] = .ok (⟨[5, 8, 9, 6, 0], 0⟩, true) := by decide
example : Rep exStr ⟨[5, 6, 0, 1, 1], 0⟩ [5, 6] :=
  ⟨by decide, by decide, by intro i hi; match i, hi with | 0, _ => rfl | 1, _ => rfl, by decide, by decide, by decide⟩

/-- The exact effect on wider elements: the new elements are in place, but only `size - pos` *bytes* of the tail
have moved; every other byte of the buffer is as it was. -/
theorem insert_bytes_effect {β : Type} [DecidableEq β] (bytes : List β) (esz size pos k : Nat) (src : List β)
    (he : 0 < esz) (hs : (size + k) * esz ≤ bytes.length) (hp : pos ≤ size) (hk : src.length = k * esz) :
    ∃ b', insertBytesM bytes esz size pos k src = .ok (b', size + k) ∧ b'.length = bytes.length ∧
      ∀ j, b'[j]? = if pos * esz ≤ j ∧ j < (pos + k) * esz then src[j - pos * esz]?
        else if (pos + k) * esz ≤ j ∧ j < (pos + k) * esz + (size - pos) then bytes[j - k * esz]?
        else bytes[j]? := by
  have h1 : size - pos ≤ (size - pos) * esz := Nat.le_mul_of_pos_right _ he
  have h2 : (pos + k) * esz + (size - pos) * esz = (size + k) * esz := by
    rw [← Nat.add_mul]; congr 1; omega
  have h3 : (pos + k) * esz = pos * esz + k * esz := Nat.add_mul _ _ _
  obtain ⟨b1, e1, e2, e3⟩ := memmove_effect bytes ((pos + k) * esz) (pos * esz) (size - pos) (by omega) (by omega)
  obtain ⟨b2, f1, f2, f3⟩ := writeAll_effect b1 (pos * esz) src (by omega)
  refine ⟨b2, by simp [insertBytesM, hp, e1, f1], by omega, ?_⟩
  intro j
  rw [f3, hk, ← h3]
  split
  · rfl
  · rw [e3]
    split
    · congr 1; omega
    · rfl

/-- **Violation.** C106: with `memmove` compiled in, inserting a range before the end of a container whose
elements are two or more bytes wide corrupts it: the last byte of its last element keeps what happened to be in
the buffer, whatever the element that should have moved there.  Whenever those two bytes differ the container no
longer holds the right elements. -/
theorem memmove_insert_wide_wrong {β : Type} [DecidableEq β] (bytes : List β) (esz size pos k : Nat) (src : List β)
    (he : 2 ≤ esz) (hs : (size + k) * esz ≤ bytes.length) (hp : pos < size) (hk0 : 0 < k)
    (hk : src.length = k * esz) :
    ∃ b', insertBytesM bytes esz size pos k src = .ok (b', size + k) ∧
      b'[(size + k) * esz - 1]? = bytes[(size + k) * esz - 1]? ∧
      (bytes[(size + k) * esz - 1]? ≠ bytes[size * esz - 1]? →
        b'[(size + k) * esz - 1]? ≠ bytes[size * esz - 1]?) := by
  obtain ⟨b', e1, _, e3⟩ := insert_bytes_effect bytes esz size pos k src (by omega) hs (by omega) hk
  have h1 : (size - pos) * 2 ≤ (size - pos) * esz := Nat.mul_le_mul_left _ he
  have h2 : (pos + k) * esz + (size - pos) * esz = (size + k) * esz := by
    rw [← Nat.add_mul]; congr 1; omega
  have hkey : b'[(size + k) * esz - 1]? = bytes[(size + k) * esz - 1]? := by
    rw [e3, if_neg (by omega), if_neg (by omega)]
  exact ⟨b', e1, hkey, fun h => by rw [hkey]; exact h⟩

/-- Inserting `0x0909` before two 16-bit elements `0x0101, 0x0202` gives `0x0909, 0x0101` and a stale element. -/
example : insertBytesM [1, 1, 2, 2, 7, 7] 2 2 0 1 [9, 9] = .ok ([9, 9, 1, 1, 7, 7], 3) := by decide
/-- One byte each: right. -/
example : insertBytesM [1, 2, 7] 1 2 0 1 [9] = .ok ([9, 1, 2], 3) := by decide

/-! ## Bounds checks over a fixed buffer -/

/-- **Violation.** C106: over a fixed buffer the check never refuses anything: for every container, whatever is
appended, the checked `append` does exactly what the unchecked one does - including running off the buffer - and
if it returns at all it says that everything was appended. -/
theorem fixed_check_never_refuses (c : Cfg α) (a : Arr α) (src : List α) :
    appendC c a src = (append c a src).bind fun a' => .ok (a', .ok (src.length % c.modulus)) := by
  unfold appendC append growC grow
  cases hs : size c a with
  | ub => rfl
  | abort => rfl
  | ok st =>
    simp only [Res.bind_ok]
    have : ensureTotalCapacity c a (st + src.length % c.modulus) = .abort ∨
        ensureTotalCapacity c a (st + src.length % c.modulus) = .ok true := by
      unfold ensureTotalCapacity reserve
      repeat' split
      all_goals simp
    rcases this with h | h
    · rw [h]; rfl
    · rw [h]
      simp only [Res.bind_ok, if_true]
      cases setSize c a (st + src.length % c.modulus) with
      | ub => rfl
      | abort => rfl
      | ok a' =>
        simp only [Res.bind_ok]
        cases writeAll a'.buf st (src.take (src.length % c.modulus)) <;> rfl

/-- C106: an append that fits is carried out and reported in full. -/
theorem fixed_check_fits_partial (c : Cfg α) (a : Arr α) (l : List α) (h : Rep c a l) (src : List α)
    (hf : l.length + src.length ≤ room c a) (hz : c.nullTerm = true → c.zero ∉ src) :
    ∃ a', appendC c a src = .ok (a', .ok src.length) ∧ Holds c a' (l ++ src) := by
  obtain ⟨h1, h2, h3⟩ := fits_lt h hf
  obtain ⟨a', e1, e2, _⟩ := append_rep h src (by simpa using hf) hz
  refine ⟨a', ?_, e2.holds⟩
  rw [fixed_check_never_refuses, e1, Nat.mod_eq_of_lt (by omega)]
  rfl

/-- **Violation.** C106: with `assert` compiled out, an append that does not fit is not refused: it writes outside
the buffer. -/
theorem fixed_check_overruns (c : Cfg α) (hn : c.nullTerm = false) (ha : c.asserts = false) (a : Arr α)
    (l : List α) (h : Rep c a l) (src : List α) (hne : src ≠ []) (hM : src.length < c.modulus)
    (hover : a.capacity < l.length + src.length) : appendC c a src = .ub := by
  rw [fixed_check_never_refuses, overfull_append_release c hn ha a l h src hne hM hover]
  rfl

example : (⟨256, false, 0, false⟩ : Cfg Nat).asserts = false ∧ (⟨[1, 2, 0], 2⟩ : Arr Nat).capacity < 2 + 2 := by decide
example : appendC ⟨256, false, 0, false⟩ (⟨[1, 2, 0], 2⟩ : Arr Nat) [7, 8] = .ub := by decide
example : appendC ⟨256, false, 0, false⟩ (⟨[1, 2, 0], 2⟩ : Arr Nat) [7] = .ok (⟨[1, 2, 7], 3⟩, .ok 1) := by decide +kernel

end Verif.DynArray
