import Verif.Strings.Model
import Verif.Strings.Spec
import Verif.Algorithm.CopyProps
/-!
# Theorems about string search, prefix/suffix tests, comparison and views (C12–C15)
-/
namespace Verif.Strings
open Verif Spec

theorem Str.Ok.length {s : Str} (h : s.Ok) : s.text.length = s.size := by
  simp only [Str.text, List.length_take, Str.Ok] at *; omega

theorem text_get (s : Str) (i : Nat) : s.text[i]? = if i < s.size then s.mem[i]? else none := by
  simp only [Str.text, List.getElem?_take]

theorem Str.Ok.get {s : Str} (h : s.Ok) {i : Nat} (hi : i < s.size) :
    ∃ c, rd s.mem i = some c ∧ s.text[i]? = some c := by
  have h' : i < s.mem.length := Nat.lt_of_lt_of_le hi h
  exact ⟨s.mem[i], rd_lt h', by simp [text_get, hi, h']⟩

theorem prefix_iff_get {a b : List Int} : a <+: b ↔ ∀ i, i < a.length → b[i]? = a[i]? := by
  constructor
  · rintro ⟨t, rfl⟩ i hi; simp [List.getElem?_append, hi]
  · intro h
    rw [List.prefix_iff_eq_take]
    apply List.ext_getElem?
    intro i
    rw [List.getElem?_take]
    split
    · rw [h i ‹_›]
    · simp; omega

theorem occurs_iff {n hay : List Int} {i : Nat} :
    OccursAt n hay i ↔ i ≤ hay.length ∧ ∀ k, k < n.length → hay[i + k]? = n[k]? := by
  unfold OccursAt; rw [prefix_iff_get]; simp [List.getElem?_drop]

theorem occurs_len {n hay : List Int} {i : Nat} (h : OccursAt n hay i) : i + n.length ≤ hay.length := by
  have := h.2.length_le; have := h.1; simp at *; omega

theorem memEq_eq {n m : List Int} {i : Nat} (h : i + n.length ≤ m.length) :
    memEq n 0 m i n.length = some (decide (∀ k, k < n.length → m[i + k]? = n[k]?)) := by
  unfold memEq
  rw [if_pos ⟨by omega, h⟩]
  congr 1
  rw [decide_eq_decide]
  simp only [List.drop_zero, List.take_length]
  constructor
  · intro e k hk
    have := congrArg (·[k]?) e
    simp only [List.getElem?_take, hk, if_true, List.getElem?_drop] at this
    exact this.symm
  · intro hk
    apply List.ext_getElem?
    intro k
    rw [List.getElem?_take]
    split
    · rw [List.getElem?_drop, hk k ‹_›]
    · simp; omega

/-! ## C12: search -/

/-- The needle does not straddle the end of the text inside the memory behind it (a null-terminated buffer and a
needle without a zero meet this, see `terminated_no_straddle`). -/
def NoStraddle (s : Str) (n : List Int) : Prop :=
  ∀ i, i < s.size → s.size < i + n.length → ∃ k, k < n.length ∧ s.mem[i + k]? ≠ n[k]?

theorem findLoop_spec (s : Str) (n : List Int) (data i : Nat) (hok : s.Ok)
    (hroom : s.size + n.length ≤ s.mem.length + 1) (hns : NoStraddle s n) (hne : n ≠ []) (hd : data ≤ i) (hi : i ≤ s.size) :
    ∃ r, findLoop s n n.length data i = some r ∧
      IsLowest (OccursAt n s.text) i (r.map (data + ·)) := by
  have hn : 0 < n.length := List.length_pos_iff.mpr hne
  induction hk : s.size - i generalizing i with
  | zero =>
    have : i = s.size := by omega
    unfold findLoop; rw [if_pos this]
    refine ⟨none, rfl, ?_⟩
    intro j hj ho
    have := occurs_len ho; have := hok.length; omega
  | succ k ih =>
    unfold findLoop; rw [if_neg (by omega), memEq_eq (by omega)]
    by_cases hm : ∀ k, k < n.length → s.mem[i + k]? = n[k]?
    · rw [decide_eq_true hm]
      refine ⟨_, rfl, ?_⟩
      simp only [Option.map_some, IsLowest]
      refine ⟨by omega, ?_, by intro j h1 h2; omega⟩
      rw [show data + (i - data) = i from by omega, occurs_iff]
      refine ⟨by rw [hok.length]; omega, ?_⟩
      have hfit : i + n.length ≤ s.size := by
        refine Nat.le_of_not_lt fun hlt => ?_
        obtain ⟨k', hk', hne'⟩ := hns i (by omega) hlt
        exact hne' (hm k' hk')
      intro k' hk'
      rw [text_get, if_pos (by omega), hm k' hk']
    · rw [decide_eq_false hm]
      simp only
      have : s.size ≤ s.mem.length := hok
      rw [if_pos (by omega)]
      obtain ⟨r, h1, h2⟩ := ih (i + 1) (by omega) (by omega) (by omega)
      refine ⟨r, h1, ?_⟩
      have hno : ¬ OccursAt n s.text i := by
        intro ho
        have hl := occurs_len ho; rw [hok.length] at hl
        refine hm fun k' hk' => ?_
        have := (occurs_iff.mp ho).2 k' hk'
        rw [text_get, if_pos (by omega)] at this
        exact this
      cases r with
      | none =>
        intro j hj
        by_cases hji : j = i
        · rw [hji]; exact hno
        · exact h2 j (by omega)
      | some r =>
        obtain ⟨a, b, c⟩ := h2
        refine ⟨by omega, b, ?_⟩
        intro j h1 h2
        by_cases hji : j = i
        · rw [hji]; exact hno
        · exact c j (by omega) h2

/-- **C12 (`find(s, pos)`), general form of what the code does.**  For a non-empty needle, a start position within
the string and enough readable memory behind the string, the result is the lowest occurrence at or after
`pos` — but reported *relative to `pos`*: `pos + result` is that occurrence. -/
theorem find_relative (s : Str) (n : List Int) (pos : Nat) (hok : s.Ok) (hne : n ≠ [])
    (hroom : s.size + n.length ≤ s.mem.length + 1) (hns : NoStraddle s n) (hpos : pos ≤ s.size) :
    ∃ r, find s n pos n.length = some r ∧ IsLowest (OccursAt n s.text) pos (r.map (pos + ·)) :=
  findLoop_spec s n pos pos hok hroom hns hne (by omega) hpos

/-- **C12 (`find(s)`) from the start of the string**: the lowest index at which `s` occurs. -/
theorem find_partial (s : Str) (n : List Int) (hok : s.Ok) (hne : n ≠ [])
    (hroom : s.size + n.length ≤ s.mem.length + 1) (hns : NoStraddle s n) :
    ∃ r, find s n 0 n.length = some r ∧ IsLowest (OccursAt n s.text) 0 r := by
  obtain ⟨r, h1, h2⟩ := find_relative s n 0 hok hne hroom hns (by omega)
  refine ⟨r, h1, ?_⟩
  cases r <;> simpa using h2

/-- A string followed by a terminator satisfies the side condition for every needle without a zero. -/
theorem terminated_no_straddle (s : Str) (n : List Int) (hz : s.mem[s.size]? = some 0) (hn : ∀ x ∈ n, x ≠ 0) :
    NoStraddle s n := by
  intro i hi hs
  refine ⟨s.size - i, by omega, ?_⟩
  rw [show i + (s.size - i) = s.size by omega, hz, List.getElem?_eq_getElem (by omega)]
  intro h
  exact hn _ (List.getElem_mem _) (Option.some.inj h).symm

example : find ⟨[104, 101, 108, 108, 111, 0, 0, 0], 5⟩ [108, 111] 0 2 = some (some 3) := by decide +kernel
example : Str.Ok ⟨[104, 101, 108, 108, 111, 0, 0, 0], 5⟩ ∧ NoStraddle ⟨[104, 101, 108, 108, 111, 0, 0, 0], 5⟩ [108, 111] :=
  ⟨by decide, terminated_no_straddle _ _ (by decide) (by decide)⟩

/-- **C12 fails for `pos > 0`**: whenever the needle is found at an index `≥ pos > 0`, the number returned is not
that index. -/
theorem find_pos_wrong (s : Str) (n : List Int) (pos i : Nat) (hok : s.Ok) (hne : n ≠ [])
    (hroom : s.size + n.length ≤ s.mem.length + 1) (hns : NoStraddle s n) (hpos : 0 < pos) (hps : pos ≤ s.size)
    (hi : IsLowest (OccursAt n s.text) pos (some i)) : find s n pos n.length = some (some (i - pos)) ∧ i - pos ≠ i := by
  obtain ⟨r, h1, h2⟩ := find_relative s n pos hok hne hroom hns hps
  obtain ⟨a, b, c⟩ := hi
  cases r with
  | none => exact absurd b (h2 i a)
  | some r =>
    obtain ⟨a', b', c'⟩ := h2
    have : pos + r = i := by
      rcases Nat.lt_trichotomy (pos + r) i with h | h | h
      · exact absurd b' (c _ a' h)
      · exact h
      · exact absurd b (c' _ a h)
    refine ⟨by rw [h1]; simp; omega, by omega⟩

/-- `"hello".find("l", 3)` returns 0, not 3. -/
example : find ⟨[104, 101, 108, 108, 111, 0], 5⟩ [108] 3 1 = some (some 0) := by decide +kernel

/-- **C12 fails for a start position past the end**: every such `find` that does not hit in stale memory is undefined. -/
theorem find_pos_past_end (s : Str) (n : List Int) (pos : Nat) (hpos : s.size < pos) :
    find s n pos n.length ≠ some none := by
  have : ∀ k i, s.mem.length - i = k → s.size < i → findLoop s n n.length pos i ≠ some none := by
    intro k
    induction k using Nat.strongRecOn with
    | ind k ih =>
      intro i hk hi
      unfold findLoop; rw [if_neg (by omega)]
      split
      · simp
      · simp
      · split
        · exact ih _ (by omega) (i + 1) rfl (by omega)
        · simp
  exact this _ pos rfl hpos

/-- **C12 (`find("")` on an empty string)** reports "not found" although the empty needle occurs at 0. -/
theorem find_empty_in_empty (m : List Int) : find ⟨m, 0⟩ [] 0 0 = some none ∧ OccursAt [] (Str.text ⟨m, 0⟩) 0 := by
  constructor
  · unfold find findLoop; simp
  · simp [OccursAt]

theorem rfindLoop_spec (s : Str) (n : List Int) (hok : s.Ok) (hne : n ≠ []) (p : Nat) (hp : p + n.length ≤ s.size + 1) :
    ∃ r, rfindLoop s n n.length p = some r ∧
      match r with
      | none => ∀ i, i < p → ¬ OccursAt n s.text i
      | some i => i < p ∧ OccursAt n s.text i ∧ ∀ j, i < j → j < p → ¬ OccursAt n s.text j := by
  have hn : 0 < n.length := List.length_pos_iff.mpr hne
  have hs : s.size ≤ s.mem.length := hok
  induction p with
  | zero => exact ⟨none, rfl, by intro i hi; omega⟩
  | succ p ih =>
    unfold rfindLoop
    rw [memEq_eq (by omega)]
    have hiff : (∀ k, k < n.length → s.mem[p + k]? = n[k]?) ↔ OccursAt n s.text p := by
      rw [occurs_iff, hok.length]
      constructor
      · intro h
        refine ⟨by omega, fun k hk => ?_⟩
        rw [text_get, if_pos (by omega), h k hk]
      · intro h k hk
        have := h.2 k hk
        rwa [text_get, if_pos (by omega)] at this
    by_cases hm : ∀ k, k < n.length → s.mem[p + k]? = n[k]?
    · rw [decide_eq_true hm]
      exact ⟨some p, rfl, by omega, hiff.mp hm, by intro j h1 h2; omega⟩
    · rw [decide_eq_false hm]
      obtain ⟨r, h1, h2⟩ := ih (by omega)
      refine ⟨r, h1, ?_⟩
      have hno : ¬ OccursAt n s.text p := fun h => hm (hiff.mpr h)
      cases r with
      | none =>
        intro i hi
        by_cases hip : i = p
        · rw [hip]; exact hno
        · exact h2 i (by omega)
      | some i =>
        obtain ⟨a, b, c⟩ := h2
        refine ⟨by omega, b, fun j h1 h2 => ?_⟩
        by_cases hip : j = p
        · rw [hip]; exact hno
        · exact c j h1 (by omega)

/-- **C12 (`rfind`)**: on a non-empty string and for a non-empty needle, `rfind(s, pos)` is the highest occurrence
starting at or before `pos` (anywhere, for `npos`), and it never reads outside the string. -/
theorem rfind_partial (s : Str) (n : List Int) (pos : Option Nat) (hok : s.Ok) (hs : 0 < s.size) (hne : n ≠ []) :
    ∃ r, rfind s n pos n.length = some r ∧ IsHighest (OccursAt n s.text) pos r := by
  have hn : 0 < n.length := List.length_pos_iff.mpr hne
  unfold rfind
  rw [if_neg (by omega)]
  simp only
  generalize hq : clampPos s.size pos = q
  have hqs : q < s.size := by
    subst hq; cases pos
    · simp [clampPos]; omega
    · simp only [clampPos]; split <;> omega
  -- every occurrence allowed by `pos` starts at or before `q`
  have hbound : ∀ i, OccursAt n s.text i → (∀ p, pos = some p → i ≤ p) → i ≤ q := by
    intro i ho hp
    have hl := occurs_len ho; rw [hok.length] at hl
    subst hq; cases pos with
    | none => simp [clampPos]; omega
    | some p =>
      have := hp p rfl
      simp only [clampPos]; split <;> omega
  have hle : ∀ i, i ≤ q → ∀ p, pos = some p → i ≤ p := by
    intro i hi p hp
    subst hp; subst hq
    simp only [clampPos] at hi
    split at hi <;> omega
  have key : ∀ b, b ≤ q + 1 → b + n.length ≤ s.size + 1 →
      (∀ i, OccursAt n s.text i → i ≤ q → i < b) →
      ∃ r, rfindLoop s n n.length b = some r ∧ IsHighest (OccursAt n s.text) pos r := by
    intro b hb hb2 hall
    obtain ⟨r, h1, h2⟩ := rfindLoop_spec s n hok hne b hb2
    refine ⟨r, h1, ?_⟩
    cases r with
    | none => intro i hi ho; exact h2 i (hall i ho (hbound i ho hi)) ho
    | some i =>
      obtain ⟨a, b', c⟩ := h2
      exact ⟨hle i (by omega), b', fun j hj hp ho => c j hj (hall j ho (hbound j ho hp)) ho⟩
  by_cases hc1 : s.size - q < n.length
  · rw [if_pos hc1]
    by_cases hc2 : q < n.length - (s.size - q)
    · rw [if_pos hc2]
      refine ⟨none, rfl, ?_⟩
      intro i hi ho
      have hl := occurs_len ho; rw [hok.length] at hl; omega
    · rw [if_neg hc2]
      apply key
      · omega
      · omega
      · intro i ho hi
        have hl := occurs_len ho; rw [hok.length] at hl; omega
  · rw [if_neg hc1]
    apply key
    · omega
    · omega
    · intro i ho hi; omega

example : rfind ⟨[97, 98, 97, 98, 97], 5⟩ [97, 98] none 2 = some (some 2) := by decide +kernel
example : rfind ⟨[97, 98, 97, 98, 97], 5⟩ [97, 98] (some 1) 2 = some (some 0) := by decide +kernel

/-- **C12 fails for `rfind` on an empty string**: undefined, whatever the needle. -/
theorem rfind_empty_undefined (m n : List Int) (pos : Option Nat) : rfind ⟨m, 0⟩ n pos n.length = none := by
  simp [rfind]

/-- **C12 fails for `rfind("")`**: the highest occurrence of the empty needle is `size()`, the code says `size() - 1`. -/
theorem rfind_empty_needle (s : Str) (hok : s.Ok) (hs : 0 < s.size) :
    rfind s [] none 0 = some (some (s.size - 1)) ∧ IsHighest (OccursAt [] s.text) none (some s.size) := by
  constructor
  · unfold rfind
    rw [if_neg (by omega)]
    simp [rfindLoop, memEq, clampPos]
    have : s.size ≤ s.mem.length := hok
    rw [if_pos (by omega)]
  · refine ⟨by simp, by simp [OccursAt, hok.length], ?_⟩
    intro j hj _ ho
    have := ho.1; rw [hok.length] at this; omega

/-- **C12 (`find(ch, pos)`)**: the lowest index `≥ pos` holding the character, for every start position. -/
theorem find_char_spec (s : Str) (ch : Int) (pos : Nat) (hok : s.Ok) :
    ∃ r, findChar s ch pos = some r ∧ IsLowest (fun i => s.text[i]? = some ch) pos r := by
  induction hk : s.size - pos generalizing pos with
  | zero =>
    unfold findChar; rw [if_neg (by omega)]
    refine ⟨none, rfl, fun i hi => ?_⟩
    show ¬ s.text[i]? = some ch
    rw [text_get, if_neg (by omega)]; simp
  | succ k ih =>
    unfold findChar; rw [if_pos (by omega)]
    obtain ⟨c, h1, h2⟩ := hok.get (i := pos) (by omega)
    rw [h1]; simp only
    split
    · rename_i hc
      exact ⟨_, rfl, by omega, h2.trans (by rw [hc]), by intro j h1 h2; omega⟩
    · rename_i hc
      obtain ⟨r, h3, h4⟩ := ih (pos + 1) (by omega)
      refine ⟨r, h3, ?_⟩
      have hno : ¬ s.text[pos]? = some ch := by rw [h2]; simpa using hc
      cases r with
      | none =>
        intro i hi
        by_cases hip : i = pos
        · rw [hip]; exact hno
        · exact h4 i (by omega)
      | some r =>
        obtain ⟨a, b, c⟩ := h4
        refine ⟨by omega, b, fun j h1 h2 => ?_⟩
        by_cases hip : j = pos
        · rw [hip]; exact hno
        · exact c j (by omega) h2

example : findChar ⟨[104, 101, 108, 108, 111], 5⟩ 108 3 = some (some 3) := by decide +kernel
example : findChar ⟨[104, 101, 108, 108, 111], 5⟩ 104 9 = some none := by decide +kernel

theorem mem_iff_get {set : List Int} {x : Int} :
    x ∈ set ↔ ∃ k y, 0 ≤ k ∧ k < set.length ∧ set[k]? = some y ∧ eqP x y = true := by
  constructor
  · intro h
    obtain ⟨k, hk, e⟩ := List.mem_iff_getElem.mp h
    exact ⟨k, x, by omega, hk, by simp [hk, e], by simp [eqP]⟩
  · rintro ⟨k, y, _, hk, e, h⟩
    simp [eqP] at h; subst h
    exact List.mem_of_getElem? e

/-- **C12 (`find_first_of`)** for start positions within the string. -/
theorem find_first_of_partial (s : Str) (set : List Int) (pos : Nat) (hok : s.Ok) (hpos : pos ≤ s.size) :
    ∃ r, findFirstOf s set pos set.length = some r ∧ IsLowest (OneOfAt set s.text) pos r := by
  obtain ⟨r, h1, h2⟩ := Algorithm.find_first_of_first s.mem set eqP pos s.size 0 set.length hpos hok (by omega) (by omega)
  have hno : ∀ j, pos ≤ j → j < r → ¬ OneOfAt set s.text j := by
    rintro j hj hjr ⟨c, hc, hm⟩
    rw [text_get] at hc
    split at hc
    · exact h2.earlier j c hj hjr hc (mem_iff_get.mp hm)
    · simp at hc
  unfold findFirstOf; rw [h1]
  simp only
  refine ⟨_, rfl, ?_⟩
  have := h2.hi
  have := h2.lo
  split
  · rename_i hr
    rintro j hj ⟨c, hc, hm⟩
    by_cases hjr : j < r
    · exact hno j hj hjr ⟨c, hc, hm⟩
    · rw [text_get, if_neg (by omega)] at hc; simp at hc
  · refine ⟨by omega, ?_, hno⟩
    obtain ⟨x, hx, hp⟩ := h2.here (by omega)
    exact ⟨x, by rw [text_get, if_pos (by omega), hx], mem_iff_get.mpr hp⟩

theorem lastOfLoop_spec (s : Str) (set : List Int) (hok : s.Ok) (p : Nat) (hp : p ≤ s.size) :
    ∃ r, lastOfLoop s set set.length p = some r ∧
      match r with
      | none => ∀ i, i < p → ¬ OneOfAt set s.text i
      | some i => i < p ∧ OneOfAt set s.text i ∧ ∀ j, i < j → j < p → ¬ OneOfAt set s.text j := by
  induction p with
  | zero => exact ⟨none, rfl, by intro i hi; omega⟩
  | succ p ih =>
    obtain ⟨x, hx, hx2⟩ := hok.get (i := p) (by omega)
    obtain ⟨b, hb, hb2⟩ := Algorithm.anyMatch_spec s.mem set eqP p 0 set.length x hx (by omega) (by omega)
    have hiff : b = true ↔ OneOfAt set s.text p := by
      rw [hb2, ← mem_iff_get]
      constructor
      · intro h; exact ⟨x, hx2, h⟩
      · rintro ⟨c, hc, hm⟩; rw [hx2] at hc; cases hc; exact hm
    unfold lastOfLoop; rw [hb]
    cases b with
    | true => exact ⟨some p, rfl, by omega, hiff.mp rfl, by intro j h1 h2; omega⟩
    | false =>
      obtain ⟨r, h1, h2⟩ := ih (by omega)
      refine ⟨r, h1, ?_⟩
      have hno : ¬ OneOfAt set s.text p := fun h => by simpa using hiff.mpr h
      cases r with
      | none =>
        intro i hi
        by_cases hip : i = p
        · rw [hip]; exact hno
        · exact h2 i (by omega)
      | some i =>
        obtain ⟨a, b', c⟩ := h2
        refine ⟨by omega, b', fun j h1 h2 => ?_⟩
        by_cases hip : j = p
        · rw [hip]; exact hno
        · exact c j h1 (by omega)

theorem oneOf_lt {s : Str} {set : List Int} {i : Nat} (h : OneOfAt set s.text i) : i < s.size := by
  obtain ⟨c, hc, _⟩ := h
  rw [text_get] at hc
  split at hc
  · assumption
  · simp at hc

/-- **C12 (`find_last_of`)** for `npos` or a start position inside the string. -/
theorem find_last_of_partial (s : Str) (set : List Int) (pos : Option Nat) (hok : s.Ok)
    (hpos : ∀ p, pos = some p → p < s.size) :
    ∃ r, findLastOf s set pos set.length = some r ∧ IsHighest (OneOfAt set s.text) pos r := by
  have key : ∀ b, b ≤ s.size → (∀ i, i < b → ∀ p, pos = some p → i ≤ p) →
      (∀ i, OneOfAt set s.text i → (∀ p, pos = some p → i ≤ p) → i < b) →
      ∃ r, lastOfLoop s set set.length b = some r ∧ IsHighest (OneOfAt set s.text) pos r := by
    intro b hb hle hall
    obtain ⟨r, h1, h2⟩ := lastOfLoop_spec s set hok b hb
    refine ⟨r, h1, ?_⟩
    cases r with
    | none => intro i hi ho; exact h2 i (hall i ho hi) ho
    | some i =>
      obtain ⟨a, b', c⟩ := h2
      exact ⟨hle i a, b', fun j hj hp ho => c j hj (hall j ho hp) ho⟩
  cases pos with
  | none => exact key s.size (by omega) (by simp) (fun i ho _ => oneOf_lt ho)
  | some p =>
    have := hpos p rfl
    exact key (p + 1) (by omega) (by simp; omega) (fun i _ hp => by have := hp p rfl; omega)

example : findLastOf ⟨[97, 98, 99, 98, 0], 4⟩ [98] none 1 = some (some 3) := by decide +kernel
example : findFirstOf ⟨[97, 98, 99, 98, 0], 4⟩ [99, 98] 0 2 = some (some 1) := by decide +kernel

/-! ## C13: starts_with / ends_with -/

theorem startsWithN_spec (a b : List Int) (i cl cr fuel : Nat) (ha : i + cl ≤ a.length) (hb : i + cr ≤ b.length)
    (hf : cl < fuel) :
    startsWithN a b i cl cr fuel = some (decide (cr < cl ∧ ∀ k, k < cr → a[i + k]? = b[i + k]?)) := by
  induction fuel generalizing i cl cr with
  | zero => omega
  | succ f ih =>
    unfold startsWithN
    cases cl with
    | zero => simp
    | succ cl =>
      cases cr with
      | zero => simp
      | succ cr =>
        have h1 : rd a i = some a[i] := rd_lt (by omega)
        have h2 : rd b i = some b[i] := rd_lt (by omega)
        have e1 : ((cl + 1 : Nat) : Int) ≠ 0 := by omega
        have e2 : ((cr + 1 : Nat) : Int) ≠ 0 := by omega
        simp only [e1, e2, ne_eq, not_false_eq_true, and_self, if_true, h1, h2]
        by_cases hx : a[i] = b[i]
        · rw [if_neg (by simpa using hx)]
          have := ih (i + 1) cl cr (by omega) (by omega) (by omega)
          rw [show ((cl + 1 : Nat) : Int) - 1 = (cl : Int) by omega, show ((cr + 1 : Nat) : Int) - 1 = (cr : Int) by omega, this]
          congr 1
          rw [decide_eq_decide]
          constructor
          · rintro ⟨h3, h4⟩
            refine ⟨by omega, fun k hk => ?_⟩
            cases k with
            | zero => simp [show i < a.length by omega, show i < b.length by omega, hx]
            | succ k => have := h4 k (by omega); rwa [show i + 1 + k = i + (k + 1) by omega] at this
          · rintro ⟨h3, h4⟩
            refine ⟨by omega, fun k hk => ?_⟩
            have := h4 (k + 1) (by omega); rwa [show i + 1 + k = i + (k + 1) by omega]
        · rw [if_pos (by simpa using hx)]
          congr 1
          symm; rw [decide_eq_false_iff_not]
          rintro ⟨_, h4⟩
          have := h4 0 (by omega)
          simp [show i < a.length by omega, show i < b.length by omega] at this
          exact hx this

theorem text_prefix_iff {s t : Str} (hs : s.Ok) (ht : t.Ok) :
    t.text <+: s.text ↔ t.size ≤ s.size ∧ ∀ k, k < t.size → s.mem[k]? = t.mem[k]? := by
  rw [prefix_iff_get, ht.length]
  constructor
  · intro h
    have hle : t.size ≤ s.size := by
      refine Nat.le_of_not_lt fun hlt => ?_
      have := h s.size hlt
      rw [text_get, if_neg (by omega), text_get, if_pos hlt] at this
      have h2 : t.size ≤ t.mem.length := ht
      rw [List.getElem?_eq_getElem (by omega)] at this; simp at this
    refine ⟨hle, fun k hk => ?_⟩
    have := h k hk
    rwa [text_get, if_pos (by omega), text_get, if_pos hk] at this
  · rintro ⟨h1, h2⟩ k hk
    rw [text_get, if_pos (by omega), text_get, if_pos hk, h2 k hk]

/-- **C13 (`starts_with(string)`), what the code decides**: a *strict* prefix. -/
theorem starts_with_strict (s t : Str) (hs : s.Ok) (ht : t.Ok) :
    startsWith s t = some (decide (t.text <+: s.text ∧ t.size < s.size)) := by
  unfold startsWith
  rw [startsWithN_spec s.mem t.mem 0 s.size t.size (s.size + 1) (by have : s.size ≤ _ := hs; omega)
    (by have : t.size ≤ _ := ht; omega) (by omega)]
  congr 1
  rw [decide_eq_decide, text_prefix_iff hs ht]
  simp only [Nat.zero_add]
  constructor
  · rintro ⟨h1, h2⟩; exact ⟨⟨by omega, h2⟩, h1⟩
  · rintro ⟨⟨_, h2⟩, h1⟩; exact ⟨h1, h2⟩

/-- **C13 (`starts_with(string)`)** for arguments of a different length. -/
theorem starts_with_partial (s t : Str) (hs : s.Ok) (ht : t.Ok) (hne : s.size ≠ t.size) :
    startsWith s t = some (decide (t.text <+: s.text)) := by
  rw [starts_with_strict s t hs ht]
  congr 1
  rw [decide_eq_decide]
  constructor
  · exact fun h => h.1
  · intro h
    have := h.length_le; rw [hs.length, ht.length] at this
    exact ⟨h, by omega⟩

/-- **C13 fails**: no string starts with itself. -/
theorem starts_with_self_false (s : Str) (hs : s.Ok) : startsWith s s = some false := by
  rw [starts_with_strict s s hs hs]; simp

example : startsWith ⟨[104, 105, 33], 3⟩ ⟨[104, 105], 2⟩ = some true := by decide +kernel
example : startsWith ⟨[104, 105], 2⟩ ⟨[104, 105], 2⟩ = some false := by decide +kernel

theorem cstr_get {c t : List Int} (h : CString c t) :
    t.length < c.length ∧ c[t.length]? = some 0 ∧ ∀ i, i < t.length → ∃ y, c[i]? = some y ∧ t[i]? = some y ∧ y ≠ 0 := by
  obtain ⟨⟨rest, rfl⟩, hz⟩ := h
  refine ⟨by simp, by simp, fun i hi => ⟨t[i], ?_, by simp [hi], hz _ (List.getElem_mem _)⟩⟩
  rw [List.getElem?_append_left hi, List.getElem?_eq_getElem hi]

/-- `strlen` of a C string. -/
theorem cLength_spec (c t : List Int) (h : CString c t) : cLength c 0 = some t.length := by
  obtain ⟨_, h2, h3⟩ := cstr_get h
  suffices ∀ k i, t.length - i = k → i ≤ t.length → cLength c i = some (t.length - i) by
    simpa using this t.length 0 (by omega) (by omega)
  intro k
  induction k with
  | zero =>
    intro i hi hle
    have : i = t.length := by omega
    subst this
    unfold cLength
    split
    · rename_i h; simp [rd, h2] at h
    · rename_i y h; simp [rd, h2] at h; simp [← h]
  | succ k ih =>
    intro i hi hle
    obtain ⟨y, hy, _, hy0⟩ := h3 i (by omega)
    unfold cLength
    split
    · rename_i h; simp [rd, hy] at h
    · rename_i y' h
      have : y' = y := by simp [rd, hy] at h; exact h.symm
      subst this
      rw [if_pos hy0, ih (i + 1) (by omega) (by omega)]
      simp; omega

theorem startsWithC_spec (a c t : List Int) (hc : CString c t) (i cl fuel : Nat) (hi : i ≤ t.length)
    (ha : i + cl ≤ a.length) (hf : cl < fuel) :
    startsWithC a c i cl fuel = some (decide (t.length ≤ i + cl ∧ ∀ k, k < t.length → i ≤ k → a[k]? = t[k]?)) := by
  obtain ⟨g1, g2, g3⟩ := cstr_get hc
  induction fuel generalizing i cl with
  | zero => omega
  | succ f ih =>
    unfold startsWithC
    by_cases hit : i = t.length
    · subst hit
      have : rd c t.length = some 0 := g2
      rw [this]
      simp only [ne_eq, not_true_eq_false, false_and, if_false]
      congr 1
      rw [decide_eq_decide]
      exact ⟨fun _ => ⟨by omega, fun k h1 h2 => by omega⟩, fun _ => by omega⟩
    · obtain ⟨y, hy, hty, hy0⟩ := g3 i (by omega)
      have : rd c i = some y := hy
      rw [this]
      simp only [ne_eq, hy0, not_false_eq_true, true_and, if_true]
      cases cl with
      | zero =>
        rw [if_neg (by simp)]
        congr 1
        rw [decide_eq_decide]
        exact ⟨fun h => absurd rfl h, fun h => by omega⟩
      | succ cl =>
        rw [if_pos (by omega)]
        have hx : rd a i = some a[i] := rd_lt (by omega)
        rw [hx]
        simp only
        by_cases he : a[i] = y
        · rw [if_neg (by simpa using he), show ((cl + 1 : Nat) : Int) - 1 = (cl : Int) by omega,
            ih (i + 1) cl (by omega) (by omega) (by omega)]
          congr 1
          rw [decide_eq_decide]
          constructor
          · rintro ⟨h1, h2⟩
            refine ⟨by omega, fun k hkt hk => ?_⟩
            by_cases hki : k = i
            · subst hki; rw [hty, List.getElem?_eq_getElem (by omega), he]
            · exact h2 k hkt (by omega)
          · rintro ⟨h1, h2⟩
            exact ⟨by omega, fun k hkt hk => h2 k hkt (by omega)⟩
        · rw [if_pos (by simpa using he)]
          congr 1
          symm; rw [decide_eq_false_iff_not]
          rintro ⟨_, h2⟩
          have := h2 i (by omega) (by omega)
          rw [hty, List.getElem?_eq_getElem (by omega)] at this
          exact he (Option.some.inj this)

/-- **C13 (`starts_with(const char*)`)**: exactly the prefix relation, for every string and every C string,
including equal and empty ones. -/
theorem starts_with_cstr (s : Str) (c t : List Int) (hs : s.Ok) (hc : CString c t) :
    startsWithCStr s c = some (decide (t <+: s.text)) := by
  unfold startsWithCStr
  have h1 : s.size ≤ s.mem.length := hs
  rw [startsWithC_spec s.mem c t hc 0 s.size (s.size + 1) (by omega) (by omega) (by omega)]
  congr 1
  rw [decide_eq_decide, prefix_iff_get]
  constructor
  · rintro ⟨h1, h2⟩ i hi
    rw [text_get, if_pos (by omega)]; exact h2 i hi (by omega)
  · intro h
    have hle : t.length ≤ s.size := by
      refine Nat.le_of_not_lt fun hlt => ?_
      have := h s.size hlt
      rw [text_get, if_neg (by omega), List.getElem?_eq_getElem hlt] at this
      simp at this
    refine ⟨by omega, fun k hk _ => ?_⟩
    have := h k hk
    rwa [text_get, if_pos (by omega)] at this

example : CString [104, 105, 0] [104, 105] := ⟨⟨[], rfl⟩, by decide⟩
example : startsWithCStr ⟨[104, 105], 2⟩ [104, 105, 0] = some true := by decide +kernel

/-- **C13 (`starts_with` on two C strings)**. -/
theorem starts_with_cc (a ta c t : List Int) (ha : CString a ta) (hc : CString c t) :
    startsWithCC a c 0 = some (decide (t <+: ta)) := by
  obtain ⟨g1, g2, g3⟩ := cstr_get hc
  obtain ⟨f1, f2, f3⟩ := cstr_get ha
  rw [show decide (t <+: ta) = decide (∀ k, k < t.length → 0 ≤ k → ta[k]? = t[k]?) by
    rw [decide_eq_decide, prefix_iff_get]; simp]
  suffices ∀ n i, t.length - i = n → i ≤ t.length → i ≤ ta.length →
      startsWithCC a c i = some (decide (∀ k, k < t.length → i ≤ k → ta[k]? = t[k]?)) from
    this t.length 0 (by omega) (by omega) (by omega)
  intro n
  induction n with
  | zero =>
    intro i hi h1 h2
    have : i = t.length := by omega
    subst this
    have hr : rd c t.length = some 0 := g2
    unfold startsWithCC
    split
    · rename_i h; rw [hr] at h; simp at h
    · rename_i y h; rw [hr] at h; cases h
      simp; intro k h1 h2; omega
  | succ n ih =>
    intro i hi h1 h2
    obtain ⟨y, hy, hty, hy0⟩ := g3 i (by omega)
    have hr : rd c i = some y := hy
    unfold startsWithCC
    split
    · rename_i h; rw [hr] at h; simp at h
    · rename_i y' h; rw [hr] at h; cases h
      rw [if_neg hy0]
      by_cases hita : i = ta.length
      · subst hita
        have : rd a ta.length = some 0 := f2
        rw [this]
        simp only
        rw [if_pos (by simpa using fun h => hy0 h.symm)]
        congr 1
        symm; rw [decide_eq_false_iff_not]
        intro h
        have := h ta.length (by omega) (by omega)
        rw [hty] at this; simp at this
      · obtain ⟨x, hx, htx, _⟩ := f3 i (by omega)
        have : rd a i = some x := hx
        rw [this]
        simp only
        by_cases he : x = y
        · rw [if_neg (by simpa using he), ih (i + 1) (by omega) (by omega) (by omega)]
          congr 1
          rw [decide_eq_decide]
          constructor
          · intro h k hkt hk
            by_cases hki : k = i
            · subst hki; rw [hty, htx, he]
            · exact h k hkt (by omega)
          · intro h k hkt hk; exact h k hkt (by omega)
        · rw [if_pos (by simpa using he)]
          congr 1
          symm; rw [decide_eq_false_iff_not]
          intro h
          have := h i (by omega) (by omega)
          rw [hty, htx] at this
          exact he (Option.some.inj this)

theorem endsLoop_spec (a b : List Int) (i j e : Nat) (hie : i ≤ e) (ha : e ≤ a.length) (hb : j + (e - i) ≤ b.length) :
    endsLoop a b i j e = some (decide (∀ k, k < e - i → a[i + k]? = b[j + k]?)) := by
  induction hn : e - i generalizing i j with
  | zero =>
    unfold endsLoop; rw [dif_neg (by omega)]; simp
  | succ n ih =>
    unfold endsLoop; rw [dif_pos (by omega), rd_lt (by omega : i < a.length), rd_lt (by omega : j < b.length)]
    simp only
    by_cases he : a[i] = b[j]
    · rw [if_neg (by simpa using he), ih (i + 1) (j + 1) (by omega) (by omega) (by omega)]
      congr 1
      rw [decide_eq_decide]
      constructor
      · intro h k hk
        cases k with
        | zero => simp [show i < a.length by omega, show j < b.length by omega, he]
        | succ k => have := h k (by omega); rwa [show i + 1 + k = i + (k + 1) by omega, show j + 1 + k = j + (k + 1) by omega] at this
      · intro h k hk
        have := h (k + 1) (by omega); rwa [show i + 1 + k = i + (k + 1) by omega, show j + 1 + k = j + (k + 1) by omega]
    · rw [if_pos (by simpa using he)]
      congr 1
      symm; rw [decide_eq_false_iff_not]
      intro h
      have := h 0 (by omega)
      simp [show i < a.length by omega, show j < b.length by omega] at this
      exact he this

/-- **C13 (`ends_with(string)`)**: exactly the suffix relation, including equal and empty strings. -/
theorem ends_with_spec (s t : Str) (hs : s.Ok) (ht : t.Ok) : endsWith s t = some (decide (t.text <:+ s.text)) := by
  unfold endsWith
  have h1 : s.size ≤ s.mem.length := hs
  have h2 : t.size ≤ t.mem.length := ht
  split
  · congr 1; symm; rw [decide_eq_false_iff_not]
    intro h; have := h.length_le; rw [hs.length, ht.length] at this; omega
  · rw [endsLoop_spec _ _ _ _ _ (by omega) (by omega) (by omega)]
    congr 1
    rw [decide_eq_decide, List.suffix_iff_eq_drop, hs.length, ht.length]
    constructor
    · intro h
      apply List.ext_getElem?
      intro k
      rw [List.getElem?_drop]
      by_cases hk : k < t.size
      · have := h k (by omega)
        rw [text_get, if_pos hk, text_get, if_pos (by omega), this, Nat.zero_add]
      · rw [text_get, if_neg hk, text_get, if_neg (by omega)]
    · intro h k hk
      have e := congrArg (·[k]?) h
      simp only [List.getElem?_drop] at e
      rw [text_get, if_pos (by omega), text_get, if_pos (by omega)] at e
      rw [Nat.zero_add, e]

/-- **C13 (`ends_with(const char*)`)**. -/
theorem ends_with_cstr (s : Str) (c t : List Int) (hs : s.Ok) (hc : CString c t) :
    endsWithCStr s c = some (decide (t <:+ s.text)) := by
  unfold endsWithCStr
  rw [cLength_spec c t hc]
  simp only
  have hok : Str.Ok ⟨c, t.length⟩ := Nat.le_of_lt (cstr_get hc).1
  rw [ends_with_spec s _ hs hok]
  obtain ⟨⟨rest, rfl⟩, _⟩ := hc
  have : Str.text ⟨t ++ 0 :: rest, t.length⟩ = t := by simp [Str.text]
  congr 1
  rw [decide_eq_decide, this]

example : endsWith ⟨[104, 105, 33], 3⟩ ⟨[105, 33], 2⟩ = some true := by decide +kernel
example : endsWith ⟨[], 0⟩ ⟨[], 0⟩ = some true := by decide +kernel

/-- **C13 (single characters)** for non-empty strings. -/
theorem starts_ends_with_char_partial (s : Str) (ch : Int) (hs : s.Ok) (h0 : 0 < s.size) :
    startsWithChar s ch = some (decide (s.text.head? = some ch)) ∧
    endsWithChar s ch = some (decide (s.text.getLast? = some ch)) := by
  have h1 : s.size ≤ s.mem.length := hs
  constructor
  · unfold startsWithChar
    rw [rd_lt (by omega : 0 < s.mem.length)]
    rw [List.head?_eq_getElem?, text_get, if_pos h0, List.getElem?_eq_getElem (by omega : 0 < s.mem.length)]
    simp
  · unfold endsWithChar
    rw [if_neg (by omega), rd_lt (by omega : s.size - 1 < s.mem.length)]
    rw [List.getLast?_eq_getElem?, hs.length, text_get, if_pos (by omega), List.getElem?_eq_getElem (by omega : s.size - 1 < s.mem.length)]
    simp

/-- **C13 fails for single characters on an empty string**: `starts_with(ch)` answers from the stale first cell and
`ends_with(ch)` is undefined. -/
theorem char_tests_on_empty (c : Int) (m : List Int) :
    startsWithChar ⟨c :: m, 0⟩ c = some true ∧ endsWithChar ⟨c :: m, 0⟩ c = none ∧ Str.text ⟨c :: m, 0⟩ = [] := by
  simp [startsWithChar, endsWithChar, rd, Str.text]

/-! ## C14: equality and compare -/

/-- **C14 (`operator==`)** holds exactly for equal contents. -/
theorem eq_spec (s t : Str) (hs : s.Ok) (ht : t.Ok) : eqStr s t = some (decide (s.text = t.text)) := by
  unfold eqStr
  have h1 : s.size ≤ s.mem.length := hs
  have h2 : t.size ≤ t.mem.length := ht
  split
  · rename_i hne
    congr 1; symm; rw [decide_eq_false_iff_not]
    intro h; have := congrArg List.length h; rw [hs.length, ht.length] at this; exact hne this
  · rename_i he
    have he : s.size = t.size := by simpa using he
    obtain ⟨b, hb, hb2⟩ := Algorithm.equal_iff eqP s.mem t.mem 0 s.size 0 (by omega) (by omega) (by omega)
    rw [hb]; congr 1
    rw [Bool.eq_iff_iff, hb2, decide_eq_true_iff]
    constructor
    · intro h
      apply List.ext_getElem?
      intro k
      rw [text_get, text_get, ← he]
      split
      · have := h k s.mem[k] t.mem[k] (by omega) (by simp) (by simp)
        simp only [eqP, decide_eq_true_iff] at this
        rw [List.getElem?_eq_getElem (by omega), List.getElem?_eq_getElem (by omega), this]
      · rfl
    · intro h k x y hk hx hy
      have e := congrArg (·[k]?) h
      simp only [text_get] at e
      rw [if_pos (by omega), if_pos (by omega)] at e
      simp only [Nat.zero_add] at hx hy
      rw [hx, hy] at e
      simp [eqP]; exact Option.some.inj e

theorem lexLt_irrefl (a : List Int) : lexLt a a = false := by
  induction a with
  | nil => rfl
  | cons x xs ih => simp [lexLt, ih]

theorem lexSign_cons (x : Int) (as bs : List Int) : lexSign (x :: as) (x :: bs) = lexSign as bs := by
  simp [lexSign, lexLt]

theorem traitsCompare_spec (a b : List Int) (i c : Nat) (ha : i + c ≤ a.length) (hb : i + c ≤ b.length) :
    traitsCompare a b i c = some (lexSign ((a.drop i).take c) ((b.drop i).take c)) := by
  induction c generalizing i with
  | zero => simp [traitsCompare, lexSign, lexLt]
  | succ c ih =>
    unfold traitsCompare
    rw [rd_lt (by omega : i < a.length), rd_lt (by omega : i < b.length)]
    simp only
    rw [List.drop_eq_getElem_cons (by omega : i < a.length), List.drop_eq_getElem_cons (by omega : i < b.length)]
    simp only [List.take_succ_cons]
    rcases Int.lt_trichotomy a[i] b[i] with h | h | h
    · rw [if_pos h]; simp [lexSign, lexLt, h]
    · rw [if_neg (by omega), if_neg (by omega), h, lexSign_cons, ih (i + 1) (by omega) (by omega)]
    · rw [if_neg (by omega), if_pos h]
      have : ¬ a[i] < b[i] := by omega
      simp [lexSign, lexLt, h, this]

/-- **C14, what `compare` decides**: shorter strings first, dictionary order among strings of equal length. -/
theorem compare_shortlex (s t : Str) (hs : s.Ok) (ht : t.Ok) : compare s t = some (shortLex s.text t.text) := by
  unfold compare shortLex
  have h1 : s.size ≤ s.mem.length := hs
  have h2 : t.size ≤ t.mem.length := ht
  rw [hs.length, ht.length]
  split
  · rfl
  · split
    · rfl
    · have : s.size = t.size := by omega
      rw [traitsCompare_spec _ _ _ _ (by omega) (by omega)]
      simp [Str.text, this]

theorem lex_total (a b : List Int) : lexLt a b = true ∨ a = b ∨ lexLt b a = true := by
  induction a generalizing b with
  | nil => cases b <;> simp [lexLt]
  | cons x xs ih =>
    cases b with
    | nil => simp [lexLt]
    | cons y ys =>
      rcases Int.lt_trichotomy x y with h | h | h
      · simp [lexLt, h]
      · subst h
        rcases ih ys with h | h | h
        · simp [lexLt, h]
        · simp [h]
        · simp [lexLt, h]
      · simp [lexLt, h, show ¬ x < y by omega]

theorem lex_trans (a b c : List Int) (h1 : lexLt a b = true) (h2 : lexLt b c = true) : lexLt a c = true := by
  induction a generalizing b c with
  | nil =>
    cases b with
    | nil => simp [lexLt] at h1
    | cons y ys => cases c with
      | nil => simp [lexLt] at h2
      | cons => rfl
  | cons x xs ih =>
    cases b with
    | nil => simp [lexLt] at h1
    | cons y ys =>
      cases c with
      | nil => simp [lexLt] at h2
      | cons z zs =>
        simp only [lexLt] at h1 h2 ⊢
        split at h1
        · split at h2
          · rw [if_pos (by omega)]
          · split at h2
            · simp at h2
            · rw [if_pos (by omega)]
        · split at h1
          · simp at h1
          · split at h2
            · rw [if_pos (by omega)]
            · split at h2
              · simp at h2
              · rw [if_neg (by omega), if_neg (by omega)]; exact ih _ _ h1 h2

theorem lex_asymm {a b : List Int} (h : lexLt a b = true) : lexLt b a = false := by
  cases hb : lexLt b a with
  | false => rfl
  | true => have := lex_trans a b a h hb; simp [lexLt_irrefl] at this

theorem lexSign_eq_zero {a b : List Int} : lexSign a b = 0 ↔ a = b := by
  unfold lexSign
  constructor
  · intro h
    rcases lex_total a b with h' | h' | h'
    · simp [h'] at h
    · exact h'
    · simp [h', lex_asymm h'] at h
  · rintro rfl; simp [lexLt_irrefl]

theorem shortLex_neg_iff {a b : List Int} :
    shortLex a b < 0 ↔ a.length < b.length ∨ (a.length = b.length ∧ lexLt a b = true) := by
  unfold shortLex lexSign
  repeat' split
  all_goals (first | omega | (simp_all <;> omega))

theorem shortLex_pos_iff {a b : List Int} :
    0 < shortLex a b ↔ b.length < a.length ∨ (b.length = a.length ∧ lexLt b a = true) := by
  have := @lex_asymm a b
  unfold shortLex lexSign
  repeat' split
  all_goals (first | omega | (simp_all <;> omega))

theorem shortLex_zero_iff {a b : List Int} : shortLex a b = 0 ↔ a = b := by
  constructor
  · intro h
    unfold shortLex at h
    split at h
    · omega
    · split at h
      · omega
      · exact lexSign_eq_zero.mp h
  · rintro rfl; unfold shortLex; simp [lexSign_eq_zero]

/-- **C14**: `compare` is zero exactly for equal contents. -/
theorem compare_eq_zero (s t : Str) (hs : s.Ok) (ht : t.Ok) : compare s t = some 0 ↔ s.text = t.text := by
  rw [compare_shortlex s t hs ht]; simp [shortLex_zero_iff]

/-- **C14**: `compare` orders all strings totally: exchanging the arguments flips the sign, and "less" composes. -/
theorem compare_total_order (s t u : Str) (hs : s.Ok) (ht : t.Ok) (hu : u.Ok) :
    ∃ a b c d, compare s t = some a ∧ compare t s = some b ∧ compare t u = some c ∧ compare s u = some d ∧
      (a < 0 ↔ 0 < b) ∧ (a = 0 ↔ b = 0) ∧ (a < 0 → c < 0 → d < 0) := by
  refine ⟨_, _, _, _, compare_shortlex s t hs ht, compare_shortlex t s ht hs, compare_shortlex t u ht hu,
    compare_shortlex s u hs hu, ?_, ?_, ?_⟩
  · rw [shortLex_neg_iff, shortLex_pos_iff]
  · rw [shortLex_zero_iff, shortLex_zero_iff]; exact eq_comm
  · rw [shortLex_neg_iff, shortLex_neg_iff, shortLex_neg_iff]
    rintro (h1 | ⟨h1, h1'⟩) (h2 | ⟨h2, h2'⟩)
    · left; omega
    · left; omega
    · left; omega
    · right; exact ⟨by omega, lex_trans _ _ _ h1' h2'⟩

/-- **C14 (lexicographic sign)** for strings of equal length. -/
theorem compare_lex_partial (s t : Str) (hs : s.Ok) (ht : t.Ok) (hlen : s.size = t.size) :
    compare s t = some (lexSign s.text t.text) := by
  rw [compare_shortlex s t hs ht, shortLex, hs.length, ht.length, if_neg (by omega), if_neg (by omega)]

/-- **C14**: exactly when `compare` gives the lexicographic sign: the shorter of the two strings comes first in dictionary
order. -/
theorem compare_lex_iff (s t : Str) (hs : s.Ok) (ht : t.Ok) :
    compare s t = some (lexSign s.text t.text) ↔
      (s.size < t.size → lexLt s.text t.text = true) ∧ (t.size < s.size → lexLt t.text s.text = true) := by
  rw [compare_shortlex s t hs ht, shortLex, hs.length, ht.length]
  have h1 := @lex_asymm t.text s.text
  unfold lexSign
  by_cases ha : s.size < t.size
  · have : ¬ t.size < s.size := by omega
    cases h2 : lexLt s.text t.text <;> cases h3 : lexLt t.text s.text <;> simp_all
  · by_cases hb : t.size < s.size
    · rw [if_neg ha, if_pos hb]
      cases h2 : lexLt s.text t.text <;> cases h3 : lexLt t.text s.text <;> simp_all
    · simp [ha, hb]

/-- **C14 fails**: **Violation.** whenever the shorter string comes later in dictionary order, `compare` has the wrong sign. -/
theorem compare_not_lex (s t : Str) (hs : s.Ok) (ht : t.Ok) (hlen : s.size < t.size) (hlex : lexLt t.text s.text = true) :
    compare s t = some (-1) ∧ compare t s = some 1 ∧ lexSign s.text t.text = 1 ∧ lexSign t.text s.text = -1 := by
  have h := lex_asymm hlex
  rw [compare_shortlex s t hs ht, compare_shortlex t s ht hs, shortLex, shortLex, hs.length, ht.length, if_pos hlen,
    if_neg (by omega), if_pos hlen]
  simp [lexSign, h, hlex]

/-- `"b"` and `"aa"` -/
example : ∃ s t : Str, s.Ok ∧ t.Ok ∧ s.size < t.size ∧ lexLt t.text s.text = true :=
  ⟨⟨[98], 1⟩, ⟨[97, 97], 2⟩, by decide, by decide, by decide, by decide +kernel⟩

/-- **C14 (`compare(const char*)`, `== const char*`)**. -/
theorem compare_cstr (s : Str) (c t : List Int) (hs : s.Ok) (hc : CString c t) :
    compareC s c = some (shortLex s.text t) ∧ (compareC s c = some 0 ↔ s.text = t) := by
  have hok : Str.Ok ⟨c, t.length⟩ := Nat.le_of_lt (cstr_get hc).1
  have : compareC s c = some (shortLex s.text t) := by
    unfold compareC
    rw [cLength_spec c t hc]
    simp only
    rw [compare_shortlex s _ hs hok]
    obtain ⟨⟨rest, rfl⟩, _⟩ := hc
    simp [Str.text]
  refine ⟨this, ?_⟩
  rw [this]; simp [shortLex_zero_iff]

example : compare ⟨[97, 99], 2⟩ ⟨[97, 98], 2⟩ = some 1 := by decide +kernel
example : eqStr ⟨[97, 99, 0], 2⟩ ⟨[97, 99], 2⟩ = some true := by decide +kernel

/-- `copy(dest, count, pos)` writes exactly `min(count, size() - pos)` characters of the string. -/
theorem copy_out_spec (s : Str) (dest : List Int) (count pos : Nat) (hs : s.Ok) (hpos : pos ≤ s.size)
    (hd : min count (s.size - pos) ≤ dest.length) :
    copyOut s dest count pos =
      some ((s.text.drop pos).take count ++ dest.drop (min count (s.size - pos)), min count (s.size - pos)) := by
  unfold copyOut
  have h1 : s.size ≤ s.mem.length := hs
  rw [if_neg (by omega)]
  have e : (if pos + count > s.size then s.size - pos else count) = min count (s.size - pos) := by
    split <;> omega
  simp only [e]
  rw [if_pos (by omega)]
  congr 3
  simp only [Str.text, List.drop_take, List.take_take]

/-- Copying from a position past the end with a clamped count is undefined. -/
theorem copy_out_past_end (s : Str) (dest : List Int) (count pos : Nat) (hpos : s.size < pos) (hc : 0 < count) :
    copyOut s dest count pos = none := by
  unfold copyOut; rw [if_pos (by omega)]

example : copyOut ⟨[104, 105, 33, 0], 3⟩ [0, 0, 0, 0] 9 1 = some ([105, 33, 0, 0], 2) := by decide +kernel

/-! ## C15: views -/

/-- The elements a view denotes inside the object `m`. -/
def View.elems (v : View) (m : List Int) : List Int := (m.drop v.off).take v.len

/-- `w` lies inside `v`. -/
def View.Inside (w v : View) : Prop := v.off ≤ w.off ∧ w.off + w.len ≤ v.off + v.len

theorem usub_le {W a b : Nat} (h : b ≤ a) (ha : a < W) : usub W a b = a - b := by
  unfold usub
  rw [Nat.mod_eq_of_lt (by omega : b < W), show a + (W - b) = (a - b) + W by omega, Nat.add_mod_right,
    Nat.mod_eq_of_lt (by omega)]

theorem usub_gt {W a b : Nat} (h : a < b) (hb : b < W) : usub W a b = W - (b - a) := by
  unfold usub
  rw [Nat.mod_eq_of_lt hb, show a + (W - b) = W - (b - a) by omega, Nat.mod_eq_of_lt (by omega)]

/-- **C15 (`remove_prefix`, `remove_suffix`)** for `n <= size()`: the view without its first / last `n` elements. -/
theorem remove_partial (W : Nat) (v : View) (n : Nat) (m : List Int) (hW : v.len < W) (hn : n ≤ v.len)
    (hm : v.off + v.len ≤ m.length) :
    (removePrefix W v n).elems m = (v.elems m).drop n ∧ (removePrefix W v n).Inside v ∧
    (removeSuffix W v n).elems m = (v.elems m).take (v.len - n) ∧ (removeSuffix W v n).Inside v := by
  unfold removePrefix removeSuffix View.elems View.Inside
  simp only [usub_le hn hW]
  refine ⟨?_, by omega, ?_, by omega⟩
  · rw [List.drop_take, List.drop_drop]
  · rw [List.take_take]; congr 1; omega

/-- **C15 fails for `n > size()`**: the length wraps and the view no longer lies inside the original one. -/
theorem remove_overrun (W : Nat) (v : View) (n : Nat) (hn : v.len < n) (hnW : n < W) :
    ¬ (removePrefix W v n).Inside v ∧ ((removeSuffix W v n).len = W - (n - v.len)) := by
  unfold removePrefix removeSuffix View.Inside
  simp only [usub_gt hn hnW]
  exact ⟨by omega, trivial⟩

/-- **C15 (`substr`)** for `pos <= size()` and a count that fits (or `npos`): exactly the documented range. -/
theorem substr_partial (W : Nat) (v : View) (pos : Nat) (count : Option Nat) (m : List Int) (hW : v.len < W)
    (hp : pos ≤ v.len) (hc : ∀ n, count = some n → pos + n ≤ v.len) (hm : v.off + v.len ≤ m.length) :
    (substr W v pos count).elems m = ((v.elems m).drop pos).take (count.getD v.len) ∧
    (substr W v pos count).Inside v := by
  cases count with
  | none =>
    have := remove_partial W v pos m hW hp hm
    refine ⟨?_, this.2.1⟩
    have e : substr W v pos none = removePrefix W v pos := rfl
    rw [e, this.1]
    simp only [Option.getD_none]
    rw [List.take_of_length_le]
    simp [View.elems]; omega
  | some n =>
    have := hc n rfl
    unfold substr removePrefix View.elems View.Inside
    simp only [Option.getD_some]
    refine ⟨?_, by omega, by omega⟩
    rw [List.drop_take, List.drop_drop, List.take_take]
    congr 1; omega

/-- **C15 fails for a count that does not fit**: instead of being clamped, every such `substr` ends past the end of the
original view. -/
theorem substr_overrun (W : Nat) (v : View) (pos n : Nat) (h : v.len < pos + n) :
    ¬ (substr W v pos (some n)).Inside v := by
  unfold substr removePrefix View.Inside; simp only; omega

/-- **C15 (`subspan`, `first`)** with an explicit count that fits. -/
theorem subspan_partial (v : View) (pos n : Nat) (m : List Int) (h : pos + n ≤ v.len) :
    (subspan v pos (some n)).elems m = ((v.elems m).drop pos).take n ∧ (subspan v pos (some n)).Inside v ∧
    (first v n).elems m = (v.elems m).take n ∧ (first v n).Inside v := by
  unfold subspan first View.elems View.Inside
  simp only
  refine ⟨?_, by omega, ?_, by omega⟩
  · rw [List.drop_take, List.drop_drop, List.take_take]; congr 1; omega
  · rw [List.take_take]; congr 1; omega

/-- **C15 fails for `subspan(offset)`**: with the default count every non-zero offset gives a span reaching `offset`
elements past the end of the original. -/
theorem subspan_default_overrun (v : View) (pos : Nat) (h : 0 < pos) :
    ¬ (subspan v pos none).Inside v ∧ (subspan v pos none).off + (subspan v pos none).len = v.off + v.len + pos := by
  unfold subspan View.Inside; simp only; omega

example : (substr (2 ^ 64) ⟨1, 4⟩ 1 (some 2)).elems [9, 1, 2, 3, 4, 9] = [2, 3] := by decide +kernel
example : (removeSuffix (2 ^ 64) ⟨1, 4⟩ 1).elems [9, 1, 2, 3, 4, 9] = [1, 2, 3] := by decide +kernel

end Verif.Strings
