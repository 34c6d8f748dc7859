import Verif.Strings.Props
/-!
# Where the string searches depart from C12

Each departure for every string it concerns.  What is searched in these cases is the memory behind the string.
-/
namespace Verif.Strings
open Verif Spec

theorem findLoop_none (s : Str) (n : List Int) (data i : Nat) (hi : i < s.size) (hn : 2 ≤ n.length)
    (hroom : s.mem.length + 1 < s.size + n.length) (hno : ∀ r, ¬ OccursAt n s.mem r) :
    findLoop s n n.length data i = none := by
  induction hk : s.mem.length - i generalizing i with
  | zero =>
    unfold findLoop
    rw [if_neg (by omega)]
    unfold memEq
    rw [if_neg (by omega)]
  | succ k ih =>
    unfold findLoop
    rw [if_neg (by omega)]
    by_cases hr : i + n.length ≤ s.mem.length
    · rw [memEq_eq hr, decide_eq_false (fun h => hno i (occurs_iff.2 ⟨by omega, h⟩))]
      simp only
      rw [if_pos (by omega)]
      exact ih (i + 1) (by omega) (by omega)
    · unfold memEq
      rw [if_neg (by omega)]

/-- C12: **Violation.** A string that is not followed by enough memory (a view of exactly its characters, say) cannot be
searched for two or more characters it does not contain: `find` reads past the end of the memory, whatever the string and
the needle. -/
theorem find_reads_past_end (s : Str) (n : List Int) (hs : s.size ≠ 0) (hn : 2 ≤ n.length)
    (hroom : s.mem.length + 1 < s.size + n.length) (hno : ∀ r, ¬ OccursAt n s.mem r) :
    find s n 0 n.length = none :=
  findLoop_none s n 0 0 (by omega) hn hroom hno

example : find ⟨[97, 98, 99], 3⟩ [120, 120] 0 2 = none ∧ ∀ r, ¬ OccursAt [120, 120] [97, 98, 99] r := by
  refine ⟨by decide +kernel, fun r h => ?_⟩
  have := occurs_len h
  obtain ⟨-, h⟩ := occurs_iff.1 h
  have h0 := h 0 (by decide)
  rcases r with _ | _ | r <;> simp at this h0

/-- C12: **Violation.** `find` takes what is left in memory behind the string for part of it: a needle that begins inside
the string and ends behind it is reported found, although the string does not contain it there, for every string, needle
and content of the memory. -/
theorem find_matches_stale (s : Str) (n : List Int) (r : Nat) (hok : s.Ok) (hr : r < s.size)
    (hover : s.size < r + n.length) (hocc : IsLowest (OccursAt n s.mem) 0 (some r)) :
    find s n 0 n.length = some (some r) ∧ ¬ OccursAt n s.text r := by
  obtain ⟨-, ho, hlow⟩ := hocc
  have hlen := occurs_len ho
  refine ⟨?_, fun h => ?_⟩
  · have key : ∀ i, i ≤ r → findLoop s n n.length 0 i = some (some r) := by
      intro i hi
      induction hk : r - i generalizing i with
      | zero =>
        have : i = r := by omega
        subst this
        unfold findLoop
        rw [if_neg (by omega), memEq_eq hlen, decide_eq_true (occurs_iff.1 ho).2]
        rfl
      | succ k ih =>
        unfold findLoop
        rw [if_neg (by omega), memEq_eq (by omega),
          decide_eq_false (fun h => hlow i (by omega) (by omega) (occurs_iff.2 ⟨by omega, h⟩))]
        simp only
        rw [if_pos (by omega)]
        exact ih (i + 1) (by omega) (by omega)
    exact key 0 (by omega)
  · have := occurs_len h
    rw [hok.length] at this
    omega

example : find ⟨[97, 98, 99, 0], 2⟩ [98, 99] 0 2 = some (some 1) ∧
    IsLowest (OccursAt [98, 99] [97, 98, 99, 0]) 0 (some 1) := by
  refine ⟨by decide +kernel, by omega, ⟨by simp, by simp⟩, ?_⟩
  intro j _ hj h
  have : j = 0 := by omega
  subst this
  simp [OccursAt] at h

theorem find_first_past (s : Str) (set : List Int) (hset : set ≠ []) (i : Nat) (hi : s.size < i) :
    match Algorithm.findFirstOf s.mem set eqP i s.size 0 set.length with
    | none => ∀ j, i ≤ j → ¬ OneOfAt set s.mem j
    | some r => i ≤ r ∧ OneOfAt set s.mem r ∧ ∀ j, i ≤ j → j < r → ¬ OneOfAt set s.mem j := by
  have hpos : 0 < set.length := List.length_pos_iff.2 hset
  have hnomem : ∀ j, s.mem.length ≤ j → ¬ OneOfAt set s.mem j := by
    rintro j hj ⟨c, hc, -⟩
    rw [List.getElem?_eq_none hj] at hc
    cases hc
  induction hk : s.mem.length - i generalizing i with
  | zero =>
    have : Algorithm.findFirstOf s.mem set eqP i s.size 0 set.length = none := by
      unfold Algorithm.findFirstOf
      rw [if_neg (by omega)]
      unfold Algorithm.anyMatch
      rw [if_neg (by omega)]
      have : rd s.mem i = none := by simp [rd]; omega
      simp [this]
    rw [this]
    exact fun j hj => hnomem j (by omega)
  | succ k ih =>
    have hlt : i < s.mem.length := by omega
    obtain ⟨b, hb, hb2⟩ := Algorithm.anyMatch_spec s.mem set eqP i 0 set.length s.mem[i] (by simp [hlt]) (by omega)
      (by omega)
    have hiff : b = true ↔ OneOfAt set s.mem i := by
      rw [hb2, ← mem_iff_get]
      constructor
      · intro h; exact ⟨_, by simp [hlt], h⟩
      · rintro ⟨c, hc, hm⟩; simp [hlt] at hc; rw [hc]; exact hm
    unfold Algorithm.findFirstOf
    rw [if_neg (by omega), hb]
    cases b with
    | true => exact ⟨by omega, hiff.1 rfl, fun j h1 h2 => by omega⟩
    | false =>
      have hno : ¬ OneOfAt set s.mem i := fun h => by simpa using hiff.2 h
      simp only
      rw [if_pos hlt]
      have hk' : s.mem.length - (i + 1) = k := by clear ih hb2 hb hiff; omega
      have := ih (i + 1) (by omega) hk'
      revert this
      cases Algorithm.findFirstOf s.mem set eqP (i + 1) s.size 0 set.length with
      | none =>
        intro h j hj
        by_cases hji : j = i
        · rw [hji]; exact hno
        · exact h j (by omega)
      | some r =>
        rintro ⟨a, b, c⟩
        refine ⟨by omega, b, fun j h1 h2 => ?_⟩
        by_cases hji : j = i
        · rw [hji]; exact hno
        · exact c j (by omega) h2

/-- C12: **Violation.** `find_first_of` from a position behind the end never reports "not found": it searches the memory
behind the string, returns the first of the characters it meets there, and is undefined when there is none.  For every
string, position and non-empty set. -/
theorem find_first_of_past_end (s : Str) (set : List Int) (hset : set ≠ []) (pos : Nat) (hpos : s.size < pos) :
    match findFirstOf s set pos set.length with
    | none => ∀ j, pos ≤ j → ¬ OneOfAt set s.mem j
    | some none => False
    | some (some r) => IsLowest (OneOfAt set s.mem) pos (some r) ∧ ¬ OneOfAt set s.text r := by
  have h := find_first_past s set hset pos hpos
  unfold findFirstOf
  revert h
  cases Algorithm.findFirstOf s.mem set eqP pos s.size 0 set.length with
  | none => exact id
  | some r =>
    rintro ⟨a, b, c⟩
    have : r ≠ s.size := by omega
    simp only [this, if_false]
    exact ⟨⟨a, b, c⟩, fun h => by have := oneOf_lt h; omega⟩

example : findFirstOf ⟨[97, 98, 99, 0], 1⟩ [98] 2 1 = none ∧
    findFirstOf ⟨[97, 98, 99, 0], 1⟩ [99] 2 1 = some (some 2) := by decide +kernel

/-- C12: **Violation.** `find_last_of` given a position at or behind the end searches the memory from that position
down, not the string: it returns the last of the characters at or before the position, in the string or behind it.  With
no memory at the position it is undefined.  For every string, position and non-empty set. -/
theorem find_last_of_stale (s : Str) (set : List Int) (hset : set ≠ []) (p : Nat) (hp : s.size ≤ p) :
    (s.mem.length ≤ p → findLastOf s set (some p) set.length = none) ∧
    (p < s.mem.length → ∃ r, findLastOf s set (some p) set.length = some r ∧
      IsHighest (OneOfAt set s.mem) (some p) r) := by
  have hpos : 0 < set.length := List.length_pos_iff.2 hset
  refine ⟨fun h => ?_, fun h => ?_⟩
  · have h1 : rd s.mem p = none := by simp [rd]; omega
    have h2 : Algorithm.anyMatch s.mem set eqP p 0 set.length = none := by
      unfold Algorithm.anyMatch
      rw [if_neg (by omega)]
      simp [h1]
    show lastOfLoop s set set.length (p + 1) = none
    simp only [lastOfLoop, h2]
  · have hloop : ∀ n, lastOfLoop s set set.length n = lastOfLoop ⟨s.mem, s.mem.length⟩ set set.length n := by
      intro n
      induction n with
      | zero => rfl
      | succ n ih => simp only [lastOfLoop, ih]
    have htext : Str.text ⟨s.mem, s.mem.length⟩ = s.mem := by simp [Str.text]
    obtain ⟨r, h1, h2⟩ := find_last_of_partial ⟨s.mem, s.mem.length⟩ set (some p) (Nat.le_refl _)
      (by intro q hq; cases hq; exact h)
    refine ⟨r, ?_, by rw [htext] at h2; exact h2⟩
    exact (hloop (p + 1)).trans h1

example : findLastOf ⟨[97, 98, 99, 0], 1⟩ [98] (some 2) 1 = some (some 1) ∧
    ¬ OneOfAt [98] (Str.text ⟨[97, 98, 99, 0], 1⟩) 1 :=
  ⟨by decide +kernel, by rintro ⟨c, hc, _⟩; simp [Str.text] at hc⟩

end Verif.Strings
