import Verif.Strings.Faults
/-!
# C12: searching a string for a C string or for another string

The overloads of `find`, `rfind`, `find_first_of` and `find_last_of` that take a null-terminated string or another
string look up its length and call the form with a length.
-/
namespace Verif.Strings
open Verif Verif.Strings.Spec

/-- what is searched for: a null-terminated string (the memory it starts in) or another string, the two families of
overloads at internal/string.h:166-181 -/
inductive Needle where
  | cstr (c : List Int)
  | str (t : Str)
deriving Repr, DecidableEq

/-- its characters and their number: `traits_type::length(s)` (internal/string.h:168, 191, 215, 237), or `clock()`
and `size()` (internal/string.h:177-178, 200-201, 222-223, 244-245) -/
def Needle.get : Needle → Option (List Int × Nat)
  | .cstr c => (cLength c 0).map (c, ·)
  | .str t => some (t.mem, t.size)

/-- `find(s, pos)`, internal/string.h:166-181 -/
def findN (s : Str) (n : Needle) (pos : Nat) : Option (Option Nat) :=
  match n.get with
  | none => none
  | some (m, k) => find s m pos k

/-- `rfind(s, pos)`, internal/string.h:189-204 -/
def rfindN (s : Str) (n : Needle) (pos : Option Nat) : Option (Option Nat) :=
  match n.get with
  | none => none
  | some (m, k) => rfind s m pos k

/-- `find_first_of(s, pos)`, internal/string.h:212-226 -/
def findFirstOfN (s : Str) (n : Needle) (pos : Nat) : Option (Option Nat) :=
  match n.get with
  | none => none
  | some (m, k) => findFirstOf s m pos k

/-- `find_last_of(s, pos)`, internal/string.h:234-248 -/
def findLastOfN (s : Str) (n : Needle) (pos : Option Nat) : Option (Option Nat) :=
  match n.get with
  | none => none
  | some (m, k) => findLastOf s m pos k

/-- the argument is good and stands for the text `t` -/
def Spec.IsText : Needle → List Int → Prop
  | .cstr c, t => CString c t
  | .str u, t => u.Ok ∧ t = u.text

theorem get_spec {n : Needle} {t : List Int} (h : Spec.IsText n t) :
    ∃ rest, n.get = some (t ++ rest, t.length) := by
  cases n with
  | cstr c =>
    obtain ⟨⟨rest, hc⟩, hz⟩ := h
    refine ⟨0 :: rest, ?_⟩
    rw [Needle.get, cLength_spec c t ⟨⟨rest, hc⟩, hz⟩, hc]
    rfl
  | str u =>
    obtain ⟨hok, rfl⟩ := h
    refine ⟨u.mem.drop u.size, ?_⟩
    have hl : u.text.length = u.size := by
      have : u.size ≤ u.mem.length := hok
      rw [Str.text, List.length_take]; omega
    rw [Needle.get, hl, Str.text, List.take_append_drop]

/-! What lies behind the `count` characters of the argument does not matter. -/

theorem memEq_behind (t rest b : List Int) (j : Nat) : memEq (t ++ rest) 0 b j t.length = memEq t 0 b j t.length := by
  simp only [memEq, Nat.zero_add, List.length_append, List.drop_zero, List.take_left, List.take_length,
    Nat.le_add_right, Nat.le_refl, true_and]

theorem findLoop_behind (s : Str) (t rest : List Int) (data i : Nat) :
    findLoop s (t ++ rest) t.length data i = findLoop s t t.length data i := by
  fun_induction findLoop s t t.length data i with
  | case1 => rw [findLoop, if_pos rfl]
  | case2 i h hm => rw [findLoop, if_neg h, memEq_behind, hm]
  | case3 i h hm => rw [findLoop, if_neg h, memEq_behind, hm]
  | case4 i h hm hl ih => rw [findLoop, if_neg h, memEq_behind, hm]; simp only [if_pos hl, ih]
  | case5 i h hm hl => rw [findLoop, if_neg h, memEq_behind, hm]; simp only [if_neg hl]

theorem rfindLoop_behind (s : Str) (t rest : List Int) (n : Nat) :
    rfindLoop s (t ++ rest) t.length n = rfindLoop s t t.length n := by
  induction n with
  | zero => rfl
  | succ n ih => simp only [rfindLoop, memEq_behind, ih]

theorem anyMatch_step (m s : List Int) (p : Int → Int → Bool) (cur it sLast : Nat) :
    Algorithm.anyMatch m s p cur it sLast =
      if it = sLast then some false else
      (rd m cur).bind fun x => (rd s it).bind fun y =>
        if p x y then some true else Algorithm.anyMatch m s p cur (it + 1) sLast := by
  rw [Algorithm.anyMatch]
  split
  · rfl
  · cases h1 : rd m cur with
    | none => rfl
    | some x =>
      cases h2 : rd s it with
      | none => rfl
      | some y => rfl

theorem anyMatch_behind (m t rest : List Int) (i : Nat) : ∀ k j, k + j = t.length →
    Algorithm.anyMatch m (t ++ rest) eqP i j t.length = Algorithm.anyMatch m t eqP i j t.length := by
  intro k
  induction k with
  | zero =>
    intro j hj
    rw [anyMatch_step, anyMatch_step m t]
    simp [show j = t.length by omega]
  | succ k ih =>
    intro j hj
    rw [anyMatch_step, anyMatch_step m t]
    have : rd (t ++ rest) j = rd t j := by
      unfold rd
      rw [List.getElem?_append_left (by omega)]
    rw [this, ih (j + 1) (by omega)]

theorem firstOf_behind (m t rest : List Int) (i e : Nat) :
    Algorithm.findFirstOf m (t ++ rest) eqP i e 0 t.length = Algorithm.findFirstOf m t eqP i e 0 t.length := by
  have am : ∀ i, Algorithm.anyMatch m (t ++ rest) eqP i 0 t.length = Algorithm.anyMatch m t eqP i 0 t.length :=
    fun i => anyMatch_behind m t rest i t.length 0 (by omega)
  suffices ∀ k i, m.length - i = k → Algorithm.findFirstOf m (t ++ rest) eqP i e 0 t.length =
      Algorithm.findFirstOf m t eqP i e 0 t.length from this _ i rfl
  intro k
  induction k with
  | zero =>
    intro i hi
    rw [Algorithm.findFirstOf, Algorithm.findFirstOf.eq_def m t, am i]
    simp only [show ¬ i < m.length by omega, if_false]
  | succ k ih =>
    intro i hi
    rw [Algorithm.findFirstOf, Algorithm.findFirstOf.eq_def m t, am i, ih (i + 1) (by omega)]

theorem lastOf_behind (s : Str) (t rest : List Int) (n : Nat) :
    lastOfLoop s (t ++ rest) t.length n = lastOfLoop s t t.length n := by
  induction n with
  | zero => rfl
  | succ n ih => simp only [lastOfLoop, anyMatch_behind s.mem t rest n t.length 0 (by omega), ih]

/-- the overloads agree with the forms that take a length, for every good argument -/
theorem overload_eq (s : Str) (n : Needle) (t : List Int) (h : Spec.IsText n t) :
    (∀ pos, findN s n pos = find s t pos t.length) ∧ (∀ pos, rfindN s n pos = rfind s t pos t.length) ∧
    (∀ pos, findFirstOfN s n pos = findFirstOf s t pos t.length) ∧
    (∀ pos, findLastOfN s n pos = findLastOf s t pos t.length) := by
  obtain ⟨rest, hg⟩ := get_spec h
  refine ⟨fun pos => ?_, fun pos => ?_, fun pos => ?_, fun pos => ?_⟩
  · rw [findN, hg]
    exact findLoop_behind s t rest pos pos
  · rw [rfindN, hg]
    simp only [rfind, rfindLoop_behind]
  · rw [findFirstOfN, hg]
    simp only [findFirstOf, firstOf_behind]
  · rw [findLastOfN, hg]
    cases pos <;> simp only [findLastOf, lastOf_behind]

/-- C12, searching for a C string or another string: from the start of the string (backwards: from any position),
the first and the last occurrence; of its characters: the first and the last index of any of them.  The side
conditions are those of the forms with a length. -/
theorem search_text_partial (s : Str) (n : Needle) (t : List Int) (h : Spec.IsText n t) (hok : s.Ok) :
    (t ≠ [] → s.size + t.length ≤ s.mem.length + 1 → NoStraddle s t →
      ∃ r, findN s n 0 = some r ∧ IsLowest (OccursAt t s.text) 0 r) ∧
    (t ≠ [] → 0 < s.size → ∀ pos, ∃ r, rfindN s n pos = some r ∧ IsHighest (OccursAt t s.text) pos r) ∧
    (∀ pos, pos ≤ s.size → ∃ r, findFirstOfN s n pos = some r ∧ IsLowest (OneOfAt t s.text) pos r) ∧
    (∀ pos, (∀ p, pos = some p → p < s.size) → ∃ r, findLastOfN s n pos = some r ∧ IsHighest (OneOfAt t s.text) pos r) := by
  obtain ⟨h1, h2, h3, h4⟩ := overload_eq s n t h
  refine ⟨fun hne hroom hns => ?_, fun hne hs pos => ?_, fun pos hp => ?_, fun pos hp => ?_⟩
  · rw [h1]; exact find_partial s t hok hne hroom hns
  · rw [h2]; exact rfind_partial s t pos hok hs hne
  · rw [h3]; exact find_first_of_partial s t pos hok hp
  · rw [h4]; exact find_last_of_partial s t pos hok hp

/-- C12, two null-terminated strings: a string followed by its terminator is searched for a C string without any side
condition but that neither is empty. -/
theorem find_terminated_partial (s : Str) (c t : List Int) (hok : s.Ok) (hz : s.mem[s.size]? = some 0) (hc : CString c t)
    (hne : t ≠ []) (hroom : s.size + t.length ≤ s.mem.length + 1) :
    ∃ r, findN s (.cstr c) 0 = some r ∧ IsLowest (OccursAt t s.text) 0 r :=
  (search_text_partial s (.cstr c) t hc hok).1 hne hroom (terminated_no_straddle s t hz hc.2)

/-- "hello" in a buffer of eight, searched for "llo" and for the characters of "ol". -/
example : findN ⟨[104, 101, 108, 108, 111, 0, 0, 0], 5⟩ (.cstr [108, 108, 111, 0]) 0 = some (some 2) ∧
    rfindN ⟨[104, 101, 108, 108, 111, 0, 0, 0], 5⟩ (.str ⟨[108, 0], 1⟩) none = some (some 3) ∧
    findFirstOfN ⟨[104, 101, 108, 108, 111, 0, 0, 0], 5⟩ (.str ⟨[111, 108, 0], 2⟩) 0 = some (some 2) ∧
    findLastOfN ⟨[104, 101, 108, 108, 111, 0, 0, 0], 5⟩ (.cstr [111, 108, 0]) (some 3) = some (some 3) := by decide +kernel

example : Spec.IsText (.cstr [108, 108, 111, 0]) [108, 108, 111] := ⟨⟨[], rfl⟩, by decide⟩
example : Spec.IsText (.str ⟨[111, 108, 0], 2⟩) [111, 108] := ⟨by decide, rfl⟩

end Verif.Strings
