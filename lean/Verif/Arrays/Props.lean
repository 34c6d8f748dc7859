import Verif.Arrays.Model

/-!
# C67: arrays, maps over arrays, and `stack`
-/
namespace Verif.Arrays
open Verif

universe u v

/-! ## the size type -/

/-- **The size type of an array holds its length, and a narrower one would not**: for every length for which the
program compiles, `size()` is the length. -/
theorem size_type_fits (n b : Nat) (h : deduceBits n = some b) :
    sizeOf n = some n ∧ n < 2 ^ b ∧ (b = 8 ∨ (b = 16 ∧ 2 ^ 8 ≤ n) ∨ (b = 32 ∧ 2 ^ 16 ≤ n)) := by
  unfold sizeOf
  rw [h]
  unfold deduceBits at h
  split at h
  · cases h; exact ⟨by simp; omega, by omega, .inl rfl⟩
  · split at h
    · cases h; exact ⟨by simp; omega, by omega, .inr (.inl ⟨rfl, by omega⟩)⟩
    · split at h
      · cases h; exact ⟨by simp; omega, by omega, .inr (.inr ⟨rfl, by omega⟩)⟩
      · cases h

/-- and it compiles exactly below 2^32 -/
theorem size_type_exists (n : Nat) : (deduceBits n).isSome ↔ n < 2 ^ 32 := by
  unfold deduceBits
  split
  · simp; omega
  · split
    · simp; omega
    · split
      · simp; omega
      · simp; omega

/-- `deduce_bit_count` is the number of binary digits, where it compiles -/
theorem bit_count_digits (n b : Nat) (h : bitCount n = some b) : n < 2 ^ b ∧ (n ≠ 0 → 2 ^ (b - 1) ≤ n) ∧ 1 ≤ b := by
  unfold bitCount at h
  repeat' split at h
  all_goals cases h
  all_goals exact ⟨by omega, by intro _; omega, by omega⟩

example : sizeOf 255 = some 255 ∧ sizeOf 256 = some 256 ∧ deduceBits 256 = some 16 ∧ bitCount 127 = some 7 := by decide

/-! ## arrays as windows on storage -/

/-- what can be done to arrays -/
inductive AOp (α : Type u) where
  | set (v : View) (i : Nat) (x : α)
  | fill (v : View) (x : α)
  | assign (src dst : Nat)

def AOp.step {α : Type u} (m : Mem α) : AOp α → Option (Mem α)
  | .set v i x => Arrays.set m v i x
  | .fill v x => Arrays.fill m v x
  | .assign s d => Arrays.assign m s d

def AOp.run {α : Type u} : Mem α → List (AOp α) → Option (Mem α)
  | m, [] => some m
  | m, o :: os => match o.step m with
    | none => none
    | some m' => AOp.run m' os

/-- the specification: storage maps an object and a position to a value -/
def Spec.step {α : Type u} (s : Nat → Nat → Option α) : AOp α → Nat → Nat → Option α
  | .set v i x => fun o j => if o = v.obj ∧ j = v.off + i then some x else s o j
  | .fill v x => fun o j => if o = v.obj ∧ v.off ≤ j ∧ j < v.off + v.n then some x else s o j
  | .assign a b => fun o j => if o = b then s a j else s o j

def Spec.run {α : Type u} (s : Nat → Nat → Option α) : List (AOp α) → Nat → Nat → Option α
  | [] => s
  | o :: os => Spec.run (Spec.step s o) os

/-- a view inside the storage; `shape` are the lengths of the objects -/
def Spec.inside (shape : List Nat) (v : View) : Prop := ∃ l, shape[v.obj]? = some l ∧ v.off + v.n ≤ l

/-- a call that stays inside: an index below the length; arrays of the same type assigned -/
def Spec.legal {α : Type u} (shape : List Nat) : AOp α → Prop
  | .set v i _ => Spec.inside shape v ∧ i < v.n
  | .fill v _ => Spec.inside shape v
  | .assign a b => a < shape.length ∧ shape[a]? = shape[b]?

/-- the storage holds what `s` says -/
def Holds {α : Type u} (m : Mem α) (s : Nat → Nat → Option α) : Prop :=
  ∀ o (cells : List (Option α)), m[o]? = some cells → ∀ j, j < cells.length → cells[j]? = some (s o j)

theorem step_holds {α : Type u} (m : Mem α) (s : Nat → Nat → Option α) (o : AOp α) (hm : Holds m s)
    (hl : Spec.legal (m.map List.length) o) :
    ∃ m', o.step m = some m' ∧ m'.map List.length = m.map List.length ∧ Holds m' (Spec.step s o) := by
  cases o with
  | set v i x =>
    obtain ⟨⟨l, hl1, hl2⟩, hi⟩ := hl
    rw [List.getElem?_map] at hl1
    obtain ⟨cells, hc, rfl⟩ := Option.map_eq_some_iff.mp hl1
    have hlt : v.off + i < cells.length := by omega
    refine ⟨m.set v.obj (cells.set (v.off + i) (some x)), by simp [AOp.step, Arrays.set, hc, wr, hlt], ?_, ?_⟩
    · rw [List.map_set]
      apply List.ext_getElem?
      intro j
      rw [List.getElem?_set]
      split
      · rename_i e
        subst e
        split
        · simp [List.getElem?_map, hc]
        · rename_i h; rw [List.getElem?_eq_none (by omega)]
      · rfl
    · intro ob cs hcs j hj
      rw [List.getElem?_set] at hcs
      split at hcs
      · rename_i e; subst e
        split at hcs
        · cases hcs
          rw [List.getElem?_set]
          simp only [List.length_set] at hj
          have := hm _ cells hc j hj
          grind [Spec.step]
        · cases hcs
      · rename_i e
        have := hm ob cs hcs j hj
        rw [this]
        simp [Spec.step]
        intro h; exact absurd h.symm e
  | fill v x =>
    obtain ⟨l, hl1, hl2⟩ := hl
    rw [List.getElem?_map] at hl1
    obtain ⟨cells, hc, rfl⟩ := Option.map_eq_some_iff.mp hl1
    obtain ⟨c', e1, e2, e3⟩ := Algorithm.fill_n_effect cells v.off v.n (some x) hl2
    refine ⟨m.set v.obj c', by simp [AOp.step, Arrays.fill, hc, e1], ?_, ?_⟩
    · rw [List.map_set]
      apply List.ext_getElem?
      intro j
      rw [List.getElem?_set]
      split
      · rename_i e
        subst e
        split
        · simp [List.getElem?_map, hc, e2]
        · rename_i h; rw [List.getElem?_eq_none (by omega)]
      · rfl
    · intro ob cs hcs j hj
      rw [List.getElem?_set] at hcs
      split at hcs
      · rename_i e; subst e
        split at hcs
        · cases hcs
          rw [e3]
          have := hm _ cells hc j (by omega)
          grind [Spec.step]
        · cases hcs
      · rename_i e
        have := hm ob cs hcs j hj
        rw [this]
        simp [Spec.step]
        intro h; exact absurd h.symm e
  | assign a b =>
    obtain ⟨ha, hab⟩ := hl
    rw [List.length_map] at ha
    have hc : m[a]? = some m[a] := List.getElem?_eq_getElem ha
    refine ⟨m.set b m[a], by simp [AOp.step, Arrays.assign, hc], ?_, ?_⟩
    · rw [List.map_set]
      apply List.ext_getElem?
      intro j
      rw [List.getElem?_set]
      split
      · rename_i e
        subst e
        split
        · rw [← hab]; simp [hc]
        · rename_i h; rw [List.getElem?_eq_none (by omega)]
      · rfl
    · intro ob cs hcs j hj
      rw [List.getElem?_set] at hcs
      split at hcs
      · rename_i e; subst e
        split at hcs
        · cases hcs
          have := hm a _ hc j hj
          simp [Spec.step, this]
        · cases hcs
      · rename_i e
        have := hm ob cs hcs j hj
        rw [this]
        simp [Spec.step]
        intro h; exact absurd h.symm e

theorem run_holds {α : Type u} (ops : List (AOp α)) : ∀ (m : Mem α) (s : Nat → Nat → Option α), Holds m s →
    (∀ o ∈ ops, Spec.legal (m.map List.length) o) →
    ∃ m', AOp.run m ops = some m' ∧ m'.map List.length = m.map List.length ∧ Holds m' (Spec.run s ops) := by
  induction ops with
  | nil => intro m s h _; exact ⟨m, rfl, rfl, h⟩
  | cons o os ih =>
    intro m s h hl
    obtain ⟨m1, e1, e2, e3⟩ := step_holds m s o h (hl o (by simp))
    obtain ⟨m2, f1, f2, f3⟩ := ih m1 _ e3 (fun o' h' => by rw [e2]; exact hl o' (by simp [h']))
    exact ⟨m2, by simp [AOp.run, e1, f1], by rw [f2, e2], f3⟩

theorem get_holds {α : Type u} (m : Mem α) (s : Nat → Nat → Option α) (h : Holds m s) (v : View)
    (hv : Spec.inside (m.map List.length) v) (i : Nat) (hi : i < v.n) : get m v i = s v.obj (v.off + i) := by
  obtain ⟨l, hl1, hl2⟩ := hv
  rw [List.getElem?_map] at hl1
  obtain ⟨cells, hc, rfl⟩ := Option.map_eq_some_iff.mp hl1
  have := h _ cells hc (v.off + i) (by omega)
  simp [get, hc, rd, this]

/-- **Every array is a window on its storage**: after any history of element writes, fills and whole-array assignments
through any arrays of any layer, reading element `i` of any array gives what was last put in that cell, by whichever
array; a fill reaches the array's elements and no other cell; assigning one `estd::array` to another copies it. -/
theorem arrays_history {α : Type u} (m : Mem α) (ops : List (AOp α)) (hl : ∀ o ∈ ops, Spec.legal (m.map List.length) o) :
    ∃ m', AOp.run m ops = some m' ∧ ∀ v, Spec.inside (m.map List.length) v → ∀ i, i < v.n →
      get m' v i = Spec.run (fun o j => ((m[o]?).bind (·[j]?)).join) ops v.obj (v.off + i) := by
  have h0 : Holds m (fun o j => ((m[o]?).bind (·[j]?)).join) := by
    intro o cells hc j hj
    simp [hc, List.getElem?_eq_getElem hj]
  obtain ⟨m', e1, e2, e3⟩ := run_holds ops m _ h0 hl
  exact ⟨m', e1, fun v hv i hi => get_holds m' _ e3 v (by rw [e2]; exact hv) i hi⟩

/-- two `estd::array<int, 3>`s and a `layer3` view of the last two elements of the first -/
example : ∃ m, AOp.run [[some 1, some 2, some 3], [none, none, none]]
      [.assign 0 1, .set ⟨0, 1, 2⟩ 0 7, .fill ⟨1, 0, 2⟩ 9] = some m ∧
    get m ⟨0, 0, 3⟩ 1 = some 7 ∧ get m ⟨1, 0, 3⟩ 1 = some 9 ∧ get m ⟨1, 0, 3⟩ 2 = some 3 := by
  refine ⟨_, rfl, ?_⟩; decide

/-- An initialiser list that fits: the first elements are the values, the rest is indeterminate. -/
theorem init_list {α : Type u} [DecidableEq α] (n : Nat) (init : List α) (h : init.length ≤ n) :
    ∃ o, ofList n init = some o ∧ o.length = n ∧
      ∀ i, i < n → o[i]? = some init[i]? := by
  obtain ⟨b, e1, e2, e3⟩ := DynArray.writeAll_effect (fresh (α := α) n) 0 (init.map some) (by simp [fresh]; omega)
  refine ⟨b, e1, by simp [e2, fresh], fun i hi => ?_⟩
  rw [e3]
  by_cases hc : i < init.length
  · simp [hc]
  · have : init.length ≤ i := by omega
    simp [fresh, List.getElem?_replicate, hi, hc]

/-- **Violation.**  A longer list is not refused: the copy runs over the end of the array. -/
theorem init_list_overruns {α : Type u} [DecidableEq α] (n : Nat) (init : List α) (h : n < init.length) : ofList n init = none :=
  DynArray.writeAll_overrun (fresh n) 0 (init.map some) (by simp [fresh]; omega) (by intro e; simp at e; subst e; simp at h)

example : ofList 4 [1, 2] = some [some 1, some 2, none, none] ∧ ofList 2 [1, 2, 3] = none := by decide

/-- `to_array` is a copy -/
theorem to_array_copies {α : Type u} (a : List (Option α)) : toArray a = some a := by
  obtain ⟨m', e1, e2, e3⟩ := Algorithm.copy_n_effect (a ++ fresh a.length) 0 a.length a.length
    (by simp [fresh]) (by simp [fresh]) (.inr (by omega))
  simp only [toArray, e1]
  congr 1
  apply List.ext_getElem?
  intro i
  rw [List.getElem?_drop, e3]
  by_cases hi : i < a.length
  · rw [if_pos (by omega), List.getElem?_append_left (by omega)]
    congr 1; omega
  · rw [if_neg (by omega), List.getElem?_eq_none (by simp [fresh]; omega), List.getElem?_eq_none (by omega)]

theorem iterate_from {α : Type u} (m : Mem α) (v : View) (l : List α) : ∀ (i : Nat),
    (∀ j, j < l.length → get m v (i + j) = l[j]?) → iterate m v i l.length = some l := by
  induction l with
  | nil => intro i _; rfl
  | cons x r ih =>
    intro i h
    have h0 := h 0 (by simp)
    simp only [Nat.add_zero, List.getElem?_cons_zero] at h0
    simp only [iterate, List.length_cons, h0]
    rw [ih (i + 1) (fun j hj => by
      have := h (j + 1) (by simp; omega)
      rw [List.getElem?_cons_succ] at this
      rw [← this]; congr 1; omega)]
    rfl

/-- **Iteration sees the elements, each once, in order; `front()` is the first, `back()` the last; `==` compares length
and elements.** -/
theorem array_reads {α : Type u} [DecidableEq α] (m : Mem α) (v w : View) (bits : Nat) (l r : List α)
    (hv : v.n = l.length) (hw : w.n = r.length) (hl : ∀ i, i < l.length → get m v i = l[i]?)
    (hr : ∀ i, i < r.length → get m w i = r[i]?) :
    iterate m v 0 v.n = some l ∧ arrEq m v w = some (decide (l = r)) ∧ arrNe m v w = some (decide (l ≠ r)) ∧
    (l ≠ [] → front m v = l.head? ∧ (l.length < 2 ^ bits → back bits m v = l.getLast?)) := by
  have i1 : iterate m v 0 v.n = some l := by rw [hv]; exact iterate_from m v l 0 (fun j hj => by rw [Nat.zero_add]; exact hl j hj)
  have i2 : iterate m w 0 w.n = some r := by rw [hw]; exact iterate_from m w r 0 (fun j hj => by rw [Nat.zero_add]; exact hr j hj)
  have key : l.length = r.length → (l <+: r ↔ l = r) := fun e =>
    ⟨fun h => h.eq_of_length e, fun h => h ▸ List.prefix_refl _⟩
  refine ⟨i1, ?_, ?_, ?_⟩
  · unfold arrEq
    rw [i1, i2]
    split
    · rename_i e
      simp only [Algorithm.equal_isPrefix l r (by omega), key (by omega)]
    · rename_i e
      have : l ≠ r := fun h => e (by rw [hv, hw, h])
      simp [this]
  · unfold arrNe
    rw [i1, i2]
    split
    · rename_i e
      simp only [Algorithm.equal_isPrefix l r (by omega), key (by omega)]
      simp
    · rename_i e
      have : l ≠ r := fun h => e (by rw [hv, hw, h])
      simp [this]
  · intro hne
    have hpos : 0 < l.length := List.length_pos_iff.mpr hne
    refine ⟨by rw [front, hl 0 hpos, List.head?_eq_getElem?], fun hb => ?_⟩
    unfold back
    have : (v.n + 2 ^ bits - 1) % 2 ^ bits = l.length - 1 := by
      have : v.n + 2 ^ bits - 1 = (l.length - 1) + 2 ^ bits := by omega
      rw [this, Nat.add_mod_right, Nat.mod_eq_of_lt (by omega)]
    rw [this, hl _ (by omega), List.getLast?_eq_getElem?]

/-- **Violation.**  `back()` of an empty `layer3` array is not refused: it reads position 2^bits - 1 of the caller's
memory. -/
theorem back_empty {α : Type u} (bits : Nat) (m : Mem α) (o : Nat) (off : Nat) : back bits m ⟨o, off, 0⟩ = get m ⟨o, off, 0⟩ (2 ^ bits - 1) := by
  unfold back
  have : 0 < 2 ^ bits := Nat.two_pow_pos _
  rw [Nat.mod_eq_of_lt (by simp; omega)]; simp

/-! ## maps -/

section
variable {κ : Type u} {β : Type v} [DecidableEq κ]

/-- the specification: a list of pairs; the first pair with the key counts -/
def Spec.find (l : List (κ × β)) (k : κ) : Option β := (l.find? (fun e => e.1 = k)).map (·.2)

/-- replacing the value of the first pair with the key -/
def Spec.assign (l : List (κ × β)) (k : κ) (x : β) : List (κ × β) :=
  match l with
  | [] => []
  | e :: r => if e.1 = k then (k, x) :: r else e :: Spec.assign r k x

/-- an array of pairs, and the map's pairs -/
def Spec.mstep (copied : Bool) (s : List (κ × β) × List (κ × β)) : MOp κ β → (List (κ × β) × List (κ × β)) × MOut κ β
  | .find k => (s, .value (Spec.find s.2 k))
  | .assign k x =>
    ((if copied then s.1 else Spec.assign s.1 k x, Spec.assign s.2 k x), .assigned (s.2.any fun e => e.1 = k))
  | .poke i e => ((s.1.set i e, if copied then s.2 else s.2.set i e), .none)
  | .peek i => (s, match s.1[i]? with | some e => .entry e | none => .none)

def Spec.mrun (copied : Bool) : List (κ × β) × List (κ × β) → List (MOp κ β) → List (MOut κ β)
  | _, [] => []
  | s, o :: os => (Spec.mstep copied s o).2 :: Spec.mrun copied (Spec.mstep copied s o).1 os

/-- the caller stays inside its array -/
def Spec.mlegal (n : Nat) : MOp κ β → Prop
  | .poke i _ => i < n
  | .peek i => i < n
  | _ => True

theorem lookupFrom_spec (m : Mem (κ × β)) (v : View) (k : κ) (l : List (κ × β)) : ∀ (i : Nat),
    (∀ j, j < l.length → get m v (i + j) = l[j]?) →
    lookupFrom m v k i l.length = some ((l.findIdx? (fun e => e.1 = k)).map (i + ·)) := by
  induction l with
  | nil => intro i _; rfl
  | cons e r ih =>
    intro i h
    have h0 := h 0 (by simp)
    simp only [Nat.add_zero, List.getElem?_cons_zero] at h0
    simp only [lookupFrom, List.length_cons, h0, List.findIdx?_cons]
    by_cases hk : e.1 = k
    · simp [hk]
    · simp only [hk, if_false, decide_false, Bool.false_eq_true]
      rw [ih (i + 1) (fun j hj => by
        have := h (j + 1) (by simp; omega)
        rw [List.getElem?_cons_succ] at this
        rw [← this]; congr 1; omega)]
      rw [Option.map_map]; congr 2
      funext a; simp; omega

theorem find_idx (l : List (κ × β)) (k : κ) :
    (l.findIdx? (fun e => e.1 = k) = none → Spec.find l k = none ∧ Spec.assign l k = (fun _ => l) ∧ (l.any fun e => e.1 = k) = false) ∧
    ∀ i, l.findIdx? (fun e => e.1 = k) = some i → ∃ e, l[i]? = some e ∧ e.1 = k ∧ Spec.find l k = some e.2 ∧
      (∀ x, Spec.assign l k x = l.set i (e.1, x)) ∧ (l.any fun e => e.1 = k) = true := by
  induction l with
  | nil => simp [Spec.find, Spec.assign]
  | cons a r ih =>
    rw [List.findIdx?_cons]
    by_cases hk : a.1 = k
    · simp only [hk, decide_true, if_true]
      refine ⟨fun h => (by cases h), fun i hi => ?_⟩
      cases hi
      exact ⟨a, rfl, hk, by simp [Spec.find, hk], fun x => by simp [Spec.assign, hk], by simp [hk]⟩
    · simp only [hk, decide_false, Bool.false_eq_true, if_false]
      constructor
      · intro h
        obtain ⟨h1, h2, h3⟩ := ih.1 (by simpa using h)
        refine ⟨?_, ?_, ?_⟩
        · simp only [Spec.find, List.find?_cons, hk, decide_false]; exact h1
        · funext x; simp only [Spec.assign, hk, if_false]; rw [congrFun h2 x]
        · simp only [List.any_cons, hk, decide_false, Bool.false_or]; exact h3
      · intro i hi
        obtain ⟨j, hj, rfl⟩ := Option.map_eq_some_iff.mp hi
        obtain ⟨e, f1, f2, f3, f4, f5⟩ := ih.2 j hj
        refine ⟨e, by simpa using f1, f2, ?_, fun x => ?_, ?_⟩
        · simp only [Spec.find, List.find?_cons, hk, decide_false]; exact f3
        · simp only [Spec.assign, hk, if_false, f4 x, List.set_cons_succ]
        · simp only [List.any_cons, f5, Bool.or_true]

theorem get_obj (m : Mem (κ × β)) (o : Nat) (l : List (κ × β)) (h : m[o]? = some (l.map some)) (n i : Nat) :
    get m ⟨o, 0, n⟩ i = l[i]? := by
  simp only [get, h, rd, Nat.zero_add, List.getElem?_map]
  cases l[i]? <;> rfl

theorem set_obj (m : Mem (κ × β)) (o : Nat) (l : List (κ × β)) (h : m[o]? = some (l.map some)) (n i : Nat) (hi : i < l.length)
    (e : κ × β) : Arrays.set m ⟨o, 0, n⟩ i e = some (m.set o ((l.set i e).map some)) := by
  simp [Arrays.set, h, wr, hi, List.map_set]

/-- the storage of a program with a map: the caller's pairs `s.1`, the map's pairs `s.2` -/
def MapMem (copied : Bool) (s : List (κ × β) × List (κ × β)) : Mem (κ × β) :=
  if copied then [s.1.map some, s.2.map some] else [s.1.map some]

theorem mapmem_step (copied : Bool) (n : Nat) (s : List (κ × β) × List (κ × β)) (h1 : s.1.length = n) (h2 : s.2.length = n)
    (hc : copied = false → s.1 = s.2) (o : MOp κ β) (ho : Spec.mlegal n o) :
    o.step ⟨if copied then 1 else 0, 0, n⟩ n (MapMem copied s) = some (MapMem copied (Spec.mstep copied s o).1, (Spec.mstep copied s o).2) ∧
    (Spec.mstep copied s o).1.1.length = n ∧ (Spec.mstep copied s o).1.2.length = n ∧
    (copied = false → (Spec.mstep copied s o).1.1 = (Spec.mstep copied s o).1.2) := by
  obtain ⟨a, b⟩ := s
  simp only at h1 h2 hc
  have hmap : (MapMem copied (a, b))[if copied then 1 else 0]? = some (b.map some) := by
    cases copied
    · rw [hc rfl]; rfl
    · rfl
  have hcal : (MapMem copied (a, b))[0]? = some (a.map some) := by cases copied <;> rfl
  have hlk : ∀ k, lookup (MapMem copied (a, b)) ⟨if copied then 1 else 0, 0, n⟩ k = some (b.findIdx? (fun e => e.1 = k)) := by
    intro k
    show lookupFrom _ _ k 0 n = _
    rw [← h2, lookupFrom_spec _ _ k b 0 (fun j hj => by rw [Nat.zero_add]; exact get_obj _ _ b hmap _ j)]
    congr 1
    simp
  cases o with
  | find k =>
    refine ⟨?_, h1, h2, hc⟩
    simp only [MOp.step, hlk, Spec.mstep]
    obtain ⟨f1, f2⟩ := find_idx b k
    cases hf : b.findIdx? (fun e => e.1 = k) with
    | none => simp [(f1 hf).1]
    | some i =>
      obtain ⟨e, g1, g2, g3, -⟩ := f2 i hf
      simp only [get_obj _ _ b hmap, g1, Option.map_some, g3]
  | assign k x =>
    simp only [MOp.step, hlk, Spec.mstep]
    obtain ⟨f1, f2⟩ := find_idx b k
    cases hf : b.findIdx? (fun e => e.1 = k) with
    | none =>
      obtain ⟨g1, g2, g3⟩ := f1 hf
      rw [g3, congrFun g2 x]
      cases copied
      · have := hc rfl; subst this
        rw [congrFun g2 x]
        exact ⟨rfl, h1, h1, fun _ => rfl⟩
      · exact ⟨rfl, h1, h2, fun h => by cases h⟩
    | some i =>
      obtain ⟨e, g1, g2, g3, g4, g5⟩ := f2 i hf
      have hi : i < b.length := by
        rcases Nat.lt_or_ge i b.length with h | h
        · exact h
        · rw [List.getElem?_eq_none h] at g1; cases g1
      simp only [get_obj _ _ b hmap, g1, set_obj _ _ b hmap _ _ hi, Option.map_some, g4, g5]
      cases copied
      · have := hc rfl; subst this
        refine ⟨?_, ?_, ?_, ?_⟩
        · simp [MapMem, g4]
        · simp [g4, h1]
        · simp [h1]
        · simp [g4]
      · exact ⟨rfl, h1, by simp [h2], fun h => by cases h⟩
  | poke i e =>
    simp only [MOp.step, Spec.mstep, set_obj _ _ a hcal _ _ (by rw [h1]; exact ho)]
    cases copied
    · have := hc rfl; subst this
      exact ⟨rfl, by simp [h1], by simp [h1], fun _ => rfl⟩
    · exact ⟨rfl, by simp [h1], h2, fun h => by cases h⟩
  | peek i =>
    have hi : i < a.length := by rw [h1]; exact ho
    refine ⟨?_, h1, h2, hc⟩
    simp only [MOp.step, Spec.mstep, get_obj _ _ a hcal, List.getElem?_eq_getElem hi, Option.map_some]

/-- **A map over an array is an association list of its entries**: whatever is done through the map and to the array it
was built on, a lookup gives the value of the first entry with that key, or a null pointer if there is none; assigning
through the pointer changes that entry and no other.  A `layer1` map is a copy: the array and the map do not see each
other's changes.  A `layer2` or `layer3` map is the array: each sees the other's changes at once. -/
theorem map_history (layer : Layer) (l : List (κ × β)) (ops : List (MOp κ β)) (ho : ∀ o ∈ ops, Spec.mlegal l.length o) :
    MOp.run (mapOn layer (l.map some)).2 l.length (mapOn layer (l.map some)).1 ops
      = some (Spec.mrun (layer == .layer1) (l, l) ops) := by
  have key : ∀ (copied : Bool) (ops : List (MOp κ β)) (s : List (κ × β) × List (κ × β)), s.1.length = l.length → s.2.length = l.length →
      (copied = false → s.1 = s.2) → (∀ o ∈ ops, Spec.mlegal l.length o) →
      MOp.run ⟨if copied then 1 else 0, 0, l.length⟩ l.length (MapMem copied s) ops = some (Spec.mrun copied s ops) := by
    intro copied ops
    induction ops with
    | nil => intro s _ _ _ _; rfl
    | cons o os ih =>
      intro s h1 h2 hc ho
      obtain ⟨e1, e2, e3, e4⟩ := mapmem_step copied l.length s h1 h2 hc o (ho o (by simp))
      simp only [MOp.run, e1, ih _ e2 e3 e4 (fun o' h' => ho o' (by simp [h'])), Option.map_some, Spec.mrun]
  cases layer
  · have := key true ops (l, l) rfl rfl (fun h => by cases h) ho
    rw [show (Layer.layer1 == Layer.layer1) = true from rfl]
    simpa [mapOn, MapMem] using this
  · have := key false ops (l, l) rfl rfl (fun _ => rfl) ho
    rw [show (Layer.layer2 == Layer.layer1) = false from rfl]
    simpa [mapOn, MapMem] using this
  · have := key false ops (l, l) rfl rfl (fun _ => rfl) ho
    rw [show (Layer.layer3 == Layer.layer1) = false from rfl]
    simpa [mapOn, MapMem] using this

/-- what the specification says about duplicates and other keys -/
theorem spec_find_assign (l : List (κ × β)) (k k' : κ) (x : β) :
    Spec.find (Spec.assign l k x) k' = if k' = k then (Spec.find l k).map (fun _ => x) else Spec.find l k' := by
  induction l with
  | nil => simp [Spec.assign, Spec.find]
  | cons e r ih =>
    simp only [Spec.assign]
    by_cases hk : e.1 = k
    · simp only [hk, if_true]
      by_cases hk' : k' = k
      · simp [Spec.find, hk', hk]
      · have : ¬ k = k' := fun h => hk' h.symm
        simp [Spec.find, hk', hk, this]
    · simp only [hk, if_false]
      by_cases he : e.1 = k'
      · have : ¬ k' = k := fun h => hk (he.trans h)
        simp [Spec.find, he, this]
      · have h1 : Spec.find (e :: Spec.assign r k x) k' = Spec.find (Spec.assign r k x) k' := by
          simp only [Spec.find, List.find?_cons, he, decide_false]
        have h2 : Spec.find (e :: r) k' = Spec.find r k' := by simp only [Spec.find, List.find?_cons, he, decide_false]
        have h3 : Spec.find (e :: r) k = Spec.find r k := by simp only [Spec.find, List.find?_cons, hk, decide_false]
        rw [h1, h2, h3, ih]

/-- **Violation.**  A `layer1` map initialised with fewer entries than its size compares indeterminate keys: looking up a
key that is not among the entries given is undefined, instead of a null pointer. -/
theorem map_short_init (n : Nat) (init : List (κ × β)) (k : κ) (h : init.length < n) (hk : ∀ e ∈ init, e.1 ≠ k) :
    ofList n init = some (init.map some ++ fresh (n - init.length)) ∧
    lookup [init.map some ++ fresh (n - init.length)] ⟨0, 0, n⟩ k = none := by
  constructor
  · have key : ∀ (n : Nat) (pre : List (Option (κ × β))) (init : List (κ × β)), init.length ≤ n →
        DynArray.writeAll (pre ++ fresh n) pre.length (init.map some) = some (pre ++ init.map some ++ fresh (n - init.length)) := by
      intro n pre init
      induction init generalizing n pre with
      | nil => intro _; simp [DynArray.writeAll]
      | cons e r ih =>
        intro hn
        obtain ⟨n, rfl⟩ : ∃ k, n = k + 1 := ⟨n - 1, by simp at hn; omega⟩
        have hw : wr (pre ++ fresh (n + 1)) pre.length (some e) = some (pre ++ [some e] ++ fresh n) := by
          simp [wr, fresh, List.replicate_succ]
        have := ih n (pre ++ [some e]) (by simp at hn; omega)
        simp only [List.length_append, List.length_cons, List.length_nil, Nat.zero_add] at this
        simp only [List.map_cons, DynArray.writeAll, hw]
        rw [this]
        simp
    have := key n [] init (by omega)
    simpa [ofList] using this
  · have key : ∀ (rest : List (κ × β)) (i rem : Nat), rest.length < rem → (∀ e ∈ rest, e.1 ≠ k) →
        (∀ j, j < rest.length → get [init.map some ++ fresh (n - init.length)] ⟨0, 0, n⟩ (i + j) = rest[j]?) →
        get [init.map some ++ fresh (n - init.length)] ⟨0, 0, n⟩ (i + rest.length) = none →
        lookupFrom [init.map some ++ fresh (n - init.length)] ⟨0, 0, n⟩ k i rem = none := by
      intro rest
      induction rest with
      | nil =>
        intro i rem hr _ _ hn
        obtain ⟨rem, rfl⟩ : ∃ k, rem = k + 1 := ⟨rem - 1, by simp at hr; omega⟩
        simp only [List.length_nil, Nat.add_zero] at hn
        simp only [lookupFrom, hn]
      | cons e r ih =>
        intro i rem hr hk hg hn
        obtain ⟨rem, rfl⟩ : ∃ k, rem = k + 1 := ⟨rem - 1, by simp at hr; omega⟩
        have h0 := hg 0 (by simp)
        simp only [Nat.add_zero, List.getElem?_cons_zero] at h0
        simp only [lookupFrom, h0, hk e (by simp), if_false]
        refine ih (i + 1) rem (by simp at hr; omega) (fun e' h' => hk e' (by simp [h'])) (fun j hj => ?_) ?_
        · have := hg (j + 1) (by simp; omega)
          rw [List.getElem?_cons_succ] at this
          rw [← this]; congr 1; omega
        · rw [← hn]; congr 1; simp; omega
    refine key init 0 n h hk (fun j hj => ?_) ?_
    · simp [get, rd, List.getElem?_append_left, hj]
    · have hlt : init.length < n := h
      have : (init.map some ++ fresh (α := κ × β) (n - init.length))[init.length]? = some none := by
        rw [List.getElem?_append_right (by simp)]
        simp only [fresh, List.length_map, Nat.sub_self, List.getElem?_replicate]
        rw [if_pos (by omega)]
      simp [get, rd, this]

end

/-- entries with a duplicate key, an assignment through the map, a change of the array -/
example : MOp.run (mapOn .layer1 ([(1, 10), (2, 20), (1, 30)].map some)).2 3 (mapOn .layer1 ([(1, 10), (2, 20), (1, 30)].map some)).1
      [.find 1, .assign 1 11, .find 1, .find 7, .poke 1 (7, 70), .find 7, .peek 0]
    = some [.value (some 10), .assigned true, .value (some 11), .value none, .none, .value none, .entry (1, 10)] := by decide

example : MOp.run (mapOn .layer3 ([(1, 10), (2, 20), (1, 30)].map some)).2 3 (mapOn .layer3 ([(1, 10), (2, 20), (1, 30)].map some)).1
      [.find 1, .assign 1 11, .find 1, .find 7, .poke 1 (7, 70), .find 7, .peek 0]
    = some [.value (some 10), .assigned true, .value (some 11), .value none, .none, .value (some 70), .entry (1, 11)] := by decide

example : lookup [([(1, 10)].map some) ++ fresh 1] ⟨0, 0, 2⟩ 5 = none ∧ lookup [([(1, 10)].map some) ++ fresh 1] ⟨0, 0, 2⟩ 1 = some (some 0) := by
  decide

/-! ## `stack` -/

section
variable {α : Type u} [DecidableEq α]

/-- the specification: a list, the top first -/
def Spec.sstep (s : List α) : SOp α → List α × SOut α
  | .push x => (x :: s, .none)
  | .pop => (s.tail, .none)
  | .top => (s, match s with | [] => .none | x :: _ => .value x)
  | .size => (s, .count s.length)
  | .empty => (s, .flag (s.isEmpty))
  | .iterate => (s, .all s.reverse)

def Spec.srun : List α → List (SOp α) → List (SOut α)
  | _, [] => []
  | s, o :: os => (Spec.sstep s o).2 :: Spec.srun (Spec.sstep s o).1 os

/-- never more than `cap` elements; no `pop` or `top` of an empty stack -/
def Spec.slegal (cap : Nat) : List α → List (SOp α) → Prop
  | _, [] => True
  | s, o :: os => (match o with
      | .push _ => s.length < cap
      | .pop => s ≠ []
      | .top => s ≠ []
      | _ => True) ∧ Spec.slegal cap (Spec.sstep s o).1 os

theorem vecFrom_ok (a : DynArray.Arr α) (l : List α) : ∀ (i : Nat), (∀ j, j < l.length → DynArray.index a (i + j) = DynArray.Res.ofOption l[j]?) →
    vecFrom a i l.length = .ok l := by
  induction l with
  | nil => intro i _; rfl
  | cons x r ih =>
    intro i h
    have h0 := h 0 (by simp)
    simp only [Nat.add_zero, List.getElem?_cons_zero, DynArray.Res.ofOption_some] at h0
    simp only [vecFrom, List.length_cons, h0, DynArray.Res.bind_ok]
    rw [ih (i + 1) (fun j hj => by
      have := h (j + 1) (by simp; omega)
      rw [List.getElem?_cons_succ] at this
      rw [← this]; congr 1; omega)]
    rfl

theorem stack_step (c : DynArray.Cfg α) (hn : c.nullTerm = false) (a : DynArray.Arr α) (s : List α)
    (h : DynArray.Rep c a s.reverse) (hM : a.buf.length < c.modulus) (o : SOp α)
    (hl : match o with
      | .push _ => s.length < a.buf.length
      | .pop => s ≠ []
      | .top => s ≠ []
      | _ => True) :
    ∃ a', o.step c a = .ok (a', (Spec.sstep s o).2) ∧ DynArray.Rep c a' (Spec.sstep s o).1.reverse ∧ a'.buf.length = a.buf.length := by
  have hsz : DynArray.size c a = .ok s.length := by rw [h.size_eq]; simp
  have hle : s.length ≤ a.buf.length := by have := h.fits; simpa using this
  cases o with
  | push x =>
    obtain ⟨a', e1, e2, e3⟩ := DynArray.pushBack_rep h x (by simp [DynArray.room, hn]; exact hl) (fun h' => by rw [hn] at h'; cases h')
    exact ⟨a', by simp [SOp.step, e1, Spec.sstep], by simpa [Spec.sstep] using e2, e3⟩
  | pop =>
    obtain ⟨a', e1, e2, e3⟩ := DynArray.popBack_rep h (by simpa using hl)
    exact ⟨a', by simp [SOp.step, e1, Spec.sstep], by simpa [Spec.sstep, List.dropLast_reverse] using e2, e3⟩
  | top =>
    cases s with
    | nil => exact absurd rfl hl
    | cons x r =>
      refine ⟨a, ?_, h, rfl⟩
      have hm : (r.length + 1 + c.modulus - 1) % c.modulus = r.length := by
        simp only [List.length_cons] at hle
        rw [show r.length + 1 + c.modulus - 1 = r.length + c.modulus by omega, Nat.add_mod_right, Nat.mod_eq_of_lt (by omega)]
      have := h.holds.2 r.length (by simp)
      simp only [SOp.step, hsz, DynArray.Res.bind_ok, List.length_cons, hm, this, Spec.sstep]
      congr 3
      simp
  | size => exact ⟨a, by simp [SOp.step, hsz, Spec.sstep], h, rfl⟩
  | empty =>
    refine ⟨a, ?_, h, rfl⟩
    simp only [SOp.step, hsz, DynArray.Res.bind_ok, Spec.sstep]
    cases s <;> simp
  | iterate =>
    refine ⟨a, ?_, h, rfl⟩
    have := vecFrom_ok a s.reverse 0 (fun j hj => by
      have := h.holds.2 j hj
      rw [Nat.zero_add, this, List.getElem?_eq_getElem hj]; rfl)
    simp only [List.length_reverse] at this
    simp only [SOp.step, hsz, DynArray.Res.bind_ok, this, Spec.sstep]

/-- **A stack is last in, first out**: for every history of calls on a new stack that never holds more than `N` elements
and neither pops nor reads an empty stack, every call is defined and returns what a list used from the front would;
iteration goes from the bottom to the top. -/
theorem stack_history_partial (c : DynArray.Cfg α) (hn : c.nullTerm = false) (buf : List α) (hM : buf.length < c.modulus)
    (ops : List (SOp α)) (hl : Spec.slegal buf.length [] ops) :
    ∃ a, DynArray.construct c buf = .ok a ∧ SOp.run c a ops = .ok (Spec.srun [] ops) := by
  obtain ⟨a0, e1, e2, e3⟩ := DynArray.construct_rep c buf hM (fun h => by rw [hn] at h; cases h)
  refine ⟨a0, e1, ?_⟩
  have key : ∀ (ops : List (SOp α)) (s : List α) (a : DynArray.Arr α), DynArray.Rep c a s.reverse → a.buf.length = buf.length →
      Spec.slegal buf.length s ops → SOp.run c a ops = .ok (Spec.srun s ops) := by
    intro ops
    induction ops with
    | nil => intro s a _ _ _; rfl
    | cons o os ih =>
      intro s a h hb hl
      obtain ⟨a', f1, f2, f3⟩ := stack_step c hn a s h (by rw [hb]; exact hM) o (by rw [hb]; exact hl.1)
      simp only [SOp.run, f1, DynArray.Res.bind_ok, ih _ a' f2 (by rw [f3, hb]) hl.2, Spec.srun]
  exact key ops [] a0 e2 e3 hl

example : Spec.slegal 3 [] ([.empty, .push 1, .push 2, .top, .push 3, .iterate, .pop, .top, .size] : List (SOp Nat)) := by
  simp [Spec.slegal, Spec.sstep]

example : SOp.run DynArray.exVec ⟨[0, 0, 0], 0⟩ [.empty, .push 1, .push 2, .top, .push 3, .iterate, .pop, .top, .size]
    = .ok [.flag true, .none, .none, .value 2, .none, .all [1, 2, 3], .none, .value 2, .count 2] := by decide

/-- **Violation.**  Reading the top of an empty stack is not refused: it reads past the end of the buffer. -/
theorem stack_top_empty (c : DynArray.Cfg α) (hn : c.nullTerm = false) (buf : List α) (hM : buf.length < c.modulus) :
    SOp.step c ⟨buf, 0⟩ .top = .ub := by
  have hm : (0 + c.modulus - 1) % c.modulus = c.modulus - 1 := by rw [Nat.mod_eq_of_lt (by omega)]; omega
  simp only [SOp.step, DynArray.size, hn, Bool.false_eq_true, if_false, DynArray.Res.bind_ok, hm, DynArray.index, rd]
  rw [List.getElem?_eq_none (by show buf.length ≤ _; omega)]
  rfl

/-- **Violation.**  Popping an empty stack is not refused: the stack then says it holds the largest number its size type
can count, for every capacity. -/
theorem stack_pop_empty (c : DynArray.Cfg α) (hn : c.nullTerm = false) (buf : List α) (hM : buf.length < c.modulus) :
    SOp.run c ⟨buf, 0⟩ [.pop, .size, .empty] = .ok [.none, .count (c.modulus - 1), .flag (c.modulus - 1 == 0)] := by
  have hm : (0 + c.modulus - 1) % c.modulus = c.modulus - 1 := by rw [Nat.mod_eq_of_lt (by omega)]; omega
  simp [SOp.run, SOp.step, DynArray.popBack, DynArray.size, DynArray.setSize, hn, hm]

end

end Verif.Arrays
