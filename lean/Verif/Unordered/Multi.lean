import Verif.Unordered.More
import Mathlib.Data.List.Perm.Subperm
/-!
# Several elements under one key

`insert(value, true)` of the unordered map (`src/estd/internal/container/unordered_map.h`,
`src/estd/internal/container/unordered/base.h`) stores an element even when its key is there already.  This file follows such
maps through whole histories of every operation of `Verif.Unordered.Model`, of `insert(value, true)` and of
`equal_range_exp`.

What is left out is the same as in `Verif.Unordered.Model`.  `emplace(piecewise_construct, …, true)` (unordered_map.h:207-223)
stores the same pair as `insert(value, true)`.
-/

namespace Verif.Unordered.Multi
open Verif.Unordered

set_option linter.unusedSectionVars false

variable {K V : Type} [DecidableEq K]

/-! ## The model -/

/-- unordered/base.h:222-241, the probing loop of `insert_precheck` with `permit_duplicates`: line 228 skips the comparison of
keys -/
def probeDup (e : Env K V) (N n : Nat) : Slots K V → Nat → Option Pre
  | [], i =>
    match e.hi with
    | none => none
    | some h => some (if isEmpty e h then .fresh i else .refused)
  | x :: xs, i =>
    if isEmpty e x then some (.fresh i)
    else if index e N x.key ≠ n then some .refused
    else probeDup e N n xs (i + 1)

/-- unordered/base.h:207-242 `insert_precheck(key, true)` -/
def precheckDup (e : Env K V) (s : Slots K V) (k : K) : Option Pre :=
  if k = e.null then some .refused
  else
    let n := index e s.length k
    probeDup e s.length n (s.drop n) n

/-- `insert(value, true)`, unordered_map.h:250-274, 207-223 -/
def add (e : Env K V) (s : Slots K V) (k : K) (v : V) : Option (Slots K V × InsRes) :=
  match precheckDup e s k with
  | none => none
  | some (.fresh i) => if i < s.length then some (s.set i ⟨k, v⟩, (some i, true)) else none
  | some (.dup i) => some (s, (some i, false))
  | some .refused => some (s, (none, false))

/-- unordered/base.h:107-113 `skip_sparse`, called by `cbegin(n)` (552-555): where it stops -/
def rangeFirst (e : Env K V) (n : Nat) : Slots K V → Nat → Option Nat
  | [], i =>
    match e.hi with
    | none => none
    | some _ => some i
  | x :: xs, i => if isSparse e n x then rangeFirst e n xs (i + 1) else some i

/-- the loop of `equal_range_exp`, unordered_map.h:426-428, fused with the local iterator (unordered/base.h:366-395): where it
stops -/
def rangeLast (e : Env K V) (N n : Nat) : Slots K V → Nat → Option Nat
  | [], i =>
    match e.hi with
    | none => none
    | some _ => some i
  | x :: xs, i =>
    if isSparse e n x then rangeLast e N n xs (i + 1)
    else if isEmpty e x then some i
    else if index e N x.key ≠ n then some i
    else rangeLast e N n xs (i + 1)

/-- `equal_range_exp`, unordered_map.h:417-431, and the slots from the first pointer up to the second: the pair holds plain
pointers, so walking from one to the other visits every slot in between -/
def range (e : Env K V) (s : Slots K V) (k : K) : Option (List (K × V)) :=
  let n := index e s.length k
  match rangeFirst e n (s.drop n) n with
  | none => none
  | some a =>
    match rangeLast e s.length n (s.drop n) n with
    | none => none
    | some b => some (((s.drop a).take (b - a)).map fun x => (x.key, x.raw))

/-- the operations -/
inductive MOp (K V : Type) where
  /-- an operation of a map without duplicates -/
  | base (o : Op K V)
  /-- `insert(value, true)` -/
  | add (k : K) (v : V)
  /-- `equal_range_exp(key)` -/
  | range (k : K)

/-- what the caller sees -/
inductive MOut (K V : Type) where
  | base (r : Out V)
  | pairs (l : List (K × V))

/-- one operation; `none` = undefined behaviour.  The operations are those of unordered_map.h:182-431 -/
def step (e : Env K V) (s : Slots K V) : MOp K V → Option (Slots K V × MOut K V)
  | .base o => (Unordered.step e s o).map fun (s', r) => (s', .base r)
  | .add k v =>
    match add e s k v with
    | none => none
    | some (s', r) => (seen s' r).map fun o => (s', .base o)
  | .range k => (range e s k).map fun l => (s, .pairs l)

/-- a history of operations, each a call of a member of unordered_map.h:182-431 -/
def run (e : Env K V) (s : Slots K V) : List (MOp K V) → Option (Slots K V × List (MOut K V))
  | [] => some (s, [])
  | o :: os =>
    match step e s o with
    | none => none
    | some (s', r) => (run e s' os).map fun (t, rs) => (t, r :: rs)

/-! ## What a user expects -/

namespace Spec

/-- no element under `k` -/
def Absent (m : List (K × V)) (k : K) : Prop := ∀ v, (k, v) ∉ m

/-- One operation on a collection of pairs, in which the same key (and even the same pair) may occur several times and the order
means nothing: given the collection before, the operation and what the caller saw, the collection afterwards.  Inserting may be
refused for want of room.  `insert` adds nothing when its key is there, `add` does; `assign` replaces the value of one element
under the key, `erase` removes one. -/
def Step (m : List (K × V)) : MOp K V → MOut K V → List (K × V) → Prop
  | .base (.insert k v), .base (.inserted w), m' => Absent m k ∧ w = v ∧ m'.Perm ((k, v) :: m)
  | .base (.insert k _), .base (.present w), m' => (k, w) ∈ m ∧ m'.Perm m
  | .base (.insert k _), .base .refused, m' => Absent m k ∧ m'.Perm m
  | .base (.assign k v), .base (.inserted w), m' => w = v ∧
      (Absent m k ∧ m'.Perm ((k, v) :: m) ∨ ∃ u l, m.Perm ((k, u) :: l) ∧ m'.Perm ((k, v) :: l))
  | .base (.assign k _), .base .refused, m' => Absent m k ∧ m'.Perm m
  | .base (.sub k), .base (.value (some w)), m' =>
      (k, w) ∈ m ∧ m'.Perm m ∨ Absent m k ∧ m'.Perm ((k, w) :: m)
  | .base (.erase k), .base (.number 1), m' => ∃ w, m.Perm ((k, w) :: m')
  | .base (.erase k), .base (.number 0), m' => Absent m k ∧ m'.Perm m
  | .base .clear, .base .done, m' => m' = []
  | .base (.find k), .base (.value (some w)), m' => (k, w) ∈ m ∧ m'.Perm m
  | .base (.find k), .base (.value none), m' => Absent m k ∧ m'.Perm m
  | .base (.contains k), .base (.truth b), m' => (b = true ↔ ∃ v, (k, v) ∈ m) ∧ m'.Perm m
  | .base (.count k), .base (.number n), m' => n = (m.filter fun x => x.1 = k).length ∧ m'.Perm m
  | .base .size, .base (.number n), m' => n = m.length ∧ m'.Perm m
  | .base .isEmpty, .base (.truth b), m' => (b = true ↔ m = []) ∧ m'.Perm m
  | .add k v, .base (.inserted w), m' => w = v ∧ m'.Perm ((k, v) :: m)
  | .add _ _, .base .refused, m' => m'.Perm m
  | .range k, .pairs l, m' => (l.filter fun x => x.1 = k).Perm (m.filter fun x => x.1 = k) ∧ m'.Perm m
  | _, _, _ => False

/-- a whole history with what was seen -/
def Run : List (K × V) → List (MOp K V) → List (MOut K V) → List (K × V) → Prop
  | m, [], [], m' => m'.Perm m
  | m, o :: os, r :: rs, m' => ∃ m1, Step m o r m1 ∧ Run m1 os rs m'
  | _, _, _, _ => False

end Spec

/-- the elements of a map, in the order of the slots -/
def elems (e : Env K V) (s : Slots K V) : List (K × V) :=
  (s.filter fun x => !isEmpty e x).map fun x => (x.key, x.raw)

/-- `insert(value, true)` would take a slot in front of an element of another bucket that has to be found across that slot -/
def ClobbersDup (e : Env K V) (s : Slots K V) (k : K) : Prop :=
  ∃ i p k' v', precheckDup e s k = some (.fresh i) ∧ At e s p k' v' ∧ i < p ∧
    index e s.length k' ≤ i ∧ index e s.length k' ≠ index e s.length k

/-- The operation does not clobber, an erased element that is not the last of its bucket has a bucket number that fits six bits,
and no range is asked for under the null key. -/
def Clean (e : Env K V) (s : Slots K V) : MOp K V → Prop
  | .base (.erase k) => index e s.length k < 64 ∨ ∀ p, find e s k = some (some p) → LastOfBucket e s p k
  | .base o => Unordered.Clean e s o
  | .add k _ => ¬ ClobbersDup e s k
  | .range k => k ≠ e.null

/-- every operation of the history is clean -/
def CleanRun (e : Env K V) : Slots K V → List (MOp K V) → Prop
  | _, [] => True
  | s, o :: os => Clean e s o ∧ ∀ s' r, step e s o = some (s', r) → CleanRun e s' os

/-! ## Collections and slots -/

theorem perm_set_some {α : Type} (a : α) : ∀ (l : List (Option α)) (p : Nat), l[p]? = some none →
    ((l.set p (some a)).filterMap id).Perm (a :: l.filterMap id) := by
  intro l
  induction l with
  | nil => intro p h; simp at h
  | cons x xs ih =>
    intro p h
    cases p with
    | zero =>
      simp only [List.getElem?_cons_zero, Option.some.injEq] at h
      subst h
      simp
    | succ p =>
      simp only [List.getElem?_cons_succ] at h
      rw [List.set_cons_succ]
      cases x with
      | none => simpa using ih p h
      | some b =>
        simp only [List.filterMap_cons, id_eq]
        exact ((ih p h).cons b).trans (List.Perm.swap a b _)

/-- what a slot holds -/
def occ (e : Env K V) (x : Slot K V) : Option (K × V) := if isEmpty e x then none else some (x.key, x.raw)

theorem elems_eq (e : Env K V) (s : Slots K V) : elems e s = (s.map (occ e)).filterMap id := by
  unfold elems
  induction s with
  | nil => rfl
  | cons x xs ih =>
    by_cases h : isEmpty e x = true
    · simp [h, occ, ih]
    · simp [h, occ, ih]

theorem occ_iff (e : Env K V) (s : Slots K V) (p : Nat) (k : K) (v : V) :
    (s.map (occ e))[p]? = some (some (k, v)) ↔ At e s p k v := by
  rw [List.getElem?_map]
  cases h : s[p]? with
  | none => simp [At, h]
  | some x =>
    simp only [Option.map_some, Option.some.injEq, occ, At, h]
    by_cases hx : isEmpty e x = true
    · have := (isEmpty_iff e x).mp hx
      simp only [hx, if_true]
      constructor
      · intro h; cases h
      · rintro ⟨h1, h2⟩; subst h1; exact absurd this h2
    · have hn := (isEmpty_false e x).mp (by simpa using hx)
      rw [if_neg hx]
      constructor
      · intro h
        injection h with h; injection h with h1 h2
        subst h1; subst h2; exact ⟨rfl, hn⟩
      · rintro ⟨h1, -⟩; subst h1; rfl

theorem mem_elems (e : Env K V) (s : Slots K V) (k : K) (v : V) :
    (k, v) ∈ elems e s ↔ ∃ p, At e s p k v := by
  rw [elems_eq, List.mem_filterMap]
  constructor
  · rintro ⟨a, h1, h2⟩
    simp only [id_eq] at h2
    subst h2
    obtain ⟨p, hp⟩ := List.mem_iff_getElem?.mp h1
    exact ⟨p, (occ_iff e s p k v).mp hp⟩
  · rintro ⟨p, hp⟩
    exact ⟨_, List.mem_iff_getElem?.mpr ⟨p, (occ_iff e s p k v).mpr hp⟩, rfl⟩

/-- filling a slot that held nothing -/
theorem elems_fill {e : Env K V} {s s' : Slots K V} {p : Nat} {k : K} {v : V} (hlen : s'.length = s.length)
    (hp : At e s' p k v) (hno : ∀ k' v', ¬ At e s p k' v')
    (hat : ∀ q k' v', q ≠ p → (At e s' q k' v' ↔ At e s q k' v')) :
    (elems e s').Perm ((k, v) :: elems e s) := by
  have hpl := get_lt hp.1
  have heq : s'.map (occ e) = (s.map (occ e)).set p (some (k, v)) := by
    apply List.ext_getElem?
    intro q
    by_cases hq : q = p
    · subst hq
      rw [List.getElem?_set_self (by simpa [← hlen] using hpl)]
      exact (occ_iff e s' q k v).mpr hp
    · rw [List.getElem?_set_ne (fun h => hq h.symm)]
      by_cases hql : q < s.length
      · have h1 : q < (s'.map (occ e)).length := by simp; omega
        have h2 : q < (s.map (occ e)).length := by simp; omega
        rw [List.getElem?_eq_getElem h1, List.getElem?_eq_getElem h2]
        congr 1
        rcases hh : (s'.map (occ e))[q] with _ | ⟨k', v'⟩
        · rcases hg : (s.map (occ e))[q] with _ | ⟨k', v'⟩
          · rfl
          · exfalso
            have := (occ_iff e s q k' v').mp (by rw [List.getElem?_eq_getElem h2, hg])
            have := (occ_iff e s' q k' v').mpr ((hat q k' v' hq).mpr this)
            rw [List.getElem?_eq_getElem h1, hh] at this
            cases this
        · have := (occ_iff e s' q k' v').mp (by rw [List.getElem?_eq_getElem h1, hh])
          have := (occ_iff e s q k' v').mpr ((hat q k' v' hq).mp this)
          rw [List.getElem?_eq_getElem h2] at this
          injection this with this
          exact this.symm
      · rw [List.getElem?_eq_none (by simp; omega), List.getElem?_eq_none (by simp; omega)]
  rw [elems_eq, elems_eq, heq]
  apply perm_set_some
  have h2 : p < (s.map (occ e)).length := by simp; omega
  rw [List.getElem?_eq_getElem h2]
  congr 1
  rcases hg : (s.map (occ e))[p] with _ | ⟨k', v'⟩
  · rfl
  · exact absurd ((occ_iff e s p k' v').mp (by rw [List.getElem?_eq_getElem h2, hg])) (hno k' v')

/-! ## The loops -/

/-- where the probing loop with duplicates ends -/
theorem probeDup_cases (e : Env K V) (N n : Nat) (s : Slots K V) :
    ∀ (l : Slots K V) (i : Nat), i ≤ s.length → s.drop i = l →
    ∃ j, i ≤ j ∧ j ≤ s.length ∧
      (∀ q, i ≤ q → q < j → ∃ y, s[q]? = some y ∧ y.key ≠ e.null ∧ index e N y.key = n) ∧
      ((j = s.length ∧ probeDup e N n l i = e.hi.map fun h => if h.key = e.null then .fresh j else .refused) ∨
       (∃ y, s[j]? = some y ∧ y.key = e.null ∧ probeDup e N n l i = some (.fresh j)) ∨
       (∃ y, s[j]? = some y ∧ y.key ≠ e.null ∧ index e N y.key ≠ n ∧ probeDup e N n l i = some .refused)) := by
  intro l
  induction l with
  | nil =>
    intro i hi hl
    have hil : i = s.length := by
      have := List.drop_eq_nil_iff.mp hl
      omega
    refine ⟨i, Nat.le_refl _, hi, fun q h1 h2 => by omega, Or.inl ⟨hil, ?_⟩⟩
    rw [probeDup]
    cases e.hi with
    | none => rfl
    | some h => simp [isEmpty]
  | cons x xs ih =>
    intro i hi hl
    obtain ⟨hx, hxs⟩ := drop_cons hl
    have hlt := get_lt hx
    by_cases h1 : x.key = e.null
    · refine ⟨i, Nat.le_refl _, hi, fun q h1 h2 => by omega, Or.inr (Or.inl ⟨x, hx, h1, ?_⟩)⟩
      rw [probeDup, if_pos (by simp [isEmpty, h1])]
    by_cases h2 : index e N x.key = n
    · obtain ⟨j, hj1, hj2, hj3, hj4⟩ := ih (i + 1) (by omega) hxs
      have hp : probeDup e N n (x :: xs) i = probeDup e N n xs (i + 1) := by
        rw [probeDup, if_neg (by simp [isEmpty, h1]), if_neg (by simp [h2])]
      rw [hp]
      refine ⟨j, by omega, hj2, ?_, hj4⟩
      intro q hq1 hq2
      by_cases hq : q = i
      · subst hq; exact ⟨x, hx, h1, h2⟩
      · exact hj3 q (by omega) hq2
    · refine ⟨i, Nat.le_refl _, hi, fun q h1 h2 => by omega, Or.inr (Or.inr ⟨x, hx, h1, h2, ?_⟩)⟩
      rw [probeDup, if_neg (by simp [isEmpty, h1]), if_pos h2]

/-- everything `insert_precheck(key, true)` can answer -/
theorem precheckDup_cases (e : Env K V) (s : Slots K V) (k : K) (hs : 0 < s.length) (hk : k ≠ e.null) :
    ∃ j, index e s.length k ≤ j ∧ j ≤ s.length ∧
      (∀ q, index e s.length k ≤ q → q < j → ∃ y, s[q]? = some y ∧ y.key ≠ e.null ∧
        index e s.length y.key = index e s.length k) ∧
      ((j = s.length ∧ precheckDup e s k = e.hi.map fun h => if h.key = e.null then .fresh j else .refused) ∨
       (∃ y, s[j]? = some y ∧ y.key = e.null ∧ precheckDup e s k = some (.fresh j)) ∨
       (∃ y, s[j]? = some y ∧ y.key ≠ e.null ∧ index e s.length y.key ≠ index e s.length k ∧
          precheckDup e s k = some .refused)) := by
  have := probeDup_cases e s.length (index e s.length k) s _ _ (Nat.le_of_lt (index_lt e hs k)) rfl
  unfold precheckDup
  rw [if_neg hk]
  exact this

/-- filling a free slot of the bucket's row -/
theorem placed_fill {e : Env K V} {s : Slots K V} (hI : Placed e s) {k : K} {v : V} {j : Nat}
    (hk : k ≠ e.null) (hj : j < s.length) (h1 : index e s.length k ≤ j)
    (h3 : ∀ q, index e s.length k ≤ q → q < j → ∃ y, s[q]? = some y ∧ y.key ≠ e.null ∧
        index e s.length y.key = index e s.length k)
    (hc : ∀ p k' v', At e s p k' v' → j < p → index e s.length k' ≤ j → index e s.length k' = index e s.length k) :
    Placed e (s.set j ⟨k, v⟩) := by
  have hkey : ∀ k' v', At e (s.set j ⟨k, v⟩) j k' v' → k' = k := by
    intro k' v' hp
    have := hp.1.symm.trans (at_set_self (e := e) (v := v) hj hk).1
    injection this with this; injection this
  refine ⟨?_, ?_⟩
  · intro p k' v' hp
    rw [List.length_set]
    by_cases hpj : p = j
    · subst hpj; rw [hkey k' v' hp]; exact h1
    · rw [at_set_ne hpj] at hp; exact hI.home p k' v' hp
  · intro p k' v' hp q hq1 hq2
    rw [List.length_set] at hq1 ⊢
    by_cases hpj : p = j
    · subst hpj
      rw [hkey k' v' hp] at hq1 ⊢
      obtain ⟨z, hz, hz1, hz2⟩ := h3 q hq1 hq2
      exact ⟨z, by rw [List.getElem?_set_ne (by omega)]; exact hz, Or.inl ⟨hz1, hz2⟩⟩
    · rw [at_set_ne hpj] at hp
      by_cases hqj : q = j
      · subst hqj
        have := hc p k' v' hp hq2 hq1
        exact ⟨⟨k, v⟩, by rw [List.getElem?_set_self hj], Or.inl ⟨hk, this.symm⟩⟩
      · obtain ⟨z, hz, hz1⟩ := hI.path p k' v' hp q hq1 hq2
        exact ⟨z, by rw [List.getElem?_set_ne (by omega)]; exact hz, hz1⟩

theorem fill_elems {e : Env K V} {s : Slots K V} {k : K} {v : V} {j : Nat} {y : Slot K V}
    (hk : k ≠ e.null) (hy : s[j]? = some y) (hn : y.key = e.null) :
    (elems e (s.set j ⟨k, v⟩)).Perm ((k, v) :: elems e s) := by
  refine elems_fill List.length_set (at_set_self (get_lt hy) hk) ?_ (fun q k' v' hq => at_set_ne hq)
  intro k' v' h
  have := h.key_eq hy
  subst this; exact h.2 hn

theorem find_some {e : Env K V} {s : Slots K V} (hs : 0 < s.length) {k : K} {p : Nat}
    (h : find e s k = some (some p)) : ∃ v, At e s p k v := find_sound e s k hs p h

/-- what a lookup that finds nothing tells -/
theorem find_none {e : Env K V} {s : Slots K V} (hI : Placed e s) (hs : 0 < s.length) {k : K}
    (h : find e s k = some none) : ∀ p v, ¬ At e s p k v := by
  intro p v hat
  obtain ⟨j, h1, h2, h3, h4⟩ := find_cases e s k hs hat.2
  have hjp : j ≤ p := by
    rcases Nat.lt_or_ge p j with hlt | hge
    · exfalso
      obtain ⟨y, hy, hp⟩ := h3 p (hI.home p k v hat) hlt
      rw [hat.1] at hy; injection hy with hy; subst hy
      rcases hp with hp | ⟨-, -, hp⟩
      · exact hat.2 ((isSparse_iff e _ _).mp hp).1
      · exact hp rfl
    · exact hge
  have hpl : p < s.length := get_lt hat.1
  rcases h4 with ⟨h4, -⟩ | ⟨y, hy, hn, hsp, -⟩ | ⟨y, hy, hn, hne, -⟩ | ⟨y, hy, hyk, hf⟩
  · omega
  · by_cases hj : j = p
    · subst hj; rw [hat.1] at hy; injection hy with hy; subst hy; exact hat.2 hn
    · obtain ⟨z, hz, hz2⟩ := hI.path p k v hat j h1 (by omega)
      rw [hy] at hz; injection hz with hz; subst hz
      rcases hz2 with ⟨hz2, -⟩ | hz2
      · exact hz2 hn
      · rw [hsp] at hz2; cases hz2
  · by_cases hj : j = p
    · subst hj; rw [hat.1] at hy; injection hy with hy; subst hy; exact hne rfl
    · obtain ⟨z, hz, hz2⟩ := hI.path p k v hat j h1 (by omega)
      rw [hy] at hz; injection hz with hz; subst hz
      rcases hz2 with ⟨-, hz2⟩ | hz2
      · exact hne hz2
      · exact hn ((isSparse_iff e _ _).mp hz2).1
  · rw [h] at hf; injection hf with hf; cases hf

theorem absent_iff {e : Env K V} {s : Slots K V} {k : K} :
    Spec.Absent (elems e s) k ↔ ∀ p v, ¬ At e s p k v := by
  unfold Spec.Absent
  constructor
  · intro h p v hp; exact h v ((mem_elems e s k v).mpr ⟨p, hp⟩)
  · intro h v hv
    obtain ⟨p, hp⟩ := (mem_elems e s k v).mp hv
    exact h p v hp

/-- the part of the array up to `b` holds all elements of bucket `n`, which begin no earlier than `n` -/
theorem rangeLast_spec {e : Env K V} {s : Slots K V} (n : Nat) :
    ∀ (l : Slots K V) (i b : Nat), s.drop i = l → i ≤ s.length → rangeLast e s.length n l i = some b →
      i ≤ b ∧ b ≤ s.length ∧
      (∀ q, i ≤ q → q < b → ∃ y, s[q]? = some y ∧ (isSparse e n y = true ∨ y.key ≠ e.null ∧ index e s.length y.key = n)) ∧
      (b = s.length ∨ ∃ y, s[b]? = some y ∧ isSparse e n y = false ∧ (y.key = e.null ∨ index e s.length y.key ≠ n)) := by
  intro l
  induction l with
  | nil =>
    intro i b hl hi h
    have hil : i = s.length := by
      have := List.drop_eq_nil_iff.mp hl
      omega
    rw [rangeLast] at h
    cases hh : e.hi with
    | none => rw [hh] at h; cases h
    | some x =>
      rw [hh] at h; injection h with h; subst h
      exact ⟨Nat.le_refl _, hi, fun q h1 h2 => by omega, Or.inl hil⟩
  | cons x xs ih =>
    intro i b hl hi h
    obtain ⟨hx, hxs⟩ := drop_cons hl
    have hlt := get_lt hx
    rw [rangeLast] at h
    have go : rangeLast e s.length n xs (i + 1) = some b →
        (isSparse e n x = true ∨ x.key ≠ e.null ∧ index e s.length x.key = n) → i ≤ b ∧ b ≤ s.length ∧
        (∀ q, i ≤ q → q < b → ∃ y, s[q]? = some y ∧ (isSparse e n y = true ∨ y.key ≠ e.null ∧ index e s.length y.key = n)) ∧
        (b = s.length ∨ ∃ y, s[b]? = some y ∧ isSparse e n y = false ∧ (y.key = e.null ∨ index e s.length y.key ≠ n)) := by
      intro h' hx'
      obtain ⟨a1, a2, a3, a4⟩ := ih (i + 1) b hxs (by omega) h'
      refine ⟨by omega, a2, ?_, a4⟩
      intro q hq1 hq2
      by_cases hq : q = i
      · subst hq; exact ⟨x, hx, hx'⟩
      · exact a3 q (by omega) hq2
    by_cases h1 : isSparse e n x = true
    · rw [if_pos h1] at h; exact go h (Or.inl h1)
    · rw [if_neg h1] at h
      have h1' : isSparse e n x = false := by simpa using h1
      by_cases h2 : x.key = e.null
      · rw [if_pos (by simp [isEmpty, h2])] at h
        injection h with h; subst h
        exact ⟨Nat.le_refl _, hi, fun q h1 h2 => by omega, Or.inr ⟨x, hx, h1', Or.inl h2⟩⟩
      · rw [if_neg (by simp [isEmpty, h2])] at h
        by_cases h3 : index e s.length x.key = n
        · rw [if_neg (by simp [h3])] at h; exact go h (Or.inr ⟨h2, h3⟩)
        · rw [if_pos h3] at h
          injection h with h; subst h
          exact ⟨Nat.le_refl _, hi, fun q h1 h2 => by omega, Or.inr ⟨x, hx, h1', Or.inr h3⟩⟩

theorem rangeFirst_spec {e : Env K V} {s : Slots K V} (n : Nat) :
    ∀ (l : Slots K V) (i a : Nat), s.drop i = l → i ≤ s.length → rangeFirst e n l i = some a →
      i ≤ a ∧ a ≤ s.length ∧ (∀ q, i ≤ q → q < a → ∃ y, s[q]? = some y ∧ isSparse e n y = true) := by
  intro l
  induction l with
  | nil =>
    intro i a hl hi h
    rw [rangeFirst] at h
    cases hh : e.hi with
    | none => rw [hh] at h; cases h
    | some x =>
      rw [hh] at h; injection h with h; subst h
      exact ⟨Nat.le_refl _, hi, fun q h1 h2 => by omega⟩
  | cons x xs ih =>
    intro i a hl hi h
    obtain ⟨hx, hxs⟩ := drop_cons hl
    have hlt := get_lt hx
    rw [rangeFirst] at h
    by_cases h1 : isSparse e n x = true
    · rw [if_pos h1] at h
      obtain ⟨a1, a2, a3⟩ := ih (i + 1) a hxs (by omega) h
      refine ⟨by omega, a2, ?_⟩
      intro q hq1 hq2
      by_cases hq : q = i
      · subst hq; exact ⟨x, hx, h1⟩
      · exact a3 q (by omega) hq2
    · rw [if_neg h1] at h; injection h with h; subst h
      exact ⟨Nat.le_refl _, hi, fun q h1 h2 => by omega⟩

theorem filter_elems (e : Env K V) (s : Slots K V) {k : K} (hk : k ≠ e.null) :
    (elems e s).filter (fun x => x.1 = k) = (s.filter fun x => x.key = k).map fun x => (x.key, x.raw) := by
  unfold elems
  induction s with
  | nil => rfl
  | cons x xs ih =>
    by_cases h1 : x.key = k
    · have : isEmpty e x = false := by rw [isEmpty_false, h1]; exact hk
      simp [this, h1, ih]
    · by_cases h2 : isEmpty e x = true
      · simp [h1, h2, ih]
      · simp [h1, h2, ih]

theorem filter_map_pairs (l : Slots K V) (k : K) :
    (l.map fun x => (x.key, x.raw)).filter (fun x => x.1 = k) =
      (l.filter fun x => x.key = k).map fun x => (x.key, x.raw) := by
  induction l with
  | nil => rfl
  | cons x xs ih =>
    by_cases h1 : x.key = k
    · simp [h1, ih]
    · simp [h1, ih]

/-- nothing under `k` between two places when no slot there holds `k` -/
theorem filter_nil (l : Slots K V) (k : K) (h : ∀ (i : Nat) (x : Slot K V), l[i]? = some x → x.key ≠ k) :
    (l.filter fun x : Slot K V => decide (x.key = k)) = [] := by
  rw [List.filter_eq_nil_iff]
  intro x hx
  obtain ⟨i, hi⟩ := List.mem_iff_getElem?.mp hx
  simpa using h i x hi

/-- `equal_range_exp`: the elements under the key, in order -/
theorem range_filter {e : Env K V} {s : Slots K V} (hI : Placed e s) (hs : 0 < s.length) {k : K} (hk : k ≠ e.null)
    {l : List (K × V)} (h : range e s k = some l) :
    l.filter (fun x => x.1 = k) = (elems e s).filter (fun x => x.1 = k) := by
  have hn := index_lt e hs k
  unfold range at h
  simp only at h
  cases ha : rangeFirst e (index e s.length k) (s.drop (index e s.length k)) (index e s.length k) with
  | none => rw [ha] at h; cases h
  | some a =>
    rw [ha] at h
    simp only at h
    cases hb : rangeLast e s.length (index e s.length k) (s.drop (index e s.length k)) (index e s.length k) with
    | none => rw [hb] at h; cases h
    | some b =>
      rw [hb] at h
      injection h with h
      obtain ⟨a1, a2, a3⟩ := rangeFirst_spec _ _ _ a rfl (Nat.le_of_lt hn) ha
      obtain ⟨b1, b2, b3, b4⟩ := rangeLast_spec _ _ _ b rfl (Nat.le_of_lt hn) hb
      have hab : a ≤ b := by
        rcases Nat.lt_or_ge b a with hlt | hge
        · exfalso
          rcases b4 with b4 | ⟨y, hy, hy1, -⟩
          · omega
          · obtain ⟨z, hz, hz1⟩ := a3 b b1 hlt
            rw [hy] at hz; injection hz with hz; subst hz
            rw [hy1] at hz1; cases hz1
        · exact hge
      subst h
      rw [filter_map_pairs, filter_elems e s hk]
      congr 1
      have hsplit : s = s.take a ++ ((s.drop a).take (b - a) ++ s.drop b) := by
        have h1 : s.drop b = (s.drop a).drop (b - a) := by
          rw [List.drop_drop]; congr 1; omega
        rw [h1, List.take_append_drop, List.take_append_drop]
      have hf : (s.filter fun x => decide (x.key = k)) = ((s.take a ++ ((s.drop a).take (b - a) ++ s.drop b)).filter
          fun x => decide (x.key = k)) := congrArg _ hsplit
      rw [hf, List.filter_append, List.filter_append]
      have hA : ((s.take a).filter fun x => decide (x.key = k)) = [] := by
        apply filter_nil
        intro i x hx hxk
        have hia : i < a := by
          have := get_lt hx
          rw [List.length_take] at this; omega
        rw [List.getElem?_take_of_lt hia] at hx
        have hat : At e s i k x.raw := ⟨by rw [hx, ← hxk], hk⟩
        have hh := hI.home i k x.raw hat
        obtain ⟨y, hy, hy1⟩ := a3 i hh hia
        rw [hx] at hy; injection hy with hy; subst hy
        exact hk (hxk ▸ ((isSparse_iff e _ _).mp hy1).1)
      have hB : ((s.drop b).filter fun x => decide (x.key = k)) = [] := by
        apply filter_nil
        intro i x hx hxk
        rw [List.getElem?_drop] at hx
        have hat : At e s (b + i) k x.raw := ⟨by rw [hx, ← hxk], hk⟩
        have hlt := get_lt hx
        rcases b4 with b4 | ⟨y, hy, hy1, hy2⟩
        · omega
        · by_cases hi : i = 0
          · subst hi
            rw [Nat.add_zero] at hx hat
            have := hat.key_eq hy
            subst this
            rcases hy2 with hy2 | hy2
            · exact hk hy2
            · exact hy2 rfl
          · obtain ⟨z, hz, hz1⟩ := hI.path _ _ _ hat b b1 (by omega)
            rw [hy] at hz; injection hz with hz; subst hz
            rcases hz1 with ⟨c1, c2⟩ | hz1
            · rcases hy2 with hy2 | hy2
              · exact c1 hy2
              · exact hy2 c2
            · rw [hy1] at hz1; cases hz1
      rw [hA, hB, List.nil_append, List.append_nil]

theorem positions_length {α : Type} (P : α → Bool) : ∀ (s : List α),
    ((List.range s.length).filter fun i => (s[i]?).any P).length = (s.filter P).length := by
  intro s
  induction s with
  | nil => rfl
  | cons x xs ih =>
    rw [List.length_cons, List.range_succ_eq_map, List.filter_cons, List.filter_map, List.filter_cons]
    have : ((fun i => ((x :: xs)[i]?).any P) ∘ Nat.succ) = fun i => (xs[i]?).any P := by
      funext i; simp
    rw [this]
    by_cases h : P x = true
    · simp [h, ih]
    · simp [h, ih]

/-- `count` -/
theorem count_elems {e : Env K V} {s : Slots K V} (hI : Placed e s) {k : K} {n : Nat}
    (h : count e s k = some n) : n = ((elems e s).filter fun x => x.1 = k).length := by
  unfold count at h
  simp only at h
  cases hb : bucketScan e s.length (index e s.length k) (s.drop (index e s.length k))
      (index e s.length k) with
  | none => rw [hb] at h; cases h
  | some l =>
    rw [hb] at h
    simp only [Option.map_some] at h
    injection h with h
    obtain ⟨hnd, hmem⟩ := bucketScan_spec hI _ _ _ l (Nat.le_refl _) rfl hb
    have hf : ∀ p, p ∈ l.filter (fun i => (s[i]?).any fun x => k = x.key) ↔ ∃ v, At e s p k v := by
      intro p
      rw [List.mem_filter, hmem]
      constructor
      · rintro ⟨⟨-, k', v, hp, -⟩, h2⟩
        rw [hp.1] at h2
        simp only [Option.any_some, decide_eq_true_eq] at h2
        subst h2; exact ⟨v, hp⟩
      · rintro ⟨v, hp⟩
        refine ⟨⟨hI.home p k v hp, k, v, hp, rfl⟩, ?_⟩
        rw [hp.1]; simp
    have hnd' := hnd.filter (fun i => (s[i]?).any fun x => k = x.key)
    by_cases hk : k = e.null
    · have h1 : l.filter (fun i => (s[i]?).any fun x => k = x.key) = [] := by
        rw [List.eq_nil_iff_forall_not_mem]
        intro p hp
        obtain ⟨v, hv⟩ := (hf p).mp hp
        exact hv.2 hk
      have h2 : (elems e s).filter (fun x => decide (x.1 = k)) = [] := by
        rw [List.filter_eq_nil_iff]
        rintro ⟨k', v'⟩ hx
        obtain ⟨p, hp⟩ := (mem_elems e s k' v').mp hx
        have : k' ≠ k := by rw [hk]; exact hp.2
        simpa using this
      rw [← h, h1, h2]; rfl
    have hperm : (l.filter (fun i => (s[i]?).any fun x => k = x.key)).Perm
        ((List.range s.length).filter fun i => (s[i]?).any fun x => k = x.key) := by
      rw [List.perm_ext_iff_of_nodup hnd' (List.nodup_range.filter _)]
      intro p
      rw [hf, List.mem_filter, List.mem_range]
      constructor
      · rintro ⟨v, hp⟩
        exact ⟨get_lt hp.1, by rw [hp.1]; simp⟩
      · rintro ⟨hlt, h2⟩
        rw [List.getElem?_eq_getElem hlt] at h2
        simp only [Option.any_some, decide_eq_true_eq] at h2
        exact ⟨(s[p]).raw, by rw [List.getElem?_eq_getElem hlt, h2], hk⟩
    rw [← h, hperm.length_eq, positions_length, filter_elems e s hk, List.length_map]
    congr 2
    funext x
    by_cases hx : x.key = k
    · simp [hx]
    · have : ¬ k = x.key := fun h => hx h.symm
      simp [hx, this]

/-! ## Inserting -/

/-- what `insert_precheck(key, false)` answers in a table that may hold duplicates -/
theorem precheck_ok {e : Env K V} {s : Slots K V} (hI : Placed e s) (hs : 0 < s.length) {k : K} (hc : ¬ Clobbers e s k)
    {r : Pre} (h : precheck e s k = some r) :
    (∃ i, r = .fresh i ∧ (i < s.length → k ≠ e.null ∧ Spec.Absent (elems e s) k ∧ (∃ y, s[i]? = some y ∧ y.key = e.null) ∧
        ∀ v, Placed e (s.set i ⟨k, v⟩) ∧ (elems e (s.set i ⟨k, v⟩)).Perm ((k, v) :: elems e s))) ∨
    (∃ i v, r = .dup i ∧ At e s i k v) ∨
    (r = .refused ∧ Spec.Absent (elems e s) k) := by
  by_cases hk : k = e.null
  · right; right
    rw [precheck, if_pos hk] at h
    injection h with h
    refine ⟨h.symm, ?_⟩
    rw [absent_iff]
    intro p v hp; exact hp.2 hk
  · obtain ⟨j, h1, h2, h3, h4⟩ := precheck_cases e s k hs hk
    -- an element under the key is not in the row that was walked over
    have hrow : ∀ p v, At e s p k v → j ≤ p := by
      intro p v hp
      rcases Nat.lt_or_ge p j with hlt | hge
      · exfalso
        obtain ⟨z, hz, -, -, hz2⟩ := h3 p (hI.home p k v hp) hlt
        have := hp.key_eq hz
        subst this; exact hz2 rfl
      · exact hge
    rcases h4 with ⟨h4, h5⟩ | ⟨y, hy, hn, h5⟩ | ⟨y, hy, hn, hne, h5⟩ | ⟨y, hy, hyk, h5⟩
    · rw [h] at h5
      have habs : Spec.Absent (elems e s) k := by
        rw [absent_iff]
        intro p v hp
        have := hrow p v hp
        have := get_lt hp.1
        omega
      cases hh : e.hi with
      | none => rw [hh] at h5; cases h5
      | some x =>
        rw [hh] at h5
        simp only [Option.map_some, Option.some.injEq] at h5
        by_cases hx : x.key = e.null
        · rw [if_pos hx] at h5
          left; exact ⟨j, h5, fun h => by omega⟩
        · rw [if_neg hx] at h5
          right; right; exact ⟨h5, habs⟩
    · rw [h] at h5
      injection h5 with h5
      left
      refine ⟨j, h5, fun hj => ⟨hk, ?_, ⟨y, hy, hn⟩, fun v => ⟨?_, fill_elems hk hy hn⟩⟩⟩
      · rw [absent_iff]
        intro p v hp
        by_cases hpj : p = j
        · subst hpj
          have := hp.key_eq hy
          subst this; exact hk hn
        · exact hc ⟨j, p, k, v, by rw [h, h5], hp, by have := hrow p v hp; omega, h1, Or.inr rfl⟩
      · apply placed_fill hI hk hj h1
        · intro q hq1 hq2
          obtain ⟨z, hz, hz1, hz2, -⟩ := h3 q hq1 hq2
          exact ⟨z, hz, hz1, hz2⟩
        · intro p k' v' hp hjp hle
          by_cases hkk : index e s.length k' = index e s.length k
          · exact hkk
          · exact absurd ⟨j, p, k', v', by rw [h, h5], hp, hjp, hle, Or.inl hkk⟩ hc
    · rw [h] at h5
      injection h5 with h5
      right; right
      refine ⟨h5, ?_⟩
      rw [absent_iff]
      intro p v hp
      have hjp := hrow p v hp
      by_cases hpj : p = j
      · subst hpj
        have := hp.key_eq hy
        subst this; exact hne rfl
      · obtain ⟨z, hz, hz1⟩ := hI.path p k v hp j h1 (by omega)
        rw [hy] at hz; injection hz with hz; subst hz
        rcases hz1 with ⟨-, c⟩ | c
        · exact hne c
        · exact hn ((isSparse_iff e _ _).mp c).1
    · rw [h] at h5
      injection h5 with h5
      right; left
      exact ⟨j, y.raw, h5, by rw [hy, ← hyk], hk⟩

/-- `insert(value)` -/
theorem insert_ok {e : Env K V} {s s' : Slots K V} (hI : Placed e s) (hs : 0 < s.length) {k : K} {v : V}
    (hc : ¬ Clobbers e s k) {r : InsRes} (h : insert e s k v = some (s', r)) :
    Placed e s' ∧ s'.length = s.length ∧
    ((seen s' r = some (.inserted v) ∧ Spec.Absent (elems e s) k ∧ (elems e s').Perm ((k, v) :: elems e s)) ∨
     (∃ w, seen s' r = some (.present w) ∧ (k, w) ∈ elems e s ∧ s' = s) ∨
     (seen s' r = some .refused ∧ Spec.Absent (elems e s) k ∧ s' = s)) := by
  unfold insert at h
  cases hp : precheck e s k with
  | none => rw [hp] at h; cases h
  | some pr =>
    rw [hp] at h
    rcases precheck_ok hI hs hc hp with ⟨i, rfl, hi⟩ | ⟨i, w, rfl, hat⟩ | ⟨rfl, habs⟩
    · simp only at h
      by_cases hlt : i < s.length
      · rw [if_pos hlt] at h
        injection h with h; injection h with h1 h2
        subst h1; subst h2
        obtain ⟨hk, habs, -, hset⟩ := hi hlt
        exact ⟨(hset v).1, List.length_set, Or.inl ⟨seen_inserted (at_set_self hlt hk), habs, (hset v).2⟩⟩
      · rw [if_neg hlt] at h; cases h
    · simp only at h
      injection h with h; injection h with h1 h2
      subst h1; subst h2
      exact ⟨hI, rfl, Or.inr (Or.inl ⟨w, seen_present hat, (mem_elems e s k w).mpr ⟨i, hat⟩, rfl⟩)⟩
    · simp only at h
      injection h with h; injection h with h1 h2
      subst h1; subst h2
      exact ⟨hI, rfl, Or.inr (Or.inr ⟨rfl, habs, rfl⟩)⟩

/-- `insert(value, true)` -/
theorem add_ok {e : Env K V} {s s' : Slots K V} (hI : Placed e s) (hs : 0 < s.length) {k : K} {v : V}
    (hc : ¬ ClobbersDup e s k) {r : InsRes} (h : add e s k v = some (s', r)) :
    Placed e s' ∧ s'.length = s.length ∧
    ((seen s' r = some (.inserted v) ∧ (elems e s').Perm ((k, v) :: elems e s)) ∨
     (seen s' r = some .refused ∧ s' = s)) := by
  unfold add at h
  by_cases hk : k = e.null
  · rw [precheckDup, if_pos hk] at h
    injection h with h; injection h with h1 h2
    subst h1; subst h2
    exact ⟨hI, rfl, Or.inr ⟨rfl, rfl⟩⟩
  · obtain ⟨j, h1, h2, h3, h4⟩ := precheckDup_cases e s k hs hk
    rcases h4 with ⟨h4, h5⟩ | ⟨y, hy, hn, h5⟩ | ⟨y, hy, hn, hne, h5⟩
    · rw [h5] at h
      cases hh : e.hi with
      | none => rw [hh] at h; cases h
      | some x =>
        rw [hh] at h
        simp only [Option.map_some] at h
        by_cases hx : x.key = e.null
        · rw [if_pos hx] at h
          simp only at h
          rw [if_neg (by omega)] at h; cases h
        · rw [if_neg hx] at h
          injection h with h; injection h with h1 h2
          subst h1; subst h2
          exact ⟨hI, rfl, Or.inr ⟨rfl, rfl⟩⟩
    · have hlt := get_lt hy
      rw [h5] at h
      simp only [hlt, if_true] at h
      injection h with h; injection h with g1 g2
      subst g1; subst g2
      refine ⟨placed_fill hI hk hlt h1 h3 ?_, List.length_set,
        Or.inl ⟨seen_inserted (at_set_self hlt hk), fill_elems hk hy hn⟩⟩
      intro p k' v' hp hjp hle
      by_cases hkk : index e s.length k' = index e s.length k
      · exact hkk
      · exact absurd ⟨j, p, k', v', h5, hp, hjp, hle, hkk⟩ hc
    · rw [h5] at h
      injection h with h; injection h with h1 h2
      subst h1; subst h2
      exact ⟨hI, rfl, Or.inr ⟨rfl, rfl⟩⟩

/-- the slots after changing the value of an element -/
theorem assign_placed {e : Env K V} {s : Slots K V} (hI : Placed e s) {k : K} {u v : V} {i : Nat} (hat : At e s i k u) :
    Placed e (s.set i ⟨k, v⟩) ∧
      ∃ l, (elems e s).Perm ((k, u) :: l) ∧ (elems e (s.set i ⟨k, v⟩)).Perm ((k, v) :: l) := by
  have hlt := get_lt hat.1
  have hself : At e (s.set i ⟨k, v⟩) i k v := at_set_self hlt hat.2
  have hkey : ∀ k' v', At e (s.set i ⟨k, v⟩) i k' v' → k' = k := by
    intro k' v' hp
    have := hp.1.symm.trans hself.1
    injection this with this; injection this
  refine ⟨⟨?_, ?_⟩, elems e (s.set i ⟨e.null, u⟩), ?_, ?_⟩
  · intro p k' v' hp
    rw [List.length_set]
    by_cases hpj : p = i
    · subst hpj; rw [hkey k' v' hp]; exact hI.home p k u hat
    · rw [at_set_ne hpj] at hp; exact hI.home p k' v' hp
  · intro p k' v' hp q hq1 hq2
    rw [List.length_set] at hq1 ⊢
    have : ∃ w, At e s p k' w := by
      by_cases hpj : p = i
      · subst hpj; rw [hkey k' v' hp]; exact ⟨u, hat⟩
      · rw [at_set_ne hpj] at hp; exact ⟨v', hp⟩
    obtain ⟨w, hw⟩ := this
    obtain ⟨z, hz, hz1⟩ := hI.path p k' w hw q hq1 hq2
    by_cases hqi : q = i
    · subst hqi
      have := hat.key_eq hz
      subst this
      refine ⟨⟨k, v⟩, by rw [List.getElem?_set_self hlt], ?_⟩
      rcases hz1 with hz1 | hz1
      · exact Or.inl hz1
      · exact absurd ((isSparse_iff e _ _).mp hz1).1 hat.2
    · exact ⟨z, by rw [List.getElem?_set_ne (by omega)]; exact hz, hz1⟩
  · refine elems_fill (by rw [List.length_set]) hat ?_ (fun q k' v' hq => (at_set_ne hq).symm)
    intro k' v' h
    have := h.key_eq (List.getElem?_set_self hlt)
    injection this with h1; exact h.2 h1.symm
  · refine elems_fill (by rw [List.length_set, List.length_set]) hself ?_
      (fun q k' v' hq => (at_set_ne hq).trans (at_set_ne hq).symm)
    intro k' v' h
    have := h.key_eq (List.getElem?_set_self hlt)
    injection this with h1; exact h.2 h1.symm

theorem empty_elems (e : Env K V) (s : Slots K V) : empty e s = true ↔ elems e s = [] := by
  unfold empty elems
  rw [List.map_eq_nil_iff, List.filter_eq_nil_iff, List.all_eq_true]
  simp

theorem size_elems (e : Env K V) (s : Slots K V) : size e s = (elems e s).length := by
  unfold size elems; rw [List.length_map]

theorem clear_elems (e : Env K V) (s : Slots K V) : elems e (clear e s) = [] := by
  rw [← empty_elems]
  unfold empty clear
  simp [List.all_eq_true, isEmpty, destruct]

/-! ## Whole histories -/

/-- every clean operation does what the collection says -/
theorem step_ok {e : Env K V} (hl : e.lay.Lawful) {s s' : Slots K V} (hI : Placed e s) (hs : 0 < s.length) {o : MOp K V}
    {r : MOut K V} (hc : Clean e s o) (h : step e s o = some (s', r)) :
    Spec.Step (elems e s) o r (elems e s') ∧ Placed e s' ∧ s'.length = s.length := by
  cases o with
  | add k v =>
    simp only [step] at h
    cases ha : add e s k v with
    | none => rw [ha] at h; cases h
    | some pr =>
      obtain ⟨s1, r1⟩ := pr
      rw [ha] at h
      simp only at h
      obtain ⟨h1, h2, h3⟩ := add_ok hI hs hc ha
      rcases h3 with ⟨h3, h4⟩ | ⟨h3, h4⟩
      · rw [h3] at h
        injection h with h; injection h with g1 g2
        subst g1; subst g2
        exact ⟨⟨rfl, h4⟩, h1, h2⟩
      · rw [h3] at h
        injection h with h; injection h with g1 g2
        subst g1; subst g2; subst h4
        exact ⟨List.Perm.refl _, h1, h2⟩
  | range k =>
    simp only [step] at h
    cases ha : range e s k with
    | none => rw [ha] at h; cases h
    | some l =>
      rw [ha] at h
      injection h with h; injection h with g1 g2
      subst g1; subst g2
      exact ⟨⟨by rw [range_filter hI hs hc ha], List.Perm.refl _⟩, hI, rfl⟩
  | base o =>
    simp only [step] at h
    cases ho : Unordered.step e s o with
    | none => rw [ho] at h; cases h
    | some pr =>
      obtain ⟨s1, r1⟩ := pr
      rw [ho] at h
      simp only [Option.map_some] at h
      injection h with h; injection h with g1 g2
      subst g1; subst g2
      cases o with
      | insert k v =>
        simp only [Unordered.step] at ho
        cases hi : insert e s k v with
        | none => rw [hi] at ho; cases ho
        | some pr =>
          obtain ⟨s2, r2⟩ := pr
          rw [hi] at ho
          simp only at ho
          obtain ⟨h1, h2, h3⟩ := insert_ok hI hs hc hi
          rcases h3 with ⟨h3, h4, h5⟩ | ⟨w, h3, h4, h5⟩ | ⟨h3, h4, h5⟩
          all_goals
            rw [h3] at ho
            injection ho with ho; injection ho with g1 g2
            subst g1; subst g2
          · exact ⟨⟨h4, rfl, h5⟩, h1, h2⟩
          · subst h5; exact ⟨⟨h4, List.Perm.refl _⟩, h1, h2⟩
          · subst h5; exact ⟨⟨h4, List.Perm.refl _⟩, h1, h2⟩
      | assign k v =>
        simp only [Unordered.step] at ho
        cases hi : insertOrAssign e s k v with
        | none => rw [hi] at ho; cases ho
        | some pr =>
          obtain ⟨s2, r2⟩ := pr
          rw [hi] at ho
          simp only at ho
          unfold insertOrAssign at hi
          cases hf : find e s k with
          | none => rw [hf] at hi; cases hi
          | some fr =>
            rw [hf] at hi
            cases fr with
            | none =>
              simp only at hi
              have habs := absent_iff.mpr (find_none hI hs hf)
              obtain ⟨h1, h2, h3⟩ := insert_ok hI hs (hc hf) hi
              rcases h3 with ⟨h3, h4, h5⟩ | ⟨w, h3, h4, h5⟩ | ⟨h3, h4, h5⟩
              · rw [h3] at ho
                injection ho with ho; injection ho with g1 g2
                subst g1; subst g2
                exact ⟨⟨rfl, Or.inl ⟨h4, h5⟩⟩, h1, h2⟩
              · exact absurd h4 (habs w)
              · rw [h3] at ho
                injection ho with ho; injection ho with g1 g2
                subst g1; subst g2; subst h5
                exact ⟨⟨h4, List.Perm.refl _⟩, h1, h2⟩
            | some p =>
              obtain ⟨u, hat⟩ := find_some hs hf
              simp only [hat.1] at hi
              injection hi with hi; injection hi with g1 g2
              subst g1; subst g2
              have hlt := get_lt hat.1
              rw [seen_inserted (at_set_self (v := v) hlt hat.2)] at ho
              injection ho with ho; injection ho with g1 g2
              subst g1; subst g2
              obtain ⟨h1, l, h2, h3⟩ := assign_placed (v := v) hI hat
              exact ⟨⟨rfl, Or.inr ⟨u, l, h2, h3⟩⟩, h1, List.length_set⟩
      | sub k =>
        simp only [Unordered.step] at ho
        cases hi : subscript e s k with
        | none => rw [hi] at ho; cases ho
        | some pr =>
          obtain ⟨s2, i2⟩ := pr
          rw [hi] at ho
          simp only at ho
          unfold subscript at hi
          cases hf : find e s k with
          | none => rw [hf] at hi; cases hi
          | some fr =>
            rw [hf] at hi
            cases fr with
            | none =>
              simp only at hi
              have habs := absent_iff.mpr (find_none hI hs hf)
              cases hp : precheck e s k with
              | none => rw [hp] at hi; cases hi
              | some pr =>
                rw [hp] at hi
                rcases precheck_ok hI hs (hc hf) hp with ⟨i, rfl, hfr⟩ | ⟨i, w, rfl, hat⟩ | ⟨rfl, -⟩
                · simp only at hi
                  cases hx : s[i]? with
                  | none => rw [hx] at hi; cases hi
                  | some x =>
                    rw [hx] at hi
                    injection hi with hi; injection hi with g1 g2
                    subst g1; subst g2
                    have hlt := get_lt hx
                    obtain ⟨hk, -, -, hset⟩ := hfr hlt
                    rw [rawAt_eq (at_set_self (v := x.raw) hlt hk)] at ho
                    injection ho with ho; injection ho with g1 g2
                    subst g1; subst g2
                    exact ⟨Or.inr ⟨habs, (hset x.raw).2⟩, (hset x.raw).1, List.length_set⟩
                · exact absurd ((mem_elems e s k w).mpr ⟨i, hat⟩) (habs w)
                · simp only at hi; cases hi
            | some p =>
              obtain ⟨u, hat⟩ := find_some hs hf
              simp only at hi
              injection hi with hi; injection hi with g1 g2
              subst g1; subst g2
              rw [rawAt_eq hat] at ho
              injection ho with ho; injection ho with g1 g2
              subst g1; subst g2
              exact ⟨Or.inl ⟨(mem_elems e s k u).mpr ⟨p, hat⟩, List.Perm.refl _⟩, hI, rfl⟩
      | erase k =>
        simp only [Unordered.step] at ho
        cases hi : erase e s k with
        | none => rw [hi] at ho; cases ho
        | some pr =>
          obtain ⟨s2, n2⟩ := pr
          rw [hi] at ho
          simp only [Option.map_some] at ho
          injection ho with ho; injection ho with g1 g2
          subst g1; subst g2
          unfold erase at hi
          cases hf : find e s k with
          | none => rw [hf] at hi; cases hi
          | some fr =>
            rw [hf] at hi
            cases fr with
            | none =>
              simp only at hi
              injection hi with hi; injection hi with g1 g2
              subst g1; subst g2
              exact ⟨⟨absent_iff.mpr (find_none hI hs hf), List.Perm.refl _⟩, hI, rfl⟩
            | some p =>
              obtain ⟨u, hat⟩ := find_some hs hf
              simp only at hi
              cases he : eraseAt e s p (index e s.length k) with
              | none => rw [he] at hi; cases hi
              | some s3 =>
                rw [he] at hi
                simp only [Option.map_some] at hi
                injection hi with hi; injection hi with g1 g2
                subst g1; subst g2
                have h64 : index e s.length k < 64 ∨ LastOfBucket e s p k := by
                  rcases hc with hc | hc
                  · exact Or.inl hc
                  · exact Or.inr (hc p hf)
                obtain ⟨h1, h2, h3⟩ := eraseAt_placed hl hI hat h64 he
                refine ⟨⟨u, elems_fill h1.symm hat ?_ ?_⟩, h2, h1⟩
                · intro k' v' hp; exact ((h3 p k' v').mp hp).2 rfl
                · intro q k' v' hq
                  rw [h3]; simp [hq]
      | clear =>
        simp only [Unordered.step] at ho
        injection ho with ho; injection ho with g1 g2
        subst g1; subst g2
        exact ⟨clear_elems e s, (dense_of_none (clear_none e s)).inv.placed, by simp [clear]⟩
      | find k =>
        simp only [Unordered.step, lookup] at ho
        cases hf : find e s k with
        | none => rw [hf] at ho; cases ho
        | some fr =>
          rw [hf] at ho
          cases fr with
          | none =>
            simp only [Option.map_some, Option.bind_none] at ho
            injection ho with ho; injection ho with g1 g2
            subst g1; subst g2
            exact ⟨⟨absent_iff.mpr (find_none hI hs hf), List.Perm.refl _⟩, hI, rfl⟩
          | some p =>
            obtain ⟨u, hat⟩ := find_some hs hf
            simp only [Option.map_some, Option.bind_some, hat.1] at ho
            injection ho with ho; injection ho with g1 g2
            subst g1; subst g2
            exact ⟨⟨(mem_elems e s k u).mpr ⟨p, hat⟩, List.Perm.refl _⟩, hI, rfl⟩
      | contains k =>
        simp only [Unordered.step, contains] at ho
        cases hf : find e s k with
        | none => rw [hf] at ho; cases ho
        | some fr =>
          rw [hf] at ho
          simp only [Option.map_some] at ho
          injection ho with ho; injection ho with g1 g2
          subst g1; subst g2
          refine ⟨⟨?_, List.Perm.refl _⟩, hI, rfl⟩
          cases fr with
          | none =>
            have := absent_iff.mpr (find_none hI hs hf)
            simp only [Option.isSome_none, Bool.false_eq_true, false_iff]
            rintro ⟨v, hv⟩; exact this v hv
          | some p =>
            obtain ⟨u, hat⟩ := find_some hs hf
            simp only [Option.isSome_some, true_iff]
            exact ⟨u, (mem_elems e s k u).mpr ⟨p, hat⟩⟩
      | count k =>
        simp only [Unordered.step] at ho
        cases hf : count e s k with
        | none => rw [hf] at ho; cases ho
        | some n =>
          rw [hf] at ho
          simp only [Option.map_some] at ho
          injection ho with ho; injection ho with g1 g2
          subst g1; subst g2
          exact ⟨⟨count_elems hI hf, List.Perm.refl _⟩, hI, rfl⟩
      | size =>
        simp only [Unordered.step] at ho
        injection ho with ho; injection ho with g1 g2
        subst g1; subst g2
        exact ⟨⟨size_elems e s, List.Perm.refl _⟩, hI, rfl⟩
      | isEmpty =>
        simp only [Unordered.step] at ho
        injection ho with ho; injection ho with g1 g2
        subst g1; subst g2
        exact ⟨⟨empty_elems e s, List.Perm.refl _⟩, hI, rfl⟩

theorem run_ok {e : Env K V} (hl : e.lay.Lawful) : ∀ (ops : List (MOp K V)) (s s' : Slots K V) (outs : List (MOut K V)),
    Placed e s → 0 < s.length → CleanRun e s ops → run e s ops = some (s', outs) →
    Spec.Run (elems e s) ops outs (elems e s') ∧ Placed e s' ∧ s'.length = s.length := by
  intro ops
  induction ops with
  | nil =>
    intro s s' outs hI _ _ h
    rw [run] at h
    injection h with h; injection h with h1 h2
    subst h1; subst h2
    exact ⟨List.Perm.refl _, hI, rfl⟩
  | cons o os ih =>
    intro s s' outs hI hs hc h
    rw [run] at h
    cases hst : step e s o with
    | none => rw [hst] at h; cases h
    | some pr =>
      obtain ⟨s1, r⟩ := pr
      rw [hst] at h
      simp only at h
      cases hr : run e s1 os with
      | none => rw [hr] at h; cases h
      | some pr2 =>
        obtain ⟨s2, rs⟩ := pr2
        rw [hr] at h
        simp only [Option.map_some] at h
        injection h with h; injection h with h1 h2
        subst h1; subst h2
        obtain ⟨h1, h2, h3⟩ := step_ok hl hI hs hc.1 hst
        obtain ⟨g1, g2, g3⟩ := ih s1 s2 rs h2 (by omega) (hc.2 s1 r hst) hr
        exact ⟨⟨elems e s1, h1, g1⟩, g2, by omega⟩

/-- C104, for every hash function, layout, array size and history of any operations, whenever the history has no undefined
behaviour and no operation clobbers or loses a mark (see `add_clobber_miscounts` and C22): what the caller sees is what a
collection of pairs shows, in which a key may occur several times. -/
theorem multi_history_partial (e : Env K V) (hl : e.lay.Lawful) (raws : List V) (h0 : 0 < raws.length)
    (ops : List (MOp K V)) (s : Slots K V) (outs : List (MOut K V)) (hc : CleanRun e (init e raws) ops)
    (h : run e (init e raws) ops = some (s, outs)) :
    ∃ m, Spec.Run [] ops outs m ∧ m.Perm (elems e s) := by
  have hI : Placed e (init e raws) := (dense_of_none (init_none e raws)).inv.placed
  have he : elems e (init e raws) = [] := by
    rw [List.eq_nil_iff_forall_not_mem]
    rintro ⟨k, v⟩ hx
    obtain ⟨p, hp⟩ := (mem_elems e _ k v).mp hx
    exact init_none e raws p k v hp
  obtain ⟨h1, -, -⟩ := run_ok hl ops _ s outs hI (by simpa [init] using h0) hc h
  rw [he] at h1
  exact ⟨_, h1, List.Perm.refl _⟩

/-! ## Without erasures: the order of insertion -/

/-- no marks between an element and its home -/
structure DenseP (e : Env K V) (s : Slots K V) : Prop where
  home : ∀ p k v, At e s p k v → index e s.length k ≤ p
  path : ∀ p k v, At e s p k v → ∀ q, index e s.length k ≤ q → q < p →
    ∃ y, s[q]? = some y ∧ y.key ≠ e.null ∧ index e s.length y.key = index e s.length k

theorem DenseP.placed {e : Env K V} {s : Slots K V} (h : DenseP e s) : Placed e s :=
  ⟨h.home, fun p k v hp q h1 h2 => let ⟨y, a, b, c⟩ := h.path p k v hp q h1 h2; ⟨y, a, Or.inl ⟨b, c⟩⟩⟩

namespace Spec

/-- the elements that were inserted, in order, according to what the caller was told -/
def accepted : List (K × V) → List (MOut K V) → List (K × V)
  | x :: xs, .base (.inserted _) :: rs => x :: accepted xs rs
  | _ :: xs, _ :: rs => accepted xs rs
  | _, _ => []

end Spec

/-- the elements under a key, before and after a free slot was filled behind all of them -/
theorem filter_fill {e : Env K V} {s : Slots K V} (hD : DenseP e s) {k : K} {v : V} {j : Nat} {y : Slot K V}
    (hk : k ≠ e.null) (hy : s[j]? = some y) (hn : y.key = e.null) (h1 : index e s.length k ≤ j) {k' : K} (hk' : k' ≠ e.null) :
    (elems e (s.set j ⟨k, v⟩)).filter (fun x => x.1 = k') =
      (elems e s).filter (fun x => x.1 = k') ++ if k = k' then [(k, v)] else [] := by
  have hlt := get_lt hy
  rw [filter_elems e _ hk', filter_elems e _ hk']
  have hs : s = s.take j ++ y :: s.drop (j + 1) := by
    rw [← drop_of_get hy, List.take_append_drop]
  have hset : s.set j ⟨k, v⟩ = s.take j ++ ⟨k, v⟩ :: s.drop (j + 1) := List.set_eq_take_append_cons_drop .. |>.trans (if_pos hlt)
  have hyk : ¬ y.key = k' := fun h => hk' (h ▸ hn)
  by_cases hkk : k = k'
  · subst hkk
    have hB : ((s.drop (j + 1)).filter fun x => decide (x.key = k)) = [] := by
      apply filter_nil
      intro i x hx hxk
      rw [List.getElem?_drop] at hx
      have hat : At e s (j + 1 + i) k x.raw := ⟨by rw [hx, ← hxk], hk⟩
      obtain ⟨z, hz, hz1, -⟩ := hD.path _ _ _ hat j h1 (by omega)
      rw [hy] at hz; injection hz with hz; subst hz; exact hz1 hn
    have hfs := congrArg (List.filter fun x : Slot K V => decide (x.key = k)) hs
    rw [hset, hfs]
    simp [List.filter_append, List.filter_cons, hyk, hB]
  · have hfs := congrArg (List.filter fun x : Slot K V => decide (x.key = k')) hs
    rw [hset, if_neg hkk, List.append_nil, hfs]
    simp [List.filter_append, List.filter_cons, hyk, hkk]

/-- filling the free slot behind a row of the bucket -/
theorem dense_fill {e : Env K V} {s : Slots K V} (hD : DenseP e s) {k : K} {v : V} {j : Nat} {y : Slot K V}
    (hk : k ≠ e.null) (hy : s[j]? = some y) (hn : y.key = e.null) (h1 : index e s.length k ≤ j)
    (h3 : ∀ q, index e s.length k ≤ q → q < j → ∃ y, s[q]? = some y ∧ y.key ≠ e.null ∧
        index e s.length y.key = index e s.length k) : DenseP e (s.set j ⟨k, v⟩) := by
  have hlt := get_lt hy
  have hP : Placed e (s.set j ⟨k, v⟩) := by
    refine placed_fill hD.placed hk hlt h1 h3 ?_
    intro p k' v' hp hjp hle
    obtain ⟨z, hz, hz1, -⟩ := hD.path p k' v' hp j hle hjp
    rw [hy] at hz; injection hz with hz; subst hz; exact absurd hn hz1
  refine ⟨hP.home, ?_⟩
  intro p k' v' hp q hq1 hq2
  rw [List.length_set] at hq1 ⊢
  by_cases hpj : p = j
  · subst hpj
    have hkk : k' = k := by
      have := hp.1.symm.trans (at_set_self (e := e) (v := v) hlt hk).1
      injection this with this; injection this
    subst hkk
    obtain ⟨z, hz, hz1, hz2⟩ := h3 q hq1 hq2
    exact ⟨z, by rw [List.getElem?_set_ne (by omega)]; exact hz, hz1, hz2⟩
  · rw [at_set_ne hpj] at hp
    obtain ⟨z, hz, hz1, hz2⟩ := hD.path p k' v' hp q hq1 hq2
    by_cases hqj : q = j
    · subst hqj
      rw [hy] at hz; injection hz with hz; subst hz; exact absurd hn hz1
    · exact ⟨z, by rw [List.getElem?_set_ne (fun h => hqj h.symm)]; exact hz, hz1, hz2⟩

/-- one `insert(value, true)` in a table without marks -/
theorem add_dense {e : Env K V} {s s' : Slots K V} (hD : DenseP e s) (hs : 0 < s.length) {k : K} {v : V} {r : MOut K V}
    (h : step e s (.add k v) = some (s', r)) :
    DenseP e s' ∧ s'.length = s.length ∧
    ((r = .base (.inserted v) ∧ k ≠ e.null ∧ ∀ k', k' ≠ e.null → (elems e s').filter (fun x => x.1 = k') =
      (elems e s).filter (fun x => x.1 = k') ++ if k = k' then [(k, v)] else []) ∨ (r = .base .refused ∧ s' = s)) := by
  simp only [step, add] at h
  by_cases hk : k = e.null
  · rw [precheckDup, if_pos hk] at h
    simp only [seen, Option.map_some] at h
    injection h with h; injection h with g1 g2
    subst g1; subst g2
    exact ⟨hD, rfl, Or.inr ⟨rfl, rfl⟩⟩
  · obtain ⟨j, h1, h2, h3, h4⟩ := precheckDup_cases e s k hs hk
    rcases h4 with ⟨h4, h5⟩ | ⟨y, hy, hn, h5⟩ | ⟨y, hy, hn, hne, h5⟩
    · rw [h5] at h
      cases hh : e.hi with
      | none => rw [hh] at h; cases h
      | some x =>
        rw [hh] at h
        simp only [Option.map_some] at h
        by_cases hx : x.key = e.null
        · rw [if_pos hx] at h
          simp only at h
          rw [if_neg (by omega)] at h; cases h
        · rw [if_neg hx] at h
          simp only [seen, Option.map_some] at h
          injection h with h; injection h with g1 g2
          subst g1; subst g2
          exact ⟨hD, rfl, Or.inr ⟨rfl, rfl⟩⟩
    · have hlt := get_lt hy
      rw [h5] at h
      simp only [hlt, if_true] at h
      rw [seen_inserted (at_set_self (v := v) hlt hk)] at h
      injection h with h; injection h with g1 g2
      subst g1; subst g2
      exact ⟨dense_fill hD hk hy hn h1 h3, List.length_set,
        Or.inl ⟨rfl, hk, fun k' hk' => filter_fill hD hk hy hn h1 hk'⟩⟩
    · rw [h5] at h
      simp only [seen, Option.map_some] at h
      injection h with h; injection h with g1 g2
      subst g1; subst g2
      exact ⟨hD, rfl, Or.inr ⟨rfl, rfl⟩⟩

theorem adds_dense {e : Env K V} : ∀ (kvs : List (K × V)) (s s' : Slots K V) (outs : List (MOut K V)), DenseP e s → 0 < s.length →
    run e s (kvs.map fun x => .add x.1 x.2) = some (s', outs) → DenseP e s' ∧ s'.length = s.length ∧
    ∀ k, k ≠ e.null → (elems e s').filter (fun x => x.1 = k) =
      (elems e s).filter (fun x => x.1 = k) ++ (Spec.accepted kvs outs).filter (fun x => x.1 = k) := by
  intro kvs
  induction kvs with
  | nil =>
    intro s s' outs hD _ h
    simp only [List.map_nil, run] at h
    injection h with h; injection h with g1 g2
    subst g1; subst g2
    exact ⟨hD, rfl, fun k _ => by simp [Spec.accepted]⟩
  | cons x xs ih =>
    intro s s' outs hD hs h
    obtain ⟨k0, v0⟩ := x
    simp only [List.map_cons, run] at h
    cases hst : step e s (.add k0 v0) with
    | none => rw [hst] at h; cases h
    | some pr =>
      obtain ⟨s1, r⟩ := pr
      rw [hst] at h
      simp only at h
      cases hr : run e s1 (xs.map fun x => .add x.1 x.2) with
      | none => rw [hr] at h; cases h
      | some pr2 =>
        obtain ⟨s2, rs⟩ := pr2
        rw [hr] at h
        simp only [Option.map_some] at h
        injection h with h; injection h with g1 g2
        subst g1; subst g2
        obtain ⟨h1, h2, h3⟩ := add_dense hD hs hst
        obtain ⟨g1, g2, g3⟩ := ih s1 s2 rs h1 (by omega) hr
        refine ⟨g1, by omega, fun k hk => ?_⟩
        rcases h3 with ⟨rfl, -, h4⟩ | ⟨rfl, rfl⟩
        · rw [g3 k hk, h4 k hk, List.append_assoc]
          congr 1
          by_cases hkk : k0 = k
          · simp [Spec.accepted, hkk]
          · simp [Spec.accepted, hkk]
        · rw [g3 k hk]; rfl

/-- C104: when nothing has been erased, the elements under a key stand in the order in which they were inserted, none lost and
none invented, for every history of `insert(value, true)` and with no condition on hash values. -/
theorem add_order (e : Env K V) (raws : List V) (h0 : 0 < raws.length) (kvs : List (K × V)) (s : Slots K V)
    (outs : List (MOut K V)) (h : run e (init e raws) (kvs.map fun x => .add x.1 x.2) = some (s, outs)) (k : K)
    (hk : k ≠ e.null) :
    (elems e s).filter (fun x => x.1 = k) = (Spec.accepted kvs outs).filter (fun x => x.1 = k) := by
  have hD : DenseP e (init e raws) :=
    ⟨fun p k v hp => absurd hp (init_none e raws p k v), fun p k v hp => absurd hp (init_none e raws p k v)⟩
  have he : elems e (init e raws) = [] := by
    rw [List.eq_nil_iff_forall_not_mem]
    rintro ⟨k, v⟩ hx
    obtain ⟨p, hp⟩ := (mem_elems e _ k v).mp hx
    exact init_none e raws p k v hp
  have := (adds_dense kvs _ s outs hD (by simpa [init] using h0) h).2.2 k hk
  rw [he] at this
  simpa using this

/-- the lookup finds the first of them -/
theorem lookup_first {e : Env K V} {s : Slots K V} (hI : Placed e s) (hs : 0 < s.length) {k : K} (hk : k ≠ e.null)
    {r : Option V} (h : lookup e s k = some r) : r = (((elems e s).filter fun x => x.1 = k).head?).map (·.2) := by
  unfold lookup at h
  cases hf : find e s k with
  | none => rw [hf] at h; cases h
  | some fr =>
    rw [hf] at h
    simp only [Option.map_some] at h
    injection h with h
    cases fr with
    | none =>
      have habs := absent_iff.mpr (find_none hI hs hf)
      have : (elems e s).filter (fun x => decide (x.1 = k)) = [] := by
        rw [List.filter_eq_nil_iff]
        rintro ⟨k', v'⟩ hx hd
        simp only [decide_eq_true_eq] at hd
        subst hd; exact habs v' hx
      rw [← h, this]; rfl
    | some p =>
      obtain ⟨j, h1, h2, h3, h4⟩ := find_cases e s k hs hk
      have hjp : ∃ y, s[p]? = some y ∧ y.key = k ∧ ∀ q, index e s.length k ≤ q → q < p →
          ∃ y, s[q]? = some y ∧ Passable e s.length (index e s.length k) k y := by
        rcases h4 with ⟨-, h4⟩ | ⟨y, -, -, -, h4⟩ | ⟨y, -, -, -, h4⟩ | ⟨y, hy, hyk, h4⟩
        · rw [h4] at hf; cases hh : e.hi <;> rw [hh] at hf <;> cases hf
        · rw [h4] at hf; cases hf
        · rw [h4] at hf; cases hf
        · rw [h4] at hf
          injection hf with hf; injection hf with hf
          subst hf; exact ⟨y, hy, hyk, h3⟩
      obtain ⟨y, hy, hyk, h3'⟩ := hjp
      rw [filter_elems e s hk]
      have hs' : s = s.take p ++ y :: s.drop (p + 1) := by
        rw [← drop_of_get hy, List.take_append_drop]
      have hA : ((s.take p).filter fun x => decide (x.key = k)) = [] := by
        apply filter_nil
        intro i x hx hxk
        have hip : i < p := by
          have := get_lt hx
          rw [List.length_take] at this; omega
        rw [List.getElem?_take_of_lt hip] at hx
        have hat : At e s i k x.raw := ⟨by rw [hx, ← hxk], hk⟩
        obtain ⟨z, hz, hz1⟩ := h3' i (hI.home i k x.raw hat) hip
        have := hat.key_eq hz
        subst this
        rcases hz1 with hz1 | ⟨-, -, hz1⟩
        · exact hk ((isSparse_iff e _ _).mp hz1).1
        · exact hz1 rfl
      have hfs := congrArg (List.filter fun x : Slot K V => decide (x.key = k)) hs'
      rw [← h, hfs]
      simp [List.filter_append, hA, hyk, hy]

/-- C104: of several elements under one key, `find` shows the one inserted first, as long as nothing was erased. -/
theorem find_first_added (e : Env K V) (raws : List V) (h0 : 0 < raws.length) (kvs : List (K × V)) (s : Slots K V)
    (outs : List (MOut K V)) (h : run e (init e raws) (kvs.map fun x => .add x.1 x.2) = some (s, outs)) (k : K)
    (hk : k ≠ e.null) (r : Option V) (hf : lookup e s k = some r) :
    r = (((Spec.accepted kvs outs).filter fun x => x.1 = k).head?).map (·.2) := by
  have hD : DenseP e (init e raws) :=
    ⟨fun p k v hp => absurd hp (init_none e raws p k v), fun p k v hp => absurd hp (init_none e raws p k v)⟩
  obtain ⟨g1, g2, -⟩ := adds_dense kvs _ s outs hD (by simpa [init] using h0) h
  have hs : 0 < s.length := by rw [g2]; simpa [init] using h0
  rw [lookup_first g1.placed hs hk hf, add_order e raws h0 kvs s outs h k hk]

/-- C104: exactly when `insert(value, true)` refuses: the row of elements of the key's bucket runs into an element of another
bucket, or into the end of the array with memory behind it that does not look like an empty slot. -/
theorem add_refused_iff (e : Env K V) (s : Slots K V) (hs : 0 < s.length) (k : K) (v : V) (hk : k ≠ e.null) :
    add e s k v = some (s, (none, false)) ↔
      ∃ j, index e s.length k ≤ j ∧ j ≤ s.length ∧
        (∀ q, index e s.length k ≤ q → q < j → ∃ k' v', At e s q k' v' ∧ index e s.length k' = index e s.length k) ∧
        ((∃ k' v', At e s j k' v' ∧ index e s.length k' ≠ index e s.length k) ∨
         (j = s.length ∧ ∃ h, e.hi = some h ∧ h.key ≠ e.null)) := by
  obtain ⟨j, h1, h2, h3, h4⟩ := precheckDup_cases e s k hs hk
  constructor
  · intro h
    refine ⟨j, h1, h2, ?_, ?_⟩
    · intro q hq1 hq2
      obtain ⟨y, hy, hy1, hy2⟩ := h3 q hq1 hq2
      exact ⟨y.key, y.raw, ⟨hy, hy1⟩, hy2⟩
    · unfold add at h
      rcases h4 with ⟨h4, h5⟩ | ⟨y, hy, hn, h5⟩ | ⟨y, hy, hn, hne, h5⟩
      · right
        refine ⟨h4, ?_⟩
        rw [h5] at h
        cases hh : e.hi with
        | none => rw [hh] at h; cases h
        | some x =>
          rw [hh] at h
          simp only [Option.map_some] at h
          refine ⟨x, rfl, ?_⟩
          intro hx
          rw [if_pos hx] at h
          simp only at h
          rw [if_neg (by omega)] at h
          cases h
      · rw [h5] at h
        simp only at h
        rw [if_pos (get_lt hy)] at h
        injection h with h; injection h with h h'; injection h' with h'; cases h'
      · left; exact ⟨y.key, y.raw, ⟨hy, hn⟩, hne⟩
  · rintro ⟨j', g1, g2, g3, g4⟩
    have hjj : j = j' := by
      rcases Nat.lt_trichotomy j j' with hlt | heq | hgt
      · exfalso
        obtain ⟨k', v', hz, hz2⟩ := g3 j h1 hlt
        have := get_lt hz.1
        rcases h4 with ⟨h4, h5⟩ | ⟨y, hy, hn, h5⟩ | ⟨y, hy, hn, hne, h5⟩
        · omega
        · have := hz.key_eq hy; subst this; exact hz.2 hn
        · have := hz.key_eq hy; subst this; exact hne hz2
      · exact heq
      · exfalso
        obtain ⟨z, hz, hz1, hz2⟩ := h3 j' g1 hgt
        have := get_lt hz
        rcases g4 with ⟨k', v', hat, hne⟩ | ⟨h, -⟩
        · have := hat.key_eq hz
          subst this; exact hne hz2
        · omega
    subst hjj
    unfold add
    rcases h4 with ⟨h4, h5⟩ | ⟨y, hy, hn, h5⟩ | ⟨y, hy, hn, hne, h5⟩
    · rcases g4 with ⟨k', v', hat, hne⟩ | ⟨-, x, hx, hxn⟩
      · have := get_lt hat.1; omega
      · rw [h5, hx]; simp [hxn]
    · rcases g4 with ⟨k', v', hat, hne⟩ | ⟨h, -⟩
      · have := hat.key_eq hy; subst this; exact absurd hn hat.2
      · have := get_lt hy; omega
    · rw [h5]

/-! ## Without erasures: every history -/

/-- no insertion clobbers in a table without marks -/
theorem dense_no_clobber {e : Env K V} {s : Slots K V} (hD : DenseP e s) (k : K) (i : Nat)
    (hi : ∃ y, s[i]? = some y ∧ y.key = e.null) : ∀ p k' v', At e s p k' v' → i < p → ¬ index e s.length k' ≤ i := by
  intro p k' v' hp hip hle
  obtain ⟨y, hy, hn⟩ := hi
  obtain ⟨z, hz, hz1, -⟩ := hD.path p k' v' hp i hle hip
  rw [hy] at hz; injection hz with hz; subst hz; exact hz1 hn

theorem dense_clobbers {e : Env K V} {s : Slots K V} (hD : DenseP e s) (hs : 0 < s.length) (k : K) : ¬ Clobbers e s k := by
  rintro ⟨i, p, k', v', hpre, hp, hip, hle, -⟩
  have hk : k ≠ e.null := by
    intro h; rw [precheck, if_pos h] at hpre; cases hpre
  have hpl := get_lt hp.1
  obtain ⟨j, h1, h2, h3, h4⟩ := precheck_cases e s k hs hk
  refine dense_no_clobber hD k i ?_ p k' v' hp hip hle
  rcases h4 with ⟨h4, h5⟩ | ⟨y, hy, hn, h5⟩ | ⟨y, -, -, -, h5⟩ | ⟨y, -, -, h5⟩
  · rw [hpre] at h5
    cases hh : e.hi with
    | none => rw [hh] at h5; cases h5
    | some h =>
      rw [hh] at h5
      simp only [Option.map_some] at h5
      injection h5 with h5
      split at h5
      · injection h5 with h5; omega
      · cases h5
  · rw [hpre] at h5; injection h5 with h5; injection h5 with h5
    subst h5; exact ⟨y, hy, hn⟩
  · rw [hpre] at h5; cases h5
  · rw [hpre] at h5; injection h5 with h5; cases h5

theorem dense_clobbersDup {e : Env K V} {s : Slots K V} (hD : DenseP e s) (hs : 0 < s.length) (k : K) :
    ¬ ClobbersDup e s k := by
  rintro ⟨i, p, k', v', hpre, hp, hip, hle, -⟩
  have hk : k ≠ e.null := by
    intro h; rw [precheckDup, if_pos h] at hpre; cases hpre
  have hpl := get_lt hp.1
  obtain ⟨j, h1, h2, h3, h4⟩ := precheckDup_cases e s k hs hk
  refine dense_no_clobber hD k i ?_ p k' v' hp hip hle
  rcases h4 with ⟨h4, h5⟩ | ⟨y, hy, hn, h5⟩ | ⟨y, -, -, -, h5⟩
  · rw [hpre] at h5
    cases hh : e.hi with
    | none => rw [hh] at h5; cases h5
    | some h =>
      rw [hh] at h5
      simp only [Option.map_some] at h5
      injection h5 with h5
      split at h5
      · injection h5 with h5; omega
      · cases h5
  · rw [hpre] at h5; injection h5 with h5; injection h5 with h5
    subst h5; exact ⟨y, hy, hn⟩
  · rw [hpre] at h5; cases h5

/-- where `insert_precheck(key, false)` sends a new element -/
theorem precheck_row {e : Env K V} {s : Slots K V} (hs : 0 < s.length) {k : K} {i : Nat}
    (hpre : precheck e s k = some (.fresh i)) (hi : i < s.length) :
    k ≠ e.null ∧ index e s.length k ≤ i ∧ (∃ y, s[i]? = some y ∧ y.key = e.null) ∧
    (∀ q, index e s.length k ≤ q → q < i → ∃ y, s[q]? = some y ∧ y.key ≠ e.null ∧
        index e s.length y.key = index e s.length k) := by
  have hk : k ≠ e.null := by
    intro h; rw [precheck, if_pos h] at hpre; cases hpre
  obtain ⟨j, h1, h2, h3, h4⟩ := precheck_cases e s k hs hk
  rcases h4 with ⟨h4, h5⟩ | ⟨y, hy, hn, h5⟩ | ⟨y, -, -, -, h5⟩ | ⟨y, -, -, h5⟩
  · rw [hpre] at h5
    cases hh : e.hi with
    | none => rw [hh] at h5; cases h5
    | some h =>
      rw [hh] at h5
      simp only [Option.map_some] at h5
      injection h5 with h5
      split at h5
      · injection h5 with h5; omega
      · cases h5
  · rw [hpre] at h5; injection h5 with h5; injection h5 with h5
    subst h5
    exact ⟨hk, h1, ⟨y, hy, hn⟩, fun q a b => let ⟨z, c1, c2, c3, _⟩ := h3 q a b; ⟨z, c1, c2, c3⟩⟩
  · rw [hpre] at h5; cases h5
  · rw [hpre] at h5; injection h5 with h5; cases h5

theorem insert_dense {e : Env K V} {s s' : Slots K V} (hD : DenseP e s) (hs : 0 < s.length) {k : K} {v : V} {r : InsRes}
    (h : insert e s k v = some (s', r)) : DenseP e s' := by
  unfold insert at h
  cases hp : precheck e s k with
  | none => rw [hp] at h; cases h
  | some pr =>
    rw [hp] at h
    cases pr with
    | fresh i =>
      simp only at h
      by_cases hlt : i < s.length
      · rw [if_pos hlt] at h
        injection h with h; injection h with h1 h2
        subst h1
        obtain ⟨hk, h1, ⟨y, hy, hn⟩, h3⟩ := precheck_row hs hp hlt
        exact dense_fill hD hk hy hn h1 h3
      · rw [if_neg hlt] at h; cases h
    | dup i =>
      injection h with h; injection h with h1 h2
      subst h1; exact hD
    | refused =>
      injection h with h; injection h with h1 h2
      subst h1; exact hD

/-- no single elements are erased, and no range is asked for under the null key -/
def Keeps (e : Env K V) : MOp K V → Prop
  | .base (.erase _) => False
  | .range k => k ≠ e.null
  | _ => True

theorem step_dense {e : Env K V} {s s' : Slots K V} (hD : DenseP e s) (hs : 0 < s.length) {o : MOp K V} {r : MOut K V}
    (ho : Keeps e o) (h : step e s o = some (s', r)) : DenseP e s' := by
  cases o with
  | add k v => exact (add_dense hD hs h).1
  | range k =>
    simp only [step] at h
    cases ha : range e s k with
    | none => rw [ha] at h; cases h
    | some l =>
      rw [ha] at h
      injection h with h; injection h with g1 g2
      subst g1; exact hD
  | base o =>
    simp only [step] at h
    cases hb : Unordered.step e s o with
    | none => rw [hb] at h; cases h
    | some pr =>
      obtain ⟨s1, r1⟩ := pr
      rw [hb] at h
      simp only [Option.map_some] at h
      injection h with h; injection h with g1 g2
      subst g1
      cases o with
      | insert k v =>
        simp only [Unordered.step] at hb
        cases hi : insert e s k v with
        | none => rw [hi] at hb; cases hb
        | some pr =>
          obtain ⟨s2, r2⟩ := pr
          rw [hi] at hb
          simp only at hb
          cases hsn : seen s2 r2 with
          | none => rw [hsn] at hb; cases hb
          | some o =>
            rw [hsn] at hb
            injection hb with hb; injection hb with g1 g2
            subst g1; exact insert_dense hD hs hi
      | assign k v =>
        simp only [Unordered.step] at hb
        cases hi : insertOrAssign e s k v with
        | none => rw [hi] at hb; cases hb
        | some pr =>
          obtain ⟨s2, r2⟩ := pr
          rw [hi] at hb
          simp only at hb
          cases hsn : seen s2 r2 with
          | none => rw [hsn] at hb; cases hb
          | some o =>
            rw [hsn] at hb
            injection hb with hb; injection hb with g1 g2
            subst g1
            unfold insertOrAssign at hi
            cases hf : find e s k with
            | none => rw [hf] at hi; cases hi
            | some fr =>
              rw [hf] at hi
              cases fr with
              | none => exact insert_dense hD hs hi
              | some p =>
                obtain ⟨u, hat⟩ := find_some hs hf
                simp only [hat.1] at hi
                injection hi with hi; injection hi with g1 g2
                subst g1
                have hlt := get_lt hat.1
                have hself : At e (s.set p ⟨k, v⟩) p k v := at_set_self hlt hat.2
                have back : ∀ q k' v', At e (s.set p ⟨k, v⟩) q k' v' → ∃ w, At e s q k' w := by
                  intro q k' v' hq
                  by_cases hqp : q = p
                  · subst hqp
                    have := hself.key_eq hq.1
                    injection this with h1; subst h1; exact ⟨u, hat⟩
                  · exact ⟨v', (at_set_ne hqp).mp hq⟩
                refine ⟨fun q k' v' hq => ?_, fun q k' v' hq i hi1 hi2 => ?_⟩
                · obtain ⟨w, hw⟩ := back q k' v' hq
                  rw [List.length_set]; exact hD.home q k' w hw
                · obtain ⟨w, hw⟩ := back q k' v' hq
                  rw [List.length_set] at hi1 ⊢
                  obtain ⟨z, hz, hz1, hz2⟩ := hD.path q k' w hw i hi1 hi2
                  by_cases hip : i = p
                  · subst hip
                    have := hat.key_eq hz
                    subst this
                    exact ⟨⟨k, v⟩, hself.1, hz1, hz2⟩
                  · exact ⟨z, by rw [List.getElem?_set_ne (fun h => hip h.symm)]; exact hz, hz1, hz2⟩
      | sub k =>
        simp only [Unordered.step] at hb
        cases hi : subscript e s k with
        | none => rw [hi] at hb; cases hb
        | some pr =>
          obtain ⟨s2, i2⟩ := pr
          rw [hi] at hb
          simp only at hb
          cases hra : rawAt s2 i2 with
          | none => rw [hra] at hb; cases hb
          | some w =>
            rw [hra] at hb
            injection hb with hb; injection hb with g1 g2
            subst g1
            unfold subscript at hi
            cases hf : find e s k with
            | none => rw [hf] at hi; cases hi
            | some fr =>
              rw [hf] at hi
              cases fr with
              | some p =>
                injection hi with hi; injection hi with g1 g2
                subst g1; exact hD
              | none =>
                simp only at hi
                cases hp : precheck e s k with
                | none => rw [hp] at hi; cases hi
                | some pr =>
                  rw [hp] at hi
                  cases pr with
                  | fresh i =>
                    simp only at hi
                    cases hx : s[i]? with
                    | none => rw [hx] at hi; cases hi
                    | some x =>
                      rw [hx] at hi
                      injection hi with hi; injection hi with g1 g2
                      subst g1
                      obtain ⟨hk, h1, ⟨y, hy, hn⟩, h3⟩ := precheck_row hs hp (get_lt hx)
                      exact dense_fill hD hk hy hn h1 h3
                  | dup i =>
                    injection hi with hi; injection hi with g1 g2
                    subst g1; exact hD
                  | refused => cases hi
      | erase k => exact absurd ho id
      | clear =>
        simp only [Unordered.step] at hb
        injection hb with hb; injection hb with g1 g2
        subst g1
        exact ⟨fun p k v hp => absurd hp (clear_none e s p k v), fun p k v hp => absurd hp (clear_none e s p k v)⟩
      | find k =>
        simp only [Unordered.step] at hb
        cases hf : lookup e s k with
        | none => rw [hf] at hb; cases hb
        | some x => rw [hf] at hb; injection hb with hb; injection hb with g1 g2; subst g1; exact hD
      | contains k =>
        simp only [Unordered.step] at hb
        cases hf : contains e s k with
        | none => rw [hf] at hb; cases hb
        | some x => rw [hf] at hb; injection hb with hb; injection hb with g1 g2; subst g1; exact hD
      | count k =>
        simp only [Unordered.step] at hb
        cases hf : count e s k with
        | none => rw [hf] at hb; cases hb
        | some x => rw [hf] at hb; injection hb with hb; injection hb with g1 g2; subst g1; exact hD
      | size =>
        simp only [Unordered.step] at hb
        injection hb with hb; injection hb with g1 g2
        subst g1; exact hD
      | isEmpty =>
        simp only [Unordered.step] at hb
        injection hb with hb; injection hb with g1 g2
        subst g1; exact hD

theorem keeps_clean {e : Env K V} {s : Slots K V} (hD : DenseP e s) (hs : 0 < s.length) {o : MOp K V} (ho : Keeps e o) :
    Clean e s o := by
  cases o with
  | add k v => exact dense_clobbersDup hD hs k
  | range k => exact ho
  | base o =>
    cases o with
    | insert k v => exact dense_clobbers hD hs k
    | assign k v => exact fun _ => dense_clobbers hD hs k
    | sub k => exact fun _ => dense_clobbers hD hs k
    | erase k => exact absurd ho id
    | clear => trivial
    | find k => trivial
    | contains k => trivial
    | count k => trivial
    | size => trivial
    | isEmpty => trivial

/-- C104, with no condition on the hash values: every history of `insert(value)`, `insert(value, true)`, `insert_or_assign`,
`[]`, `clear`, `equal_range_exp` and the observers shows a collection of pairs in which a key may occur several times, whenever
the history has no undefined behaviour. -/
theorem multi_history_no_erase (e : Env K V) (hl : e.lay.Lawful) (raws : List V) (h0 : 0 < raws.length)
    (ops : List (MOp K V)) (hk : ∀ o ∈ ops, Keeps e o) (s : Slots K V) (outs : List (MOut K V))
    (h : run e (init e raws) ops = some (s, outs)) :
    ∃ m, Spec.Run [] ops outs m ∧ m.Perm (elems e s) := by
  refine multi_history_partial e hl raws h0 ops s outs ?_ h
  have : ∀ (ops : List (MOp K V)) (s : Slots K V), DenseP e s → 0 < s.length → (∀ o ∈ ops, Keeps e o) → CleanRun e s ops := by
    intro ops
    induction ops with
    | nil => intro s _ _ _; trivial
    | cons o os ih =>
      intro s hD hs hk
      have hc := keeps_clean hD hs (hk o List.mem_cons_self)
      refine ⟨hc, fun s' r hst => ih s' (step_dense hD hs (hk o List.mem_cons_self) hst) ?_
        fun o' ho' => hk o' (List.mem_cons_of_mem _ ho')⟩
      rw [(step_ok hl hD.placed hs hc hst).2.2]; exact hs
  exact this ops _ ⟨fun p k v hp => absurd hp (init_none e raws p k v), fun p k v hp => absurd hp (init_none e raws p k v)⟩
    (by simpa [init] using h0) hk

/-! ## Where it fails -/

/-- **Violation.** `equal_range_exp` looks only at the bucket: two keys of one bucket get the same range, whatever is stored
under either of them. -/
theorem range_same_bucket (e : Env K V) (s : Slots K V) (k k' : K) (h : index e s.length k = index e s.length k') :
    range e s k = range e s k' := by
  unfold range; rw [h]

/-- **Violation.** Whenever an element under another key shares the bucket, it is in the range of `k`, even when nothing is
stored under `k`. -/
theorem range_shows_others (e : Env K V) (s : Slots K V) (hI : Placed e s) (hs : 0 < s.length) (k k' : K) (p : Nat) (w : V)
    (h : index e s.length k = index e s.length k') (hat : At e s p k' w) (l : List (K × V)) (hr : range e s k = some l) :
    (k', w) ∈ l := by
  rw [range_same_bucket e s k k' h] at hr
  have := range_filter hI hs hat.2 hr
  have hm : (k', w) ∈ (elems e s).filter (fun x => decide (x.1 = k')) := by
    rw [List.mem_filter]
    exact ⟨(mem_elems e s k' w).mpr ⟨p, hat⟩, by simp⟩
  rw [← this] at hm
  exact (List.mem_filter.mp hm).1

/-- **Violation.** Exactly when `insert(value, true)` is undefined: every slot from the key's bucket to the end of the array
holds an element of that bucket, and the memory behind the array may not be read or looks like an empty slot (in which case the
element is constructed there). -/
theorem add_undefined_iff (e : Env K V) (s : Slots K V) (hs : 0 < s.length) (k : K) (v : V) (hk : k ≠ e.null) :
    add e s k v = none ↔
      (∀ q, index e s.length k ≤ q → q < s.length → ∃ k' v', At e s q k' v' ∧ index e s.length k' = index e s.length k) ∧
      ∀ h, e.hi = some h → h.key = e.null := by
  obtain ⟨j, h1, h2, h3, h4⟩ := precheckDup_cases e s k hs hk
  have hrow : ∀ q, index e s.length k ≤ q → q < j → ∃ k' v', At e s q k' v' ∧ index e s.length k' = index e s.length k := by
    intro q hq1 hq2
    obtain ⟨y, hy, hy1, hy2⟩ := h3 q hq1 hq2
    exact ⟨y.key, y.raw, ⟨hy, hy1⟩, hy2⟩
  unfold add
  rcases h4 with ⟨h4, h5⟩ | ⟨y, hy, hn, h5⟩ | ⟨y, hy, hn, hne, h5⟩
  · rw [h5]
    constructor
    · intro h
      refine ⟨fun q a b => hrow q a (by omega), fun x hx => ?_⟩
      rw [hx] at h
      simp only [Option.map_some] at h
      by_cases hx' : x.key = e.null
      · exact hx'
      · rw [if_neg hx'] at h; cases h
    · rintro ⟨-, h⟩
      cases hh : e.hi with
      | none => rfl
      | some x => simp [h x hh, h4]
  · rw [h5]
    have hlt := get_lt hy
    simp only [hlt, if_true]
    constructor
    · intro h; cases h
    · rintro ⟨h, -⟩
      obtain ⟨k', v', hat, -⟩ := h j h1 hlt
      have := hat.key_eq hy
      subst this; exact absurd hn hat.2
  · rw [h5]
    constructor
    · intro h; cases h
    · rintro ⟨h, -⟩
      obtain ⟨k', v', hat, h6⟩ := h j h1 (get_lt hy)
      have := hat.key_eq hy
      subst this; exact absurd h6 hne

example : add (intEnv none none) [⟨8, 1⟩, ⟨0, 0⟩, ⟨0, 0⟩, ⟨0, 0⟩, ⟨1, 1⟩, ⟨1, 2⟩, ⟨3, 1⟩, ⟨1, 3⟩] 1 4 = none := by
  decide +kernel

/-- a local iteration stops in front of an element of another bucket -/
theorem bucketScan_stops {e : Env K V} {s : Slots K V} (n j : Nat) (k : K) (v : V) (hj : At e s j k v)
    (hne : index e s.length k ≠ n) :
    ∀ (l : Slots K V) (i : Nat) (r : List Nat), i ≤ j → s.drop i = l → bucketScan e s.length n l i = some r →
      r.Nodup ∧ ∀ p ∈ r, i ≤ p ∧ p < j := by
  intro l
  induction l with
  | nil =>
    intro i r hi hl h
    have := List.drop_eq_nil_iff.mp hl
    have := get_lt hj.1
    omega
  | cons x xs ih =>
    intro i r hi hl h
    obtain ⟨hx, hxs⟩ := drop_cons hl
    rw [bucketScan] at h
    by_cases hij : i = j
    · subst hij
      have := hj.key_eq hx
      subst this
      rw [if_neg (by rw [isSparse_false_of_active hj.2]; simp), if_neg (by simp [isEmpty, hj.2]), if_pos hne] at h
      injection h with h; subst h
      exact ⟨List.nodup_nil, fun p hp => absurd hp (by simp)⟩
    · by_cases h1 : isSparse e n x = true
      · rw [if_pos h1] at h
        obtain ⟨a, b⟩ := ih (i + 1) r (by omega) hxs h
        exact ⟨a, fun p hp => ⟨by have := (b p hp).1; omega, (b p hp).2⟩⟩
      · rw [if_neg h1] at h
        by_cases h2 : isEmpty e x = true
        · rw [if_pos h2] at h
          injection h with h; subst h
          exact ⟨List.nodup_nil, fun p hp => absurd hp (by simp)⟩
        · rw [if_neg h2] at h
          by_cases h3 : index e s.length x.key = n
          · rw [if_neg (by simp [h3])] at h
            cases hb : bucketScan e s.length n xs (i + 1) with
            | none => rw [hb] at h; cases h
            | some r' =>
              rw [hb] at h
              simp only [Option.map_some] at h
              injection h with h; subst h
              obtain ⟨a, b⟩ := ih (i + 1) r' (by omega) hxs hb
              refine ⟨List.nodup_cons.mpr ⟨fun h => by have := (b i h).1; omega, a⟩, ?_⟩
              intro p hp
              rcases List.mem_cons.mp hp with rfl | hp
              · omega
              · have := b p hp; omega
          · rw [if_pos h3] at h
            injection h with h; subst h
            exact ⟨List.nodup_nil, fun p hp => absurd hp (by simp)⟩

/-- **Violation.** An `insert(value, true)` that clobbers hides an element of another key: `count` of that key falls below the
number of elements that are there. -/
theorem add_clobber_miscounts (e : Env K V) (s s' : Slots K V) (k : K) (v : V) (r : InsRes)
    (hc : ClobbersDup e s k) (h : add e s k v = some (s', r)) :
    ∃ k', k' ≠ k ∧ ∀ c, count e s' k' = some c → c < ((elems e s').filter fun x => x.1 = k').length := by
  obtain ⟨i, p, k', v', hpre, hp, hip, hle, hne⟩ := hc
  have hk : k ≠ e.null := by
    intro hk; rw [precheckDup, if_pos hk] at hpre; cases hpre
  have hpl := get_lt hp.1
  have hil : i < s.length := by omega
  unfold add at h
  rw [hpre] at h
  simp only [hil, if_true] at h
  injection h with h; injection h with h1 h2
  subst h1; subst h2
  refine ⟨k', fun hkk => hne (by rw [hkk]), fun c hc => ?_⟩
  have hself : At e (s.set i ⟨k, v⟩) i k v := at_set_self hil hk
  have hp' : At e (s.set i ⟨k, v⟩) p k' v' := (at_set_ne (by omega)).mpr hp
  generalize hs' : s.set i (⟨k, v⟩ : Slot K V) = s' at *
  have hlen : s'.length = s.length := by rw [← hs', List.length_set]
  unfold count at hc
  simp only at hc
  cases hb : bucketScan e s'.length (index e s'.length k') (s'.drop (index e s'.length k')) (index e s'.length k') with
  | none => rw [hb] at hc; cases hc
  | some l =>
    rw [hb] at hc
    simp only [Option.map_some] at hc
    injection hc with hc
    obtain ⟨hnd, hmem⟩ := bucketScan_stops (index e s'.length k') i k v hself (by rw [hlen]; exact fun h => hne h.symm) _ _ l
      (by rw [hlen]; exact hle) rfl hb
    rw [filter_elems e s' hp'.2, List.length_map]
    have hpos := positions_length (fun x : Slot K V => decide (x.key = k')) s'
    rw [← hpos, ← hc]
    have hsub : (p :: l.filter (fun i => (s'[i]?).any fun x => decide (k' = x.key))).Subperm
        ((List.range s'.length).filter fun i => (s'[i]?).any fun x => decide (x.key = k')) := by
      apply List.subperm_of_subset
      · refine List.nodup_cons.mpr ⟨?_, hnd.filter _⟩
        intro hin
        have := (hmem p (List.mem_filter.mp hin).1).2
        omega
      · intro q hq
        rw [List.mem_filter, List.mem_range]
        rcases List.mem_cons.mp hq with rfl | hq
        · exact ⟨get_lt hp'.1, by rw [hp'.1]; simp⟩
        · obtain ⟨hq1, hq2⟩ := List.mem_filter.mp hq
          cases hx : s'[q]? with
          | none => rw [hx] at hq2; cases hq2
          | some x =>
            rw [hx] at hq2
            simp only [Option.any_some, decide_eq_true_eq] at hq2 ⊢
            exact ⟨get_lt hx, hq2.symm⟩
    have := hsub.length_le
    rw [List.length_cons] at this
    omega

/-! ## Concrete cases -/

/-- memory in front of the array that may be read, and an occupied-looking slot behind it -/
def env : Env (BitVec 32) (BitVec 32) := intEnv (some ⟨0, 0⟩) (some ⟨1, 0⟩)

/-- three elements under two keys of one bucket, one erased, one put in its place -/
example : (run env (fresh env 8)
    [.add 2 20, .add 4 40, .add 2 21, .base (.count 2), .base (.erase 2), .base (.find 2), .range 2, .add 2 22,
     .base .size]).map (·.1) = some [⟨2, 22⟩, ⟨4, 40⟩, ⟨2, 21⟩, ⟨0, 0⟩, ⟨0, 0⟩, ⟨0, 0⟩, ⟨0, 0⟩, ⟨0, 0⟩] := by
  decide +kernel

/-- after the erasure the elements under 2 no longer stand in the order of insertion, and `find` shows the newest -/
example : ((run env (fresh env 8) [.add 2 20, .add 4 40, .add 2 21, .base (.erase 2), .add 2 22]).bind
    fun r => lookup env r.1 2) = some (some 22) := by decide +kernel

/-- a history without erasures: `multi_history_no_erase` applies -/
example : ∃ s outs m, run env (fresh env 8) [.add 2 20, .base (.insert 4 40), .add 2 21, .range 2, .base (.count 2)] =
    some (s, outs) ∧ Spec.Run [] [.add 2 20, .base (.insert 4 40), .add 2 21, .range 2, .base (.count 2)] outs m ∧
    m.Perm [(2, 20), (4, 40), (2, 21)] := by
  have h : run env (fresh env 8) [.add 2 20, .base (.insert 4 40), .add 2 21, .range 2, .base (.count 2)] =
      some ([⟨2, 20⟩, ⟨4, 40⟩, ⟨2, 21⟩, ⟨0, 0⟩, ⟨0, 0⟩, ⟨0, 0⟩, ⟨0, 0⟩, ⟨0, 0⟩],
        [.base (.inserted 20), .base (.inserted 40), .base (.inserted 21), .pairs [(2, 20), (4, 40), (2, 21)],
         .base (.number 2)]) := by rfl
  obtain ⟨m, h1, h2⟩ := multi_history_no_erase env layout32_lawful (List.replicate 8 0) (by decide)
    [.add 2 20, .base (.insert 4 40), .add 2 21, .range 2, .base (.count 2)]
    (by
      intro o ho
      simp only [List.mem_cons, List.not_mem_nil, or_false] at ho
      rcases ho with rfl | rfl | rfl | rfl | rfl <;> first | trivial | (show (2 : BitVec 32) ≠ 0; decide))
    _ _ h
  exact ⟨_, _, m, h, h1, h2⟩

/-- the range of a key nothing is stored under: 2 and 4 share a bucket of an array of eight -/
example : range env [⟨2, 20⟩, ⟨0, 0⟩, ⟨0, 0⟩, ⟨0, 0⟩, ⟨0, 0⟩, ⟨0, 0⟩, ⟨0, 0⟩, ⟨0, 0⟩] 4 = some [(2, 20)] := by
  decide +kernel

/-- an insertion that clobbers: the mark of bucket 4 in slot 4 is overwritten by an element of bucket 0 -/
example : ClobbersDup env [⟨2, 2⟩, ⟨4, 4⟩, ⟨6, 6⟩, ⟨8, 8⟩, ⟨0, 9⟩, ⟨3, 3⟩, ⟨0, 0⟩, ⟨0, 0⟩] 10 :=
  ⟨4, 5, 3, 3, by decide +kernel, ⟨by decide +kernel, by decide⟩, by decide, by decide +kernel, by decide +kernel⟩

/-- a refused insertion -/
example : add env [⟨2, 20⟩, ⟨4, 1⟩, ⟨2, 1⟩, ⟨8, 1⟩, ⟨1, 1⟩, ⟨0, 0⟩, ⟨0, 0⟩, ⟨0, 0⟩] 10 7 =
    some ([⟨2, 20⟩, ⟨4, 1⟩, ⟨2, 1⟩, ⟨8, 1⟩, ⟨1, 1⟩, ⟨0, 0⟩, ⟨0, 0⟩, ⟨0, 0⟩], (none, false)) := by decide +kernel

end Verif.Unordered.Multi
