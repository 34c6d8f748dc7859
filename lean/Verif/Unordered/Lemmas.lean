import Verif.Unordered.Spec
/-!
# Unordered containers: the probing loops and the layout invariant
-/

namespace Verif.Unordered

set_option linter.unusedSectionVars false

variable {K V : Type} [DecidableEq K]

theorem drop_cons {α : Type} {s xs : List α} {i : Nat} {x : α} (h : s.drop i = x :: xs) :
    s[i]? = some x ∧ s.drop (i + 1) = xs := by
  have hi : i < s.length := by
    rcases Nat.lt_or_ge i s.length with h' | h'
    · exact h'
    · rw [List.drop_eq_nil_of_le h'] at h; cases h
  rw [List.drop_eq_getElem_cons hi] at h
  injection h with h1 h2
  exact ⟨by rw [List.getElem?_eq_getElem hi, h1], h2⟩

theorem drop_of_get {α : Type} {s : List α} {i : Nat} {x : α} (h : s[i]? = some x) :
    s.drop i = x :: s.drop (i + 1) := by
  obtain ⟨hi, rfl⟩ := List.getElem?_eq_some_iff.mp h
  exact List.drop_eq_getElem_cons hi

theorem get_lt {α : Type} {s : List α} {i : Nat} {x : α} (h : s[i]? = some x) : i < s.length :=
  (List.getElem?_eq_some_iff.mp h).1

theorem isEmpty_iff (e : Env K V) (x : Slot K V) : isEmpty e x = true ↔ x.key = e.null := by
  simp [isEmpty]

theorem isEmpty_false (e : Env K V) (x : Slot K V) : isEmpty e x = false ↔ x.key ≠ e.null := by
  simp [isEmpty]

theorem isSparse_iff (e : Env K V) (n : Nat) (x : Slot K V) :
    isSparse e n x = true ↔ x.key = e.null ∧ e.lay.gc x.raw = true ∧ e.lay.bkt x.raw = n := by
  simp [isSparse, isEmpty, and_assoc]

theorem isSparse_false_of_active {e : Env K V} {n : Nat} {x : Slot K V} (h : x.key ≠ e.null) :
    isSparse e n x = false := by
  simp [isSparse, isEmpty, h]

theorem index_lt (e : Env K V) {N : Nat} (h : 0 < N) (k : K) : index e N k < N :=
  Nat.mod_lt _ h

/-! ## The probing loop -/

/-- `probe` walks over slots of the same bucket with other keys. -/
theorem probe_skip (e : Env K V) (N n : Nat) (k : K) (s : Slots K V) :
    ∀ (d i : Nat), (∀ q, i ≤ q → q < i + d → ∃ y, s[q]? = some y ∧ y.key ≠ e.null ∧
      index e N y.key = n ∧ y.key ≠ k) →
    probe e N n k (s.drop i) i = probe e N n k (s.drop (i + d)) (i + d) := by
  intro d
  induction d with
  | zero => intro i _; rfl
  | succ d ih =>
    intro i h
    obtain ⟨y, hy, h1, h2, h3⟩ := h i (Nat.le_refl _) (by omega)
    rw [drop_of_get hy, probe]
    rw [if_neg (by simp [isEmpty, h1]), if_neg (by simp [h2]), if_neg (fun hk => h3 hk.symm)]
    rw [ih (i + 1) (fun q hq1 hq2 => h q (by omega) (by omega))]
    have : i + 1 + d = i + (d + 1) := by omega
    rw [this]

/-- Where `probe` ends. -/
theorem probe_cases (e : Env K V) (N n : Nat) (k : K) (s : Slots K V) :
    ∀ (l : Slots K V) (i : Nat), i ≤ s.length → s.drop i = l →
    ∃ j, i ≤ j ∧ j ≤ s.length ∧
      (∀ q, i ≤ q → q < j → ∃ y, s[q]? = some y ∧ y.key ≠ e.null ∧
        index e N y.key = n ∧ y.key ≠ k) ∧
      ((j = s.length) ∨ (∃ y, s[j]? = some y ∧
        (y.key = e.null ∨ (y.key ≠ e.null ∧ index e N y.key ≠ n) ∨
         (y.key ≠ e.null ∧ index e N y.key = n ∧ y.key = k)))) := by
  intro l
  induction l with
  | nil =>
    intro i hi hl
    have : s.length ≤ i := by
      rcases Nat.lt_or_ge i s.length with h | h
      · rw [List.drop_eq_getElem_cons h] at hl; cases hl
      · exact h
    exact ⟨i, Nat.le_refl _, hi, fun q h1 h2 => by omega, Or.inl (by omega)⟩
  | cons x xs ih =>
    intro i hi hl
    obtain ⟨hx, hxs⟩ := drop_cons hl
    have hlt := get_lt hx
    by_cases h1 : x.key = e.null
    · exact ⟨i, Nat.le_refl _, hi, fun q h1 h2 => by omega, Or.inr ⟨x, hx, Or.inl h1⟩⟩
    by_cases h2 : index e N x.key = n
    · by_cases h3 : x.key = k
      · exact ⟨i, Nat.le_refl _, hi, fun q h1 h2 => by omega,
          Or.inr ⟨x, hx, Or.inr (Or.inr ⟨h1, h2, h3⟩)⟩⟩
      · obtain ⟨j, hj1, hj2, hj3, hj4⟩ := ih (i + 1) (by omega) hxs
        refine ⟨j, by omega, hj2, ?_, hj4⟩
        intro q hq1 hq2
        by_cases hq : q = i
        · subst hq; exact ⟨x, hx, h1, h2, h3⟩
        · exact hj3 q (by omega) hq2
    · exact ⟨i, Nat.le_refl _, hi, fun q h1 h2 => by omega,
        Or.inr ⟨x, hx, Or.inr (Or.inl ⟨h1, h2⟩)⟩⟩

/-- The slots `i ≤ q < j` all hold elements of bucket `n` whose key is not `k`. -/
def Occupied (e : Env K V) (s : Slots K V) (n : Nat) (k : K) (i j : Nat) : Prop :=
  ∀ q, i ≤ q → q < j → ∃ y, s[q]? = some y ∧ y.key ≠ e.null ∧ index e s.length y.key = n ∧
    y.key ≠ k

/-- Everything `insert_precheck` can answer for a non-null key. -/
theorem precheck_cases (e : Env K V) (s : Slots K V) (k : K) (hs : 0 < s.length)
    (hk : k ≠ e.null) :
    ∃ j, index e s.length k ≤ j ∧ j ≤ s.length ∧
      Occupied e s (index e s.length k) k (index e s.length k) j ∧
      ((j = s.length ∧ precheck e s k = e.hi.map fun h =>
          if h.key = e.null then .fresh j else .refused) ∨
       (∃ y, s[j]? = some y ∧ y.key = e.null ∧ precheck e s k = some (.fresh j)) ∨
       (∃ y, s[j]? = some y ∧ y.key ≠ e.null ∧ index e s.length y.key ≠ index e s.length k ∧
          precheck e s k = some .refused) ∨
       (∃ y, s[j]? = some y ∧ y.key = k ∧ precheck e s k = some (.dup j))) := by
  have hn : index e s.length k < s.length := index_lt e hs k
  obtain ⟨j, h1, h2, h3, h4⟩ := probe_cases e s.length (index e s.length k) k s
    (s.drop (index e s.length k)) (index e s.length k) (Nat.le_of_lt hn) rfl
  refine ⟨j, h1, h2, h3, ?_⟩
  have hd : index e s.length k + (j - index e s.length k) = j := by omega
  have hp : precheck e s k = probe e s.length (index e s.length k) k (s.drop j) j := by
    rw [precheck, if_neg hk]
    have := probe_skip e s.length (index e s.length k) k s (j - index e s.length k)
      (index e s.length k) (by rw [hd]; exact h3)
    rw [hd] at this
    exact this
  rcases h4 with h4 | ⟨y, hy, h4 | ⟨h4, h5⟩ | ⟨h4, h5, h6⟩⟩
  · left
    refine ⟨h4, ?_⟩
    rw [hp, h4, List.drop_length, probe]
    cases e.hi with
    | none => rfl
    | some h => simp [isEmpty]
  · right; left
    refine ⟨y, hy, h4, ?_⟩
    rw [hp, drop_of_get hy, probe, if_pos (by simp [isEmpty, h4])]
  · right; right; left
    refine ⟨y, hy, h4, h5, ?_⟩
    rw [hp, drop_of_get hy, probe, if_neg (by simp [isEmpty, h4]), if_pos h5]
  · right; right; right
    refine ⟨y, hy, h6, ?_⟩
    rw [hp, drop_of_get hy, probe, if_neg (by simp [isEmpty, h4]), if_neg (by simp [h5]),
      if_pos h6.symm]

/-! ## The lookup loop -/

/-- Slot content a lookup of `k` in bucket `n` walks over. -/
def Passable (e : Env K V) (N n : Nat) (k : K) (y : Slot K V) : Prop :=
  isSparse e n y = true ∨ (y.key ≠ e.null ∧ index e N y.key = n ∧ y.key ≠ k)

theorem find_skip (e : Env K V) (N n : Nat) (k : K) (s : Slots K V) :
    ∀ (d i : Nat), (∀ q, i ≤ q → q < i + d → ∃ y, s[q]? = some y ∧ Passable e N n k y) →
    findScan e N n k (s.drop i) i = findScan e N n k (s.drop (i + d)) (i + d) := by
  intro d
  induction d with
  | zero => intro i _; rfl
  | succ d ih =>
    intro i h
    obtain ⟨y, hy, hp⟩ := h i (Nat.le_refl _) (by omega)
    have e1 : i + 1 + d = i + (d + 1) := by omega
    rw [drop_of_get hy, findScan]
    rcases hp with hp | ⟨h1, h2, h3⟩
    · rw [if_pos hp, ih (i + 1) (fun q hq1 hq2 => h q (by omega) (by omega)), e1]
    · rw [if_neg (by simp [isSparse_false_of_active h1]), if_neg (by simp [isEmpty, h1]),
        if_neg (by simp [h2]), if_neg (fun hk => h3 hk.symm),
        ih (i + 1) (fun q hq1 hq2 => h q (by omega) (by omega)), e1]

theorem find_cases_scan (e : Env K V) (N n : Nat) (k : K) (s : Slots K V) :
    ∀ (l : Slots K V) (i : Nat), i ≤ s.length → s.drop i = l →
    ∃ j, i ≤ j ∧ j ≤ s.length ∧
      (∀ q, i ≤ q → q < j → ∃ y, s[q]? = some y ∧ Passable e N n k y) ∧
      ((j = s.length) ∨ (∃ y, s[j]? = some y ∧ ¬ Passable e N n k y)) := by
  intro l
  induction l with
  | nil =>
    intro i hi hl
    have : s.length ≤ i := by
      rcases Nat.lt_or_ge i s.length with h | h
      · rw [List.drop_eq_getElem_cons h] at hl; cases hl
      · exact h
    exact ⟨i, Nat.le_refl _, hi, fun q h1 h2 => by omega, Or.inl (by omega)⟩
  | cons x xs ih =>
    intro i hi hl
    obtain ⟨hx, hxs⟩ := drop_cons hl
    have hlt := get_lt hx
    by_cases hp : Passable e N n k x
    · obtain ⟨j, hj1, hj2, hj3, hj4⟩ := ih (i + 1) (by omega) hxs
      refine ⟨j, by omega, hj2, ?_, hj4⟩
      intro q hq1 hq2
      by_cases hq : q = i
      · subst hq; exact ⟨x, hx, hp⟩
      · exact hj3 q (by omega) hq2
    · exact ⟨i, Nat.le_refl _, hi, fun q h1 h2 => by omega, Or.inr ⟨x, hx, hp⟩⟩

/-- Everything a lookup can answer for a non-null key. -/
theorem find_cases (e : Env K V) (s : Slots K V) (k : K) (hs : 0 < s.length) (hk : k ≠ e.null) :
    ∃ j, index e s.length k ≤ j ∧ j ≤ s.length ∧
      (∀ q, index e s.length k ≤ q → q < j →
        ∃ y, s[q]? = some y ∧ Passable e s.length (index e s.length k) k y) ∧
      ((j = s.length ∧ find e s k = e.hi.map fun _ => none) ∨
       (∃ y, s[j]? = some y ∧ y.key = e.null ∧ isSparse e (index e s.length k) y = false ∧
          find e s k = some none) ∨
       (∃ y, s[j]? = some y ∧ y.key ≠ e.null ∧ index e s.length y.key ≠ index e s.length k ∧
          find e s k = some none) ∨
       (∃ y, s[j]? = some y ∧ y.key = k ∧ find e s k = some (some j))) := by
  have hn : index e s.length k < s.length := index_lt e hs k
  obtain ⟨j, h1, h2, h3, h4⟩ := find_cases_scan e s.length (index e s.length k) k s
    (s.drop (index e s.length k)) (index e s.length k) (Nat.le_of_lt hn) rfl
  refine ⟨j, h1, h2, h3, ?_⟩
  have hd : index e s.length k + (j - index e s.length k) = j := by omega
  have hp : find e s k = findScan e s.length (index e s.length k) k (s.drop j) j := by
    rw [find, if_neg hk]
    have := find_skip e s.length (index e s.length k) k s (j - index e s.length k)
      (index e s.length k) (by rw [hd]; exact h3)
    rw [hd] at this
    exact this
  rcases h4 with h4 | ⟨y, hy, h4⟩
  · left
    refine ⟨h4, ?_⟩
    rw [hp, h4, List.drop_length, findScan]
    cases e.hi with
    | none => rfl
    | some h => rfl
  · right
    have h5 : isSparse e (index e s.length k) y = false := by
      cases h : isSparse e (index e s.length k) y with
      | false => rfl
      | true => exact absurd (Or.inl h) h4
    by_cases h6 : y.key = e.null
    · left
      refine ⟨y, hy, h6, h5, ?_⟩
      rw [hp, drop_of_get hy, findScan, if_neg (by simp [h5]), if_pos (by simp [isEmpty, h6])]
    · right
      by_cases h7 : index e s.length y.key = index e s.length k
      · right
        have h8 : y.key = k := by
          by_cases h : y.key = k
          · exact h
          · exact absurd (Or.inr ⟨h6, h7, h⟩) h4
        refine ⟨y, hy, h8, ?_⟩
        rw [hp, drop_of_get hy, findScan, if_neg (by simp [h5]), if_neg (by simp [isEmpty, h6]),
          if_neg (by simp [h7]), if_pos h8.symm]
      · left
        refine ⟨y, hy, h6, h7, ?_⟩
        rw [hp, drop_of_get hy, findScan, if_neg (by simp [h5]), if_neg (by simp [isEmpty, h6]),
          if_pos h7]

/-- A lookup only ever reports a slot holding that key. -/
theorem find_sound (e : Env K V) (s : Slots K V) (k : K) (hs : 0 < s.length) (i : Nat)
    (h : find e s k = some (some i)) : ∃ v, At e s i k v := by
  by_cases hk : k = e.null
  · rw [find, if_pos hk] at h; cases h
  obtain ⟨j, -, -, -, h4⟩ := find_cases e s k hs hk
  rcases h4 with ⟨-, h4⟩ | ⟨y, -, -, -, h4⟩ | ⟨y, -, -, -, h4⟩ | ⟨y, hy, hyk, h4⟩
  · rw [h4] at h; cases hh : e.hi <;> rw [hh] at h <;> cases h
  · rw [h4] at h; cases h
  · rw [h4] at h; cases h
  · rw [h4] at h
    injection h with h; injection h with h
    subst h
    exact ⟨y.raw, by rw [hy, ← hyk], hk⟩

/-! ## The layout invariant -/

/-- Every element sits at or behind its home slot, and all slots in between hold elements of the
same bucket or marks left by erased elements of that bucket; no key occurs twice. -/
structure Inv (e : Env K V) (s : Slots K V) : Prop where
  uniq : ∀ p q k v w, At e s p k v → At e s q k w → p = q
  home : ∀ p k v, At e s p k v → index e s.length k ≤ p
  path : ∀ p k v, At e s p k v → ∀ q, index e s.length k ≤ q → q < p →
    ∃ y, s[q]? = some y ∧ (y.key ≠ e.null ∧ index e s.length y.key = index e s.length k ∨
      isSparse e (index e s.length k) y = true)

/-- The part of the invariant that says where elements lie, for tables that may hold a key twice. -/
structure Placed (e : Env K V) (s : Slots K V) : Prop where
  home : ∀ p k v, At e s p k v → index e s.length k ≤ p
  path : ∀ p k v, At e s p k v → ∀ q, index e s.length k ≤ q → q < p →
    ∃ y, s[q]? = some y ∧ (y.key ≠ e.null ∧ index e s.length y.key = index e s.length k ∨
      isSparse e (index e s.length k) y = true)

theorem Inv.placed {e : Env K V} {s : Slots K V} (h : Inv e s) : Placed e s := ⟨h.home, h.path⟩

/-- The stronger invariant of a table nothing was erased from: no marks in between. -/
structure Dense (e : Env K V) (s : Slots K V) : Prop where
  uniq : ∀ p q k v w, At e s p k v → At e s q k w → p = q
  home : ∀ p k v, At e s p k v → index e s.length k ≤ p
  path : ∀ p k v, At e s p k v → ∀ q, index e s.length k ≤ q → q < p →
    ∃ y, s[q]? = some y ∧ y.key ≠ e.null ∧ index e s.length y.key = index e s.length k

theorem Dense.inv {e : Env K V} {s : Slots K V} (h : Dense e s) : Inv e s :=
  ⟨h.uniq, h.home, fun p k v hp q h1 h2 =>
    let ⟨y, a, b, c⟩ := h.path p k v hp q h1 h2; ⟨y, a, Or.inl ⟨b, c⟩⟩⟩

/-- The array represents the map `m`. -/
def Repr (e : Env K V) (s : Slots K V) (m : K → Option V) : Prop :=
  ∀ k v, m k = some v ↔ ∃ p, At e s p k v

theorem find_complete {e : Env K V} {s : Slots K V} (hI : Inv e s) (hs : 0 < s.length) {p : Nat}
    {k : K} {v : V} (h : At e s p k v) : find e s k = some (some p) := by
  obtain ⟨j, h1, h2, h3, h4⟩ := find_cases e s k hs h.2
  have hjp : j ≤ p := by
    rcases Nat.lt_or_ge p j with hlt | hge
    · exfalso
      obtain ⟨y, hy, hp⟩ := h3 p (hI.home p k v h) hlt
      rw [h.1] at hy; injection hy with hy; subst hy
      rcases hp with hp | ⟨-, -, hp⟩
      · exact h.2 ((isSparse_iff e _ _).mp hp).1
      · exact hp rfl
    · exact hge
  have hpl : p < s.length := get_lt h.1
  rcases h4 with ⟨h4, -⟩ | ⟨y, hy, hn, hsp, -⟩ | ⟨y, hy, hn, hne, -⟩ | ⟨y, hy, hyk, hf⟩
  · omega
  · exfalso
    by_cases hj : j = p
    · subst hj; rw [h.1] at hy; injection hy with hy; subst hy; exact h.2 hn
    · obtain ⟨z, hz, hz2⟩ := hI.path p k v h j h1 (by omega)
      rw [hy] at hz; injection hz with hz; subst hz
      rcases hz2 with ⟨hz2, -⟩ | hz2
      · exact hz2 hn
      · rw [hsp] at hz2; cases hz2
  · exfalso
    by_cases hj : j = p
    · subst hj; rw [h.1] at hy; injection hy with hy; subst hy; exact hne rfl
    · obtain ⟨z, hz, hz2⟩ := hI.path p k v h j h1 (by omega)
      rw [hy] at hz; injection hz with hz; subst hz
      rcases hz2 with ⟨-, hz2⟩ | hz2
      · exact hne hz2
      · exact hn ((isSparse_iff e _ _).mp hz2).1
  · have : j = p := hI.uniq j p k y.raw v ⟨by rw [hy, ← hyk], h.2⟩ h
    rw [hf, this]

theorem find_absent {e : Env K V} {s : Slots K V} (hs : 0 < s.length) {k : K}
    (h : ∀ p v, ¬ At e s p k v) : find e s k = some none ∨ find e s k = none := by
  cases hf : find e s k with
  | none => exact Or.inr rfl
  | some r =>
    cases r with
    | none => exact Or.inl rfl
    | some i => obtain ⟨v, hv⟩ := find_sound e s k hs i hf; exact absurd hv (h i v)

theorem At.get {e : Env K V} {s : Slots K V} {p : Nat} {k : K} {v w : V} (h : At e s p k v)
    (h' : At e s p k w) : v = w := by
  have := h.1.symm.trans h'.1
  injection this with this
  injection this

theorem Repr.some_of_at {e : Env K V} {s : Slots K V} {m : K → Option V} (h : Repr e s m)
    {p : Nat} {k : K} {v : V} (hp : At e s p k v) : m k = some v := (h k v).mpr ⟨p, hp⟩

theorem Repr.none_iff {e : Env K V} {s : Slots K V} {m : K → Option V} (h : Repr e s m) (k : K) :
    m k = none ↔ ∀ p v, ¬ At e s p k v := by
  constructor
  · intro hm p v hp
    have := h.some_of_at hp
    rw [hm] at this; cases this
  · intro hp
    cases hm : m k with
    | none => rfl
    | some v => obtain ⟨p, hp'⟩ := (h k v).mp hm; exact absurd hp' (hp p v)

/-- Two descriptions of the same array agree. -/
theorem Repr.eq {e : Env K V} {s : Slots K V} {m m' : K → Option V} (h : Repr e s m)
    (h' : Repr e s m') : m = m' := by
  funext k
  cases hm : m k with
  | none => exact ((h'.none_iff k).mpr ((h.none_iff k).mp hm)).symm
  | some v => exact ((h' k v).mpr ((h k v).mp hm)).symm

/-- A lookup reports exactly what the map says, whenever it is defined. -/
theorem find_repr {e : Env K V} {s : Slots K V} {m : K → Option V} (hI : Inv e s)
    (hm : Repr e s m) (hs : 0 < s.length) (k : K) (r : Option Nat) (h : find e s k = some r) :
    (m k = none ∧ r = none) ∨ (∃ p v, m k = some v ∧ r = some p ∧ At e s p k v) := by
  cases hk : m k with
  | none =>
    left
    refine ⟨rfl, ?_⟩
    rcases find_absent hs ((hm.none_iff k).mp hk) with h' | h'
    · rw [h'] at h; injection h with h; exact h.symm
    · rw [h'] at h; cases h
  | some v =>
    right
    obtain ⟨p, hp⟩ := (hm k v).mp hk
    have := find_complete hI hs hp
    rw [this] at h; injection h with h
    exact ⟨p, v, rfl, h.symm, hp⟩

/-! ## Writing a slot -/

theorem at_set_self {e : Env K V} {s : Slots K V} {i : Nat} {k : K} {v : V} (hi : i < s.length)
    (hk : k ≠ e.null) : At e (s.set i ⟨k, v⟩) i k v :=
  ⟨by rw [List.getElem?_set_self hi], hk⟩

theorem at_set_ne {e : Env K V} {s : Slots K V} {i p : Nat} {x : Slot K V} {k : K} {v : V}
    (hp : p ≠ i) : At e (s.set i x) p k v ↔ At e s p k v := by
  unfold At
  rw [List.getElem?_set_ne (fun h => hp h.symm)]

/-- Filling the slot `insert_precheck` chose. -/
theorem insert_inv {e : Env K V} {s : Slots K V} (hI : Inv e s) {k : K} {v : V} {i : Nat}
    (hk : k ≠ e.null) (hs : 0 < s.length) (hi : i < s.length)
    (hpre : precheck e s k = some (.fresh i)) (hc : ¬ Clobbers e s k) :
    Inv e (s.set i ⟨k, v⟩) ∧ (∀ p w, ¬ At e s p k w) ∧ (∀ k' w, ¬ At e s i k' w) ∧
      index e s.length k ≤ i := by
  obtain ⟨j, h1, h2, h3, h4⟩ := precheck_cases e s k hs hk
  have hji : j = i ∧ ∃ y, s[i]? = some y ∧ y.key = e.null := by
    rcases h4 with ⟨h4, h5⟩ | ⟨y, hy, hn, h5⟩ | ⟨y, -, -, -, h5⟩ | ⟨y, -, -, h5⟩
    · rw [hpre] at h5
      cases hh : e.hi with
      | none => rw [hh] at h5; cases h5
      | some h =>
        rw [hh] at h5
        simp only [Option.map_some] at h5
        injection h5 with h5
        split at h5
        · injection h5 with h5; omega
        · cases h5
    · rw [hpre] at h5; injection h5 with h5; injection h5 with h5
      subst h5; exact ⟨rfl, y, hy, hn⟩
    · rw [hpre] at h5; cases h5
    · rw [hpre] at h5; injection h5 with h5; cases h5
  obtain ⟨rfl, y, hy, hyn⟩ := hji
  have hslot : ∀ k' w, ¬ At e s j k' w := by
    intro k' w h
    rw [h.1] at hy; injection hy with hy; subst hy; exact h.2 hyn
  have hclean : ∀ p k' w, At e s p k' w → j < p → index e s.length k' ≤ j →
      index e s.length k' = index e s.length k ∧ k' ≠ k := by
    intro p k' w hp hjp hle
    constructor
    · by_cases h : index e s.length k' = index e s.length k
      · exact h
      · exact absurd ⟨j, p, k', w, hpre, hp, hjp, hle, Or.inl h⟩ hc
    · intro h
      exact absurd ⟨j, p, k', w, hpre, hp, hjp, hle, Or.inr h⟩ hc
  have habs : ∀ p w, ¬ At e s p k w := by
    intro p w hp
    have hh := hI.home p k w hp
    rcases Nat.lt_trichotomy p j with h | h | h
    · obtain ⟨z, hz, -, -, hz2⟩ := h3 p hh h
      rw [hp.1] at hz; injection hz with hz; subst hz; exact hz2 rfl
    · subst h; exact hslot k w hp
    · exact (hclean p k w hp h h1).2 rfl
  refine ⟨⟨?_, ?_, ?_⟩, habs, hslot, h1⟩
  · intro p q k' v' w' hp hq
    by_cases hpj : p = j
    · by_cases hqj : q = j
      · omega
      · exfalso
        subst hpj
        rw [at_set_ne hqj] at hq
        have : k' = k := by
          have := hp.1.symm.trans (at_set_self (e := e) (v := v) hi hk).1
          injection this with this; injection this
        subst this
        exact habs q w' hq
    · rw [at_set_ne hpj] at hp
      by_cases hqj : q = j
      · exfalso
        subst hqj
        have : k' = k := by
          have := hq.1.symm.trans (at_set_self (e := e) (v := v) hi hk).1
          injection this with this; injection this
        subst this
        exact habs p v' hp
      · rw [at_set_ne hqj] at hq
        exact hI.uniq p q k' v' w' hp hq
  · intro p k' v' hp
    rw [List.length_set]
    by_cases hpj : p = j
    · subst hpj
      have : k' = k := by
        have := hp.1.symm.trans (at_set_self (e := e) (v := v) hi hk).1
        injection this with this; injection this
      subst this; exact h1
    · rw [at_set_ne hpj] at hp; exact hI.home p k' v' hp
  · intro p k' v' hp q hq1 hq2
    rw [List.length_set] at hq1 ⊢
    by_cases hpj : p = j
    · subst hpj
      have : k' = k := by
        have := hp.1.symm.trans (at_set_self (e := e) (v := v) hi hk).1
        injection this with this; injection this
      subst this
      obtain ⟨z, hz, hz1, hz2, -⟩ := h3 q hq1 hq2
      exact ⟨z, by rw [List.getElem?_set_ne (by omega)]; exact hz, Or.inl ⟨hz1, hz2⟩⟩
    · rw [at_set_ne hpj] at hp
      by_cases hqj : q = j
      · subst hqj
        obtain ⟨hc1, -⟩ := hclean p k' v' hp hq2 hq1
        exact ⟨⟨k, v⟩, by rw [List.getElem?_set_self hi], Or.inl ⟨hk, hc1.symm⟩⟩
      · obtain ⟨z, hz, hz1⟩ := hI.path p k' v' hp q hq1 hq2
        exact ⟨z, by rw [List.getElem?_set_ne (by omega)]; exact hz, hz1⟩

/-- In a table without marks in between, no insertion clobbers. -/
theorem dense_clean {e : Env K V} {s : Slots K V} (hD : Dense e s) (hs : 0 < s.length) (k : K) :
    ¬ Clobbers e s k := by
  rintro ⟨i, p, k', v', hpre, hp, hip, hle, -⟩
  have hk : k ≠ e.null := by
    intro h; rw [precheck, if_pos h] at hpre; cases hpre
  obtain ⟨j, h1, h2, h3, h4⟩ := precheck_cases e s k hs hk
  have hpl := get_lt hp.1
  obtain ⟨z, hz, hz1, -⟩ := hD.path p k' v' hp i hle hip
  rcases h4 with ⟨h4, h5⟩ | ⟨y, hy, hn, h5⟩ | ⟨y, -, -, -, h5⟩ | ⟨y, -, -, h5⟩
  · rw [hpre] at h5
    cases hh : e.hi with
    | none => rw [hh] at h5; cases h5
    | some h =>
      rw [hh] at h5
      simp only [Option.map_some] at h5
      injection h5 with h5
      split at h5
      · injection h5 with h5; omega
      · cases h5
  · rw [hpre] at h5; injection h5 with h5; injection h5 with h5
    subst h5
    rw [hy] at hz; injection hz with hz; subst hz; exact hz1 hn
  · rw [hpre] at h5; cases h5
  · rw [hpre] at h5; injection h5 with h5; cases h5

theorem dense_insert {e : Env K V} {s : Slots K V} (hD : Dense e s) {k : K} {v : V} {i : Nat}
    (hk : k ≠ e.null) (hs : 0 < s.length) (hi : i < s.length)
    (hpre : precheck e s k = some (.fresh i)) : Dense e (s.set i ⟨k, v⟩) := by
  obtain ⟨hI, habs, hslot, h1⟩ := insert_inv (v := v) hD.inv hk hs hi hpre (dense_clean hD hs k)
  refine ⟨hI.uniq, hI.home, ?_⟩
  intro p k' v' hp q hq1 hq2
  rw [List.length_set] at hq1 ⊢
  by_cases hpj : p = i
  · subst hpj
    have : k' = k := by
      have := hp.1.symm.trans (at_set_self (e := e) (v := v) hi hk).1
      injection this with this; injection this
    subst this
    obtain ⟨j, h1, h2, h3, h4⟩ := precheck_cases e s k' hs hk
    have hji : p ≤ j := by
      rcases h4 with ⟨h4, h5⟩ | ⟨y, hy, hn, h5⟩ | ⟨y, -, -, -, h5⟩ | ⟨y, -, -, h5⟩
      · omega
      · rw [hpre] at h5; injection h5 with h5; injection h5 with h5; omega
      · rw [hpre] at h5; cases h5
      · rw [hpre] at h5; injection h5 with h5; cases h5
    obtain ⟨z, hz, hz1, hz2, -⟩ := h3 q hq1 (by omega)
    exact ⟨z, by rw [List.getElem?_set_ne (by omega)]; exact hz, hz1, hz2⟩
  · rw [at_set_ne hpj] at hp
    obtain ⟨z, hz, hz1, hz2⟩ := hD.path p k' v' hp q hq1 hq2
    by_cases hqi : q = i
    · subst hqi
      exact absurd ⟨by rw [hz], hz1⟩ (hslot z.key z.raw)
    · exact ⟨z, by rw [List.getElem?_set_ne (by omega)]; exact hz, hz1, hz2⟩

theorem repr_insert {e : Env K V} {s : Slots K V} {m : K → Option V} (hm : Repr e s m) {k : K}
    {v : V} {i : Nat} (hk : k ≠ e.null) (hi : i < s.length) (habs : ∀ p w, ¬ At e s p k w)
    (hslot : ∀ k' w, ¬ At e s i k' w) : Repr e (s.set i ⟨k, v⟩) (Spec.upd m k (some v)) := by
  intro k' w
  unfold Spec.upd
  by_cases hkk : k' = k
  · subst hkk
    rw [if_pos rfl]
    constructor
    · intro h; injection h with h; subst h; exact ⟨i, at_set_self hi hk⟩
    · rintro ⟨p, hp⟩
      by_cases hpi : p = i
      · subst hpi; rw [hp.get (at_set_self hi hk)]
      · rw [at_set_ne hpi] at hp; exact absurd hp (habs p w)
  · rw [if_neg hkk, hm k' w]
    constructor
    · rintro ⟨p, hp⟩
      have hpi : p ≠ i := by
        intro h; subst h; exact hslot k' w hp
      exact ⟨p, (at_set_ne hpi).mpr hp⟩
    · rintro ⟨p, hp⟩
      by_cases hpi : p = i
      · exfalso
        subst hpi
        have := hp.1.symm.trans (at_set_self (e := e) (v := v) hi hk).1
        injection this with this; injection this with this
        exact hkk this
      · exact ⟨p, (at_set_ne hpi).mp hp⟩

/-- Replacing the value of an element. -/
theorem assign_inv {e : Env K V} {s : Slots K V} (hI : Inv e s) {k : K} {u v : V} {i : Nat}
    (h : At e s i k u) : Inv e (s.set i ⟨k, v⟩) := by
  have hi := get_lt h.1
  have key : ∀ p k' w, At e (s.set i ⟨k, v⟩) p k' w → ∃ w', At e s p k' w' := by
    intro p k' w hp
    by_cases hpi : p = i
    · subst hpi
      have := hp.1.symm.trans (at_set_self (e := e) (v := v) hi h.2).1
      injection this with this; injection this with this
      subst this; exact ⟨u, h⟩
    · exact ⟨w, (at_set_ne hpi).mp hp⟩
  refine ⟨?_, ?_, ?_⟩
  · intro p q k' v' w' hp hq
    obtain ⟨a, ha⟩ := key p k' v' hp
    obtain ⟨b, hb⟩ := key q k' w' hq
    exact hI.uniq p q k' a b ha hb
  · intro p k' v' hp
    obtain ⟨a, ha⟩ := key p k' v' hp
    rw [List.length_set]; exact hI.home p k' a ha
  · intro p k' v' hp q hq1 hq2
    rw [List.length_set] at hq1 ⊢
    obtain ⟨a, ha⟩ := key p k' v' hp
    obtain ⟨z, hz, hz1⟩ := hI.path p k' a ha q hq1 hq2
    by_cases hqi : q = i
    · subst hqi
      rw [h.1] at hz; injection hz with hz; subst hz
      refine ⟨⟨k, v⟩, by rw [List.getElem?_set_self hi], ?_⟩
      rcases hz1 with hz1 | hz1
      · exact Or.inl hz1
      · exact absurd ((isSparse_iff e _ _).mp hz1).1 h.2
    · exact ⟨z, by rw [List.getElem?_set_ne (by omega)]; exact hz, hz1⟩

theorem assign_dense {e : Env K V} {s : Slots K V} (hI : Dense e s) {k : K} {u v : V} {i : Nat}
    (h : At e s i k u) : Dense e (s.set i ⟨k, v⟩) := by
  have hi := get_lt h.1
  have hI' := assign_inv (v := v) hI.inv h
  refine ⟨hI'.uniq, hI'.home, ?_⟩
  intro p k' v' hp q hq1 hq2
  rw [List.length_set] at hq1 ⊢
  obtain ⟨a, ha⟩ : ∃ w', At e s p k' w' := by
    by_cases hpi : p = i
    · subst hpi
      have := hp.1.symm.trans (at_set_self (e := e) (v := v) hi h.2).1
      injection this with this; injection this with this
      subst this; exact ⟨u, h⟩
    · exact ⟨v', (at_set_ne hpi).mp hp⟩
  obtain ⟨z, hz, hz1, hz2⟩ := hI.path p k' a ha q hq1 hq2
  by_cases hqi : q = i
  · subst hqi
    rw [h.1] at hz; injection hz with hz; subst hz
    exact ⟨⟨k, v⟩, by rw [List.getElem?_set_self hi], hz1, hz2⟩
  · exact ⟨z, by rw [List.getElem?_set_ne (by omega)]; exact hz, hz1, hz2⟩

theorem repr_assign {e : Env K V} {s : Slots K V} {m : K → Option V} (hI : Inv e s)
    (hm : Repr e s m) {k : K} {u v : V} {i : Nat} (h : At e s i k u) :
    Repr e (s.set i ⟨k, v⟩) (Spec.upd m k (some v)) := by
  have hi := get_lt h.1
  intro k' w
  unfold Spec.upd
  by_cases hkk : k' = k
  · subst hkk
    rw [if_pos rfl]
    constructor
    · intro h'; injection h' with h'; subst h'; exact ⟨i, at_set_self hi h.2⟩
    · rintro ⟨p, hp⟩
      by_cases hpi : p = i
      · subst hpi; rw [hp.get (at_set_self hi h.2)]
      · rw [at_set_ne hpi] at hp; exact absurd (hI.uniq p i k' w u hp h) hpi
  · rw [if_neg hkk, hm k' w]
    constructor
    · rintro ⟨p, hp⟩
      have hpi : p ≠ i := by
        intro h'; subst h'
        have := hp.1.symm.trans h.1
        injection this with this; injection this with this; exact hkk this
      exact ⟨p, (at_set_ne hpi).mpr hp⟩
    · rintro ⟨p, hp⟩
      by_cases hpi : p = i
      · exfalso
        subst hpi
        have := hp.1.symm.trans (at_set_self (e := e) (v := v) hi h.2).1
        injection this with this; injection this with this
        exact hkk this
      · exact ⟨p, (at_set_ne hpi).mp hp⟩

end Verif.Unordered
