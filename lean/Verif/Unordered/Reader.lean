import Verif.Unordered.Props

/-!
# A map that an interrupt handler looks things up in while it is edited (C118)

`src/estd/internal/container/unordered_map.h` takes no lock.  The main program inserts, erases or clears; an interrupt
handler calls `find` between any two stores of that edit.  One core, stores are not reordered; a key and a mapped value are
stored with one store each.  The handler only reads, so that the main program's own decisions are those of
`Verif.Unordered.Model`.
-/
namespace Verif.Unordered.Reader
open Verif.Unordered

set_option linter.unusedSectionVars false

variable {K V : Type} [DecidableEq K]

/-! ## Model -/

/-- the contents of one slot after a store to its key, its mapped value or its bit fields, unordered/traits.h:82-104 -/
abbrev Store (K V : Type) := Nat × Slot K V

/-- making stores, unordered/base.h:61 `container_` -/
def play (s : Slots K V) : List (Store K V) → Slots K V
  | [] => s
  | w :: ws => play (s.set w.1 w.2) ws

/-- the stores of `insert` and `emplace`, unordered_map.h:196-205, 250-260: the constructor of `pair` makes `first`, then
`second` (the members' order, utility.h:26-41) -/
def insertStores (e : Env K V) (s : Slots K V) (k : K) (v : V) : Option (List (Store K V)) :=
  match precheck e s k with
  | none => none
  | some (.fresh i) =>
    match s[i]? with
    | none => none
    | some x => some [(i, ⟨k, x.raw⟩), (i, ⟨k, v⟩)]
  | some (.dup _) => some []
  | some .refused => some []

/-- the stores of `prune_sparse_ll`, unordered_map.h:150-156 with 313-324; the arguments are those of `prune` -/
def pruneStores (e : Env K V) (n : Nat) (s : Slots K V) : Nat → Option (List (Store K V))
  | 0 =>
    match e.lo with
    | none => none
    | some x => if isSparse e n x && 0 != n then none else some []
  | p + 1 =>
    match s[p]? with
    | none => none
    | some x =>
      if isSparse e n x && p + 1 != n then
        (pruneStores e n (s.set p ⟨x.key, e.lay.unmark x.raw⟩) p).map ((p, ⟨x.key, e.lay.unmark x.raw⟩) :: ·)
      else some []

/-- the stores of `erase_ll`, unordered_map.h:335-364: the key (339, 87-91), then `marked_for_gc` (352 with 321) and those of
`prune_sparse_ll`, or `marked_for_gc` (361) and `bucket` (362).  `half` is what the storage holds between those two. -/
def eraseStores (e : Env K V) (half : V → V) (s : Slots K V) (p n : Nat) : Option (List (Store K V)) :=
  match s[p]? with
  | none => none
  | some x =>
    if nextFree e s (p + 1) then
      (pruneStores e n (s.set p ⟨e.null, e.lay.unmark x.raw⟩) p).map fun l =>
        (p, ⟨e.null, x.raw⟩) :: (p, ⟨e.null, e.lay.unmark x.raw⟩) :: l
    else some [(p, ⟨e.null, x.raw⟩), (p, ⟨e.null, half x.raw⟩), (p, ⟨e.null, e.lay.mark n x.raw⟩)]

/-- the stores of `clear`, unordered_map.h:182-185 with 87-91; the list is the part of the array from slot `i` on -/
def clearStores (e : Env K V) : Slots K V → Nat → List (Store K V)
  | [], _ => []
  | x :: xs, i => (i, destruct e x) :: clearStores e xs (i + 1)

/-! ## Specification -/

/-- the map as a handler finds it after `j` of the stores -/
def Spec.during (s : Slots K V) (l : List (Store K V)) (j : Nat) : Slots K V := play s (l.take j)

/-- what a lookup answers: undefined (`none`), "not there" (`some none`) or a value -/
def Spec.told (e : Env K V) (s : Slots K V) (k : K) : Option (Option V) := lookup e s k

/-! ## Lookups -/

theorem play_append (s : Slots K V) (a b : List (Store K V)) : play s (a ++ b) = play (play s a) b := by
  induction a generalizing s with
  | nil => rfl
  | cons w ws ih => exact ih _

theorem play_length (s : Slots K V) (l : List (Store K V)) : (play s l).length = s.length := by
  induction l generalizing s with
  | nil => rfl
  | cons w ws ih => rw [play, ih, List.length_set]

/-- when a lookup finds a key in slot `r` -/
theorem find_iff (e : Env K V) (s : Slots K V) (k : K) (r : Nat) :
    find e s k = some (some r) ↔ k ≠ e.null ∧ index e s.length k ≤ r ∧ (∃ v, s[r]? = some ⟨k, v⟩) ∧
      ∀ q, index e s.length k ≤ q → q < r → ∃ y, s[q]? = some y ∧ Passable e s.length (index e s.length k) k y := by
  constructor
  · intro h
    by_cases hk : k = e.null
    · rw [find, if_pos hk] at h; cases h
    by_cases hs : s = []
    · subst hs
      rw [find, if_neg hk] at h
      simp only [List.drop_nil, findScan] at h
      cases hh : e.hi <;> rw [hh] at h <;> cases h
    have hs' : 0 < s.length := List.length_pos_iff.mpr hs
    obtain ⟨j, h1, -, h3, h4⟩ := find_cases e s k hs' hk
    rcases h4 with ⟨-, h4⟩ | ⟨y, -, -, -, h4⟩ | ⟨y, -, -, -, h4⟩ | ⟨y, hy, hyk, h4⟩
    · rw [h4] at h; cases hh : e.hi <;> rw [hh] at h <;> cases h
    · rw [h4] at h; cases h
    · rw [h4] at h; cases h
    · rw [h4] at h
      injection h with h; injection h with h
      subst h
      exact ⟨hk, h1, ⟨y.raw, by rw [hy, ← hyk]⟩, h3⟩
  · rintro ⟨hk, h1, ⟨v, hv⟩, h3⟩
    rw [find, if_neg hk]
    have hd : index e s.length k + (r - index e s.length k) = r := by omega
    have h := find_skip e s.length (index e s.length k) k s (r - index e s.length k) (index e s.length k)
      (by rw [hd]; exact h3)
    rw [hd] at h
    show findScan e s.length (index e s.length k) k (s.drop (index e s.length k)) (index e s.length k) = _
    rw [h, drop_of_get hv, findScan, if_neg (by simp [isSparse, isEmpty, hk]), if_neg (by simp [isEmpty, hk]),
      if_neg (by simp), if_pos rfl]

/-- a slot behind the one that is found, or in front of the bucket, plays no part -/
theorem find_set_away {e : Env K V} {s : Slots K V} {k : K} {r : Nat} (h : find e s k = some (some r)) {q : Nat}
    (hq : r < q ∨ q < index e s.length k) (y : Slot K V) : find e (s.set q y) k = some (some r) := by
  obtain ⟨hk, h1, ⟨v, hv⟩, h3⟩ := (find_iff e s k r).mp h
  rw [find_iff, List.length_set]
  refine ⟨hk, h1, ⟨v, by rw [List.getElem?_set_ne (by omega)]; exact hv⟩, ?_⟩
  intro t ht1 ht2
  rw [List.getElem?_set_ne (by omega)]
  exact h3 t ht1 ht2

/-- the same for many stores; the value found is the same too -/
theorem told_play_away {e : Env K V} {k : K} {r : Nat} (l : List (Store K V)) :
    ∀ {s : Slots K V}, find e s k = some (some r) → (∀ w ∈ l, r < w.1 ∨ w.1 < index e s.length k) →
      find e (play s l) k = some (some r) ∧ Spec.told e (play s l) k = Spec.told e s k := by
  induction l with
  | nil => intro s h _; exact ⟨h, rfl⟩
  | cons w ws ih =>
    intro s h hw
    have h0 := hw w (List.mem_cons_self)
    have h1 := find_set_away h h0 w.2
    have h2 := ih h1 (fun u hu => by rw [List.length_set]; exact hw u (List.mem_cons_of_mem _ hu))
    refine ⟨h2.1, ?_⟩
    rw [play, h2.2, Spec.told, Spec.told, lookup, lookup, h1, h]
    have hle := ((find_iff e s k r).mp h).2.1
    simp only [Option.map_some, Option.bind_some]
    rw [List.getElem?_set_ne (by omega)]

/-- a key that no slot holds is not found -/
theorem not_found {e : Env K V} {s : Slots K V} {k : K} (h : ∀ x ∈ s, x.key ≠ k) (r : Nat) :
    find e s k ≠ some (some r) := by
  intro hf
  obtain ⟨-, -, ⟨v, hv⟩, -⟩ := (find_iff e s k r).mp hf
  exact h _ (List.mem_of_getElem? hv) rfl

/-! ## The stores are the edit -/

/-- All the stores of an insertion together are the insertion. -/
theorem insert_whole (e : Env K V) (s : Slots K V) (k : K) (v : V) :
    (insertStores e s k v).map (play s) = (insert e s k v).map (·.1) := by
  unfold insertStores insert
  cases precheck e s k with
  | none => rfl
  | some o =>
    cases o with
    | dup i => rfl
    | refused => rfl
    | fresh i =>
      dsimp only
      by_cases hi : i < s.length
      · rw [List.getElem?_eq_getElem hi, if_pos hi]
        simp [play]
      · rw [List.getElem?_eq_none (by omega), if_neg hi]
        rfl

theorem prune_whole (e : Env K V) (n : Nat) (m : Nat) :
    ∀ s : Slots K V, (pruneStores e n s m).map (play s) = prune e n s m := by
  induction m with
  | zero =>
    intro s
    unfold pruneStores prune
    cases e.lo with
    | none => rfl
    | some x => dsimp only; split <;> rfl
  | succ p ih =>
    intro s
    unfold pruneStores prune
    cases s[p]? with
    | none => rfl
    | some x =>
      dsimp only
      split
      · rw [← ih, Option.map_map]; rfl
      · rfl

/-- All the stores of an erasure together are the erasure. -/
theorem erase_whole (e : Env K V) (half : V → V) (s : Slots K V) (p n : Nat) :
    (eraseStores e half s p n).map (play s) = eraseAt e s p n := by
  unfold eraseStores eraseAt
  cases s[p]? with
  | none => rfl
  | some x =>
    dsimp only
    split
    · rw [← prune_whole, Option.map_map]
      congr 1
      funext l
      simp [play, destruct]
    · simp [play, destruct]

theorem play_clear (e : Env K V) (b : Slots K V) : ∀ (a : Slots K V) (j : Nat),
    play (a ++ b) ((clearStores e b a.length).take j) = a ++ (b.take j).map (destruct e) ++ b.drop j := by
  induction b with
  | nil => intro a j; simp [clearStores, play]
  | cons x xs ih =>
    intro a j
    cases j with
    | zero => simp [play]
    | succ j =>
      rw [clearStores, List.take_succ_cons, play]
      have h := ih (a ++ [destruct e x]) j
      simp only [List.length_append, List.length_singleton] at h
      simpa using h

/-- All the stores of a clear together are the clear. -/
theorem clear_whole (e : Env K V) (s : Slots K V) : play s (clearStores e s 0) = clear e s := by
  have h := play_clear e s [] (clearStores e s 0).length
  simp only [List.length_nil, List.nil_append, List.take_length] at h
  rw [h]
  have hl : ∀ (b : Slots K V) i, (clearStores e b i).length = b.length := by
    intro b
    induction b with
    | nil => intro i; rfl
    | cons x xs ih => intro i; simp [clearStores, ih]
  rw [hl]
  simp [clear]

/-! ## Insertions -/

theorem fresh_facts {e : Env K V} {s : Slots K V} {k : K} {i : Nat} (h : precheck e s k = some (.fresh i))
    (hi : i < s.length) : k ≠ e.null ∧ index e s.length k ≤ i ∧
      Occupied e s (index e s.length k) k (index e s.length k) i ∧ ∃ x, s[i]? = some x ∧ x.key = e.null := by
  have hk : k ≠ e.null := by
    intro hk; rw [precheck, if_pos hk] at h; cases h
  obtain ⟨j, h1, h2, h3, h4⟩ := precheck_cases e s k (by omega) hk
  rcases h4 with ⟨hj, h4⟩ | ⟨y, hy, hyn, h4⟩ | ⟨y, -, -, -, h4⟩ | ⟨y, -, -, h4⟩
  · rw [h4] at h
    cases hh : e.hi with
    | none => rw [hh] at h; cases h
    | some z =>
      rw [hh] at h
      simp only [Option.map_some] at h
      split at h
      · injection h with h; injection h with h; omega
      · cases h
  · rw [h4] at h
    injection h with h; injection h with h
    subst h
    exact ⟨hk, h1, h3, y, hy, hyn⟩
  · rw [h4] at h; cases h
  · rw [h4] at h; cases h

theorem insertStores_cases {e : Env K V} {s : Slots K V} {k : K} {v : V} {l : List (Store K V)}
    (h : insertStores e s k v = some l) :
    l = [] ∨ ∃ i x, precheck e s k = some (.fresh i) ∧ s[i]? = some x ∧ x.key = e.null ∧
      l = [(i, ⟨k, x.raw⟩), (i, ⟨k, v⟩)] := by
  unfold insertStores at h
  cases hp : precheck e s k with
  | none => rw [hp] at h; cases h
  | some o =>
    rw [hp] at h
    cases o with
    | dup i => left; injection h with h; exact h.symm
    | refused => left; injection h with h; exact h.symm
    | fresh i =>
      dsimp only at h
      cases hx : s[i]? with
      | none => rw [hx] at h; cases h
      | some x =>
        rw [hx] at h
        right
        injection h with h
        obtain ⟨-, -, -, y, hy, hyn⟩ := fresh_facts hp (get_lt hx)
        rw [hx] at hy
        injection hy with hy
        subst hy
        exact ⟨i, x, rfl, hx, hyn, h.symm⟩

/-- what a lookup of another key sees does not depend on the value in a slot that is taken -/
theorem findScan_congr (e : Env K V) (N n : Nat) (k' : K) {s t : Slots K V} (hl : s.length = t.length)
    (h : ∀ (q : Nat) x y, s[q]? = some x → t[q]? = some y → x = y ∨ (x.key = y.key ∧ x.key ≠ e.null)) :
    ∀ (m i : Nat), m = s.length - i → findScan e N n k' (s.drop i) i = findScan e N n k' (t.drop i) i := by
  intro m
  induction m with
  | zero =>
    intro i hi
    rw [List.drop_eq_nil_of_le (by omega), List.drop_eq_nil_of_le (by omega)]
  | succ m ih =>
    intro i hi
    have hs : s[i]? = some s[i] := List.getElem?_eq_getElem (by omega)
    have ht : t[i]? = some t[i] := List.getElem?_eq_getElem (by omega)
    rw [drop_of_get hs, drop_of_get ht, findScan, findScan, ih (i + 1) (by omega)]
    rcases h i _ _ hs ht with h | ⟨h1, h2⟩
    · rw [h]
    · have h3 : t[i].key ≠ e.null := h1 ▸ h2
      rw [isSparse_false_of_active h2, isSparse_false_of_active h3, (isEmpty_false e _).mpr h2, (isEmpty_false e _).mpr h3, h1]

/-- find does not look at the value in a slot that is taken -/
theorem find_value (e : Env K V) (s : Slots K V) (i : Nat) (k : K) (a b : V) (hk : k ≠ e.null) (k' : K) :
    find e (s.set i ⟨k, a⟩) k' = find e (s.set i ⟨k, b⟩) k' := by
  unfold find
  split
  · rfl
  · rw [List.length_set, List.length_set]
    refine findScan_congr e _ _ k' (by simp) ?_ _ _ rfl
    intro q x y hx hy
    by_cases hq : i = q
    · subst hq
      have hlt : i < s.length := by have := get_lt hx; simpa using this
      rw [List.getElem?_set_self hlt] at hx hy
      right
      injection hx with hx
      injection hy with hy
      subst hx; subst hy
      exact ⟨rfl, hk⟩
    · rw [List.getElem?_set_ne hq] at hx hy
      left
      rw [hx] at hy
      injection hy

/-- **C118.** However far an insertion has come, a handler is told about every other key what it would be told before or
after the insertion, and finds the key itself as before or as after it. -/
theorem insert_answers_partial {e : Env K V} {s s' : Slots K V} {k : K} {v : V} {l : List (Store K V)} {res : InsRes}
    (hl : insertStores e s k v = some l) (h : insert e s k v = some (s', res)) (j : Nat) :
    (∀ k', k' ≠ k → Spec.told e (Spec.during s l j) k' = Spec.told e s k' ∨
      Spec.told e (Spec.during s l j) k' = Spec.told e s' k') ∧
    (find e (Spec.during s l j) k = find e s k ∨ find e (Spec.during s l j) k = find e s' k) := by
  have hw := insert_whole e s k v
  rw [hl, h] at hw
  injection hw with hw
  have hw' : s' = play s l := hw.symm
  rw [hw']
  rcases insertStores_cases hl with rfl | ⟨i, x, hp, hx, hxn, rfl⟩
  · exact ⟨fun k' _ => Or.inl (by simp [Spec.during, play]), Or.inl (by simp [Spec.during, play])⟩
  · have hlt := get_lt hx
    have hk := (fresh_facts hp hlt).1
    match j with
    | 0 => exact ⟨fun k' _ => Or.inl rfl, Or.inl rfl⟩
    | 1 =>
      have e1 : Spec.during s [(i, (⟨k, x.raw⟩ : Slot K V)), (i, ⟨k, v⟩)] 1 = s.set i ⟨k, x.raw⟩ := rfl
      have e2 : play s [(i, (⟨k, x.raw⟩ : Slot K V)), (i, ⟨k, v⟩)] = s.set i ⟨k, v⟩ := by simp [play]
      rw [e1, e2]
      refine ⟨fun k' hk' => Or.inr ?_, Or.inr (find_value e s i k _ _ hk k)⟩
      rw [Spec.told, Spec.told, lookup, lookup, find_value e s i k x.raw v hk k']
      cases hf : find e (s.set i ⟨k, v⟩) k' with
      | none => rfl
      | some o =>
        cases o with
        | none => rfl
        | some r =>
          obtain ⟨-, -, ⟨u, hu⟩, -⟩ := (find_iff e _ k' r).mp hf
          have hir : i ≠ r := by
            intro hir
            subst hir
            rw [List.getElem?_set_self hlt] at hu
            injection hu with hu
            injection hu with hu
            exact hk' hu.symm
          simp only [Option.map_some, Option.bind_some]
          rw [List.getElem?_set_ne hir, List.getElem?_set_ne hir]
    | j + 2 =>
      have e1 : Spec.during s [(i, (⟨k, x.raw⟩ : Slot K V)), (i, ⟨k, v⟩)] (j + 2) =
          play s [(i, (⟨k, x.raw⟩ : Slot K V)), (i, ⟨k, v⟩)] := by simp [Spec.during]
      rw [e1]
      exact ⟨fun k' _ => Or.inr rfl, Or.inr rfl⟩

/-- **C118.** A key that is found before an insertion is found throughout, in the same slot with the same value, unless the
insertion takes a slot between the beginning of that key's bucket and the key (one left by an erased element). -/
theorem insert_keeps {e : Env K V} {s s' : Slots K V} {k k' : K} {v : V} {l : List (Store K V)} {res : InsRes} {r : Nat}
    (hl : insertStores e s k v = some l) (h : insert e s k v = some (s', res)) (hf : find e s k' = some (some r))
    (hi : ∀ i, res = (some i, true) → i < index e s.length k' ∨ r < i) (j : Nat) :
    find e (Spec.during s l j) k' = some (some r) ∧ Spec.told e (Spec.during s l j) k' = Spec.told e s k' := by
  refine told_play_away (l.take j) hf ?_
  intro w hw
  have hw := List.mem_of_mem_take hw
  rcases insertStores_cases hl with rfl | ⟨i, x, hp, hx, hxn, rfl⟩
  · cases hw
  · have hres : res = (some i, true) := by
      rw [insert, hp] at h
      dsimp only at h
      rw [if_pos (get_lt hx)] at h
      injection h with h
      injection h with h1 h2
      exact h2.symm
    simp only [List.mem_cons, List.not_mem_nil, or_false] at hw
    rcases hw with rfl | rfl <;> exact (hi i hres).symm

/-- **Violation.** Between its two stores an insertion shows its key with whatever bytes the slot held before: a handler
is told neither "not there" nor the value. -/
theorem insert_stale {e : Env K V} {s s' : Slots K V} {k : K} {v : V} {l : List (Store K V)} {i : Nat} {x : Slot K V}
    (hl : insertStores e s k v = some l) (h : insert e s k v = some (s', (some i, true))) (hx : s[i]? = some x) :
    Spec.told e (Spec.during s l 1) k = some (some x.raw) ∧ Spec.told e s' k = some (some v) := by
  have hp : precheck e s k = some (.fresh i) ∧ s' = s.set i ⟨k, v⟩ := by
    unfold insert at h
    cases hp : precheck e s k with
    | none => rw [hp] at h; cases h
    | some o =>
      rw [hp] at h
      cases o with
      | dup i => simp at h
      | refused => simp at h
      | fresh m =>
        dsimp only at h
        split at h
        · injection h with h
          injection h with h1 h2
          injection h2 with h2
          injection h2 with h2
          subst h2
          exact ⟨rfl, h1.symm⟩
        · cases h
  obtain ⟨hk, h1, h2, -⟩ := fresh_facts hp.1 (get_lt hx)
  have hf : ∀ w : V, Spec.told e (s.set i ⟨k, w⟩) k = some (some w) := by
    intro w
    have hr : find e (s.set i ⟨k, w⟩) k = some (some i) := by
      rw [find_iff, List.length_set]
      refine ⟨hk, h1, ⟨w, List.getElem?_set_self (get_lt hx)⟩, ?_⟩
      intro q hq1 hq2
      obtain ⟨y, hy, a, b, c⟩ := h2 q hq1 hq2
      exact ⟨y, by rw [List.getElem?_set_ne (by omega)]; exact hy, Or.inr ⟨a, b, c⟩⟩
    rw [Spec.told, lookup, hr]
    simp only [Option.map_some, Option.bind_some]
    rw [List.getElem?_set_self (get_lt hx)]
    rfl
  refine ⟨?_, by rw [hp.2]; exact hf v⟩
  rw [insertStores, hp.1] at hl
  dsimp only at hl
  rw [hx] at hl
  injection hl with hl
  subst hl
  exact hf x.raw

/-! ## Erasures -/

theorem pruneStores_mem {e : Env K V} {n : Nat} (m : Nat) :
    ∀ {s : Slots K V} {l : List (Store K V)}, pruneStores e n s m = some l → ∀ w ∈ l, w.2.key = e.null ∧ w.1 < m ∧
      ∀ t, w.1 ≤ t → t < m → ∃ y, s[t]? = some y ∧ isSparse e n y = true := by
  induction m with
  | zero =>
    intro s l h w hw
    unfold pruneStores at h
    cases hlo : e.lo with
    | none => rw [hlo] at h; cases h
    | some x =>
      rw [hlo] at h
      dsimp only at h
      split at h
      · cases h
      · injection h with h; subst h; cases hw
  | succ p ih =>
    intro s l h w hw
    unfold pruneStores at h
    cases hx : s[p]? with
    | none => rw [hx] at h; cases h
    | some x =>
      rw [hx] at h
      dsimp only at h
      split at h
      · rename_i hc
        have hsp : isSparse e n x = true := by
          simp only [Bool.and_eq_true] at hc; exact hc.1
        cases hr : pruneStores e n (s.set p ⟨x.key, e.lay.unmark x.raw⟩) p with
        | none => rw [hr] at h; cases h
        | some l' =>
          rw [hr] at h
          simp only [Option.map_some] at h
          injection h with h
          subst h
          rcases List.mem_cons.mp hw with rfl | hw
          · refine ⟨((isSparse_iff e n x).mp hsp).1, by dsimp only; omega, ?_⟩
            intro t h1 h2
            dsimp only at h1
            obtain rfl : t = p := by omega
            exact ⟨x, hx, hsp⟩
          · obtain ⟨h0, h1, h2⟩ := ih hr w hw
            refine ⟨h0, by omega, ?_⟩
            intro t ht1 ht2
            by_cases htp : t = p
            · subst htp; exact ⟨x, hx, hsp⟩
            · obtain ⟨y, hy, hs⟩ := h2 t ht1 (by omega)
              rw [List.getElem?_set_ne (by omega)] at hy
              exact ⟨y, hy, hs⟩
      · injection h with h; subst h; cases hw

/-- every store of an erasure leaves the key null; it goes to the slot of the erased key, or to an erased one right in front -/
theorem eraseStores_mem {e : Env K V} {half : V → V} {s : Slots K V} {p n : Nat} {l : List (Store K V)}
    (h : eraseStores e half s p n = some l) (w : Store K V) (hw : w ∈ l) : w.2.key = e.null ∧ (w.1 = p ∨
      (nextFree e s (p + 1) = true ∧ w.1 < p ∧
        ∀ t, w.1 ≤ t → t < p → ∃ y, s[t]? = some y ∧ isSparse e n y = true)) := by
  unfold eraseStores at h
  cases hx : s[p]? with
  | none => rw [hx] at h; cases h
  | some x =>
    rw [hx] at h
    dsimp only at h
    split at h
    · rename_i hc
      cases hr : pruneStores e n (s.set p ⟨e.null, e.lay.unmark x.raw⟩) p with
      | none => rw [hr] at h; cases h
      | some l' =>
        rw [hr] at h
        simp only [Option.map_some] at h
        injection h with h
        subst h
        rcases List.mem_cons.mp hw with rfl | hw
        · exact ⟨rfl, Or.inl rfl⟩
        rcases List.mem_cons.mp hw with rfl | hw
        · exact ⟨rfl, Or.inl rfl⟩
        obtain ⟨h0, h1, h2⟩ := pruneStores_mem p hr w hw
        refine ⟨h0, Or.inr ⟨hc, h1, ?_⟩⟩
        intro t ht1 ht2
        obtain ⟨y, hy, hs⟩ := h2 t ht1 ht2
        rw [List.getElem?_set_ne (by omega)] at hy
        exact ⟨y, hy, hs⟩
    · injection h with h
      subst h
      simp only [List.mem_cons, List.not_mem_nil, or_false] at hw
      rcases hw with rfl | rfl | rfl <;> exact ⟨rfl, Or.inl rfl⟩

theorem found_behind {e : Env K V} {s : Slots K V} {k k' : K} {p r : Nat} (hf : find e s k = some (some p))
    (hf' : find e s k' = some (some r)) (hpr : p < r) (hb : index e s.length k' = index e s.length k) :
    nextFree e s (p + 1) = false := by
  obtain ⟨hk, h1, -, h3⟩ := (find_iff e s k p).mp hf
  obtain ⟨hk', h1', ⟨v', hv'⟩, h3'⟩ := (find_iff e s k' r).mp hf'
  by_cases hr : p + 1 = r
  · subst hr
    simp [nextFree, hv', isNullNotSparse, isEmpty, hk']
  · obtain ⟨y, hy, hp⟩ := h3' (p + 1) (by omega) (by omega)
    rw [nextFree, hy]
    rcases hp with hp | ⟨hp, -, -⟩
    · simp [isNullNotSparse, ((isSparse_iff e _ y).mp hp).2.1]
    · simp [isNullNotSparse, isEmpty, hp]

/-- **C118.** However far an erasure has come, a handler is told about a key that is there what it would be told before,
unless that key is further on in the same bucket; when nothing of its bucket follows the erased key this is every key. -/
theorem erase_keeps_partial {e : Env K V} {half : V → V} {s : Slots K V} {k k' : K} {p r : Nat} {l : List (Store K V)}
    (hf : find e s k = some (some p)) (hl : eraseStores e half s p (index e s.length k) = some l) (hk : k' ≠ k)
    (hf' : find e s k' = some (some r)) (hr : index e s.length k' = index e s.length k → r < p) (j : Nat) :
    find e (Spec.during s l j) k' = some (some r) ∧ Spec.told e (Spec.during s l j) k' = Spec.told e s k' := by
  obtain ⟨hk0, h1, ⟨v, hv⟩, h3⟩ := (find_iff e s k p).mp hf
  obtain ⟨hk0', h1', ⟨v', hv'⟩, h3'⟩ := (find_iff e s k' r).mp hf'
  refine told_play_away (l.take j) hf' ?_
  intro w hw
  have hrp : r ≠ p := by
    intro h; subst h; rw [hv] at hv'; injection hv' with h; injection h with h; exact hk h.symm
  rcases (eraseStores_mem hl w (List.mem_of_mem_take hw)).2 with hw | ⟨-, hw1, hw2⟩
  · rw [hw]
    by_cases hb : index e s.length k' = index e s.length k
    · exact Or.inl (hr hb)
    · by_cases hlt : r < p
      · exact Or.inl hlt
      · right
        by_cases hn : p < index e s.length k'
        · exact hn
        · obtain ⟨y, hy, hp⟩ := h3' p (by omega) (by omega)
          rw [hv] at hy
          injection hy with hy
          subst hy
          rcases hp with hp | ⟨-, hp, -⟩
          · exact absurd ((isSparse_iff e _ _).mp hp).1 hk0
          · exact absurd hp.symm hb
  · by_cases hlt : r < w.1
    · exact Or.inl hlt
    · right
      by_cases hn : w.1 < index e s.length k'
      · exact hn
      · exfalso
        obtain ⟨z, hz, hzs⟩ := hw2 w.1 (Nat.le_refl _) hw1
        have hzn := (isSparse_iff e _ z).mp hzs
        by_cases hwr : w.1 = r
        · rw [hwr, hv'] at hz
          injection hz with hz
          subst hz
          exact hk0' hzn.1
        · obtain ⟨y, hy, hp⟩ := h3' w.1 (by omega) (by omega)
          rw [hz] at hy
          injection hy with hy
          subst hy
          rcases hp with hp | ⟨hp, -, -⟩
          · have hb : index e s.length k' = index e s.length k := by
              rw [← ((isSparse_iff e _ z).mp hp).2.2, ← hzn.2.2]
            obtain ⟨u, hu, hus⟩ := hw2 r (by omega) (hr hb)
            rw [hv'] at hu
            injection hu with hu
            subst hu
            exact hk0' ((isSparse_iff e _ _).mp hus).1
          · exact hp hzn.1

theorem play_null (e : Env K V) (l : List (Store K V)) (hl : ∀ w ∈ l, w.2.key = e.null) :
    ∀ s : Slots K V, ∀ (q : Nat) y, (play s l)[q]? = some y → y.key = e.null ∨ s[q]? = some y := by
  induction l with
  | nil => intro s q y h; exact Or.inr h
  | cons w ws ih =>
    intro s q y h
    rcases ih (fun u hu => hl u (List.mem_cons_of_mem _ hu)) _ q y h with h | h
    · exact Or.inl h
    · by_cases hq : w.1 = q
      · subst hq
        rw [List.getElem?_set_self (by have := get_lt h; simpa using this)] at h
        injection h with h
        left; rw [← h]; exact hl w List.mem_cons_self
      · rw [List.getElem?_set_ne hq] at h
        exact Or.inr h

/-- **C118.** What a handler is told during an erasure is true of the map before it: a key it finds was there, in that slot
and with that value. -/
theorem erase_true {e : Env K V} {half : V → V} {s : Slots K V} {p n : Nat} {l : List (Store K V)}
    (hl : eraseStores e half s p n = some l) (j : Nat) (k' : K) (r : Nat)
    (hf : find e (Spec.during s l j) k' = some (some r)) :
    ∃ v, At e s r k' v ∧ Spec.told e (Spec.during s l j) k' = some (some v) := by
  obtain ⟨hk, -, ⟨v, hv⟩, -⟩ := (find_iff e _ k' r).mp hf
  refine ⟨v, ⟨?_, hk⟩, ?_⟩
  · rcases play_null e _ (fun w hw => (eraseStores_mem hl w (List.mem_of_mem_take hw)).1) s r _ hv with h | h
    · exact absurd h hk
    · exact h
  · rw [Spec.told, lookup, hf]
    simp only [Option.map_some, Option.bind_some, hv]

/-- **C118.** From the first store of its erasure on, a key that the map holds once is not found any more. -/
theorem erase_gone {e : Env K V} {half : V → V} {s : Slots K V} {k : K} {p : Nat} {l : List (Store K V)}
    (hf : find e s k = some (some p)) (hl : eraseStores e half s p (index e s.length k) = some l)
    (hu : ∀ q v, At e s q k v → q = p) (j : Nat) (hj : 0 < j) (r : Nat) :
    find e (Spec.during s l j) k ≠ some (some r) := by
  intro h
  obtain ⟨v, hv, -⟩ := erase_true hl j k r h
  obtain rfl := hu r v hv
  obtain ⟨hk, -, ⟨u, hu'⟩, -⟩ := (find_iff e _ k r).mp h
  have hfst : ∃ y ws, l = (r, y) :: ws ∧ y.key = e.null := by
    have hx := hv.1
    unfold eraseStores at hl
    rw [hx] at hl
    dsimp only at hl
    split at hl
    · cases hr : pruneStores e (index e s.length k) (s.set r ⟨e.null, e.lay.unmark v⟩) r with
      | none => rw [hr] at hl; cases hl
      | some l' =>
        rw [hr] at hl
        simp only [Option.map_some] at hl
        injection hl with hl
        exact ⟨_, _, hl.symm, rfl⟩
    · injection hl with hl
      exact ⟨_, _, hl.symm, rfl⟩
  obtain ⟨y, ws, rfl, hy⟩ := hfst
  obtain ⟨j, rfl⟩ : ∃ i, j = i + 1 := ⟨j - 1, by omega⟩
  rw [Spec.during, List.take_succ_cons, play] at hu'
  rcases play_null e _ (fun w hw => (eraseStores_mem hl w
    (List.mem_cons_of_mem _ (List.mem_of_mem_take hw))).1) _ r _ hu' with h | h
  · exact hk h
  · rw [List.getElem?_set_self (get_lt hv.1)] at h
    injection h with h
    subst h
    exact hk hy

/-- **Violation.** An erasure hides, between its first store and the last, every key that is further on in the same bucket:
a handler is told "not there" about a key that is there before and after, unless the bytes of the erased value happen to look
like the mark. -/
theorem erase_hides {e : Env K V} {half : V → V} {s : Slots K V} {k k' : K} {p r : Nat} {x : Slot K V}
    {l : List (Store K V)} (hlaw : e.lay.Lawful) (h64 : index e s.length k < 64)
    (hf : find e s k = some (some p)) (hl : eraseStores e half s p (index e s.length k) = some l)
    (hf' : find e s k' = some (some r)) (hpr : p < r) (hb : index e s.length k' = index e s.length k)
    (hx : s[p]? = some x) (hlook : ¬ (e.lay.gc x.raw = true ∧ e.lay.bkt x.raw = index e s.length k)) :
    find e (Spec.during s l 1) k' = some none ∧ find e (play s l) k' = some (some r) := by
  have hnf := found_behind hf hf' hpr hb
  obtain ⟨hk0, h1, -, h3⟩ := (find_iff e s k p).mp hf
  obtain ⟨hk0', h1', ⟨v', hv'⟩, h3'⟩ := (find_iff e s k' r).mp hf'
  have hll : l = [(p, ⟨e.null, x.raw⟩), (p, ⟨e.null, half x.raw⟩),
      (p, ⟨e.null, e.lay.mark (index e s.length k) x.raw⟩)] := by
    rw [eraseStores, hx] at hl
    dsimp only at hl
    rw [if_neg (by simp [hnf])] at hl
    injection hl with hl
    exact hl.symm
  subst hll
  have hplt := get_lt hx
  constructor
  · show find e (s.set p ⟨e.null, x.raw⟩) k' = some none
    rw [find, if_neg hk0']
    dsimp only
    rw [List.length_set]
    have hd : index e s.length k' + (p - index e s.length k') = p := by omega
    have h := find_skip e s.length (index e s.length k') k' (s.set p ⟨e.null, x.raw⟩) (p - index e s.length k')
      (index e s.length k') (by
        intro q hq1 hq2
        rw [List.getElem?_set_ne (by omega)]
        exact h3' q hq1 (by omega))
    rw [hd] at h
    rw [h, drop_of_get (List.getElem?_set_self hplt), findScan, if_neg, if_pos (by simp [isEmpty])]
    rw [isSparse_iff, hb]
    exact fun h => hlook h.2
  · have hp : play s [(p, (⟨e.null, x.raw⟩ : Slot K V)), (p, ⟨e.null, half x.raw⟩),
        (p, ⟨e.null, e.lay.mark (index e s.length k) x.raw⟩)] =
        s.set p ⟨e.null, e.lay.mark (index e s.length k) x.raw⟩ := by simp [play]
    rw [hp, find_iff, List.length_set]
    refine ⟨hk0', h1', ⟨v', by rw [List.getElem?_set_ne (by omega)]; exact hv'⟩, ?_⟩
    intro q hq1 hq2
    by_cases hq : p = q
    · subst hq
      refine ⟨_, List.getElem?_set_self hplt, Or.inl ?_⟩
      rw [isSparse_iff]
      exact ⟨rfl, hlaw.gc_mark _ _, by rw [hlaw.bkt_mark, hb]; exact Nat.mod_eq_of_lt h64⟩
    · rw [List.getElem?_set_ne hq]
      exact h3' q hq1 hq2

/-! ## Clearing -/

/-- **C118.** However far a clear has come, a key that a handler finds is one the map held, with its value. -/
theorem clear_true (e : Env K V) (s : Slots K V) (j : Nat) (k' : K) (r : Nat)
    (hf : find e (Spec.during s (clearStores e s 0) j) k' = some (some r)) :
    ∃ v, At e s r k' v ∧ Spec.told e (Spec.during s (clearStores e s 0) j) k' = some (some v) := by
  obtain ⟨hk, -, ⟨v, hv⟩, -⟩ := (find_iff e _ k' r).mp hf
  have hn : ∀ (b : Slots K V) i, ∀ w ∈ clearStores e b i, w.2.key = e.null := by
    intro b
    induction b with
    | nil => intro i w hw; cases hw
    | cons x xs ih =>
      intro i w hw
      rcases List.mem_cons.mp hw with rfl | hw
      · rfl
      · exact ih _ w hw
  refine ⟨v, ⟨?_, hk⟩, ?_⟩
  · rcases play_null e _ (fun w hw => hn _ _ w (List.mem_of_mem_take hw)) s r _ hv with h | h
    · exact absurd h hk
    · exact h
  · rw [Spec.told, lookup, hf]
    simp only [Option.map_some, Option.bind_some, hv]

/-- **C118.** The keys of the part that has not been reached are still found. -/
theorem clear_rest (e : Env K V) (s : Slots K V) (j : Nat) (k' : K) (r : Nat) (hf : find e s k' = some (some r))
    (hj : j ≤ index e s.length k') :
    Spec.told e (Spec.during s (clearStores e s 0) j) k' = Spec.told e s k' := by
  refine (told_play_away _ hf ?_).2
  intro w hw
  right
  have hn : ∀ (b : Slots K V) i m, ∀ w ∈ (clearStores e b i).take m, w.1 < i + m := by
    intro b
    induction b with
    | nil => intro i m w hw; simp [clearStores] at hw
    | cons x xs ih =>
      intro i m w hw
      cases m with
      | zero => simp at hw
      | succ m =>
        rw [clearStores, List.take_succ_cons] at hw
        rcases List.mem_cons.mp hw with rfl | hw
        · dsimp only; omega
        · have := ih _ _ w hw; omega
  have := hn s 0 j w hw
  omega

/-! ## The hypotheses can be met -/

/-- eight slots, keys are natural numbers, the null key is 0, the bucket of `k` is `4 * (k / 10) % 8` -/
def exEnv : Env Nat (BitVec 32) where
  null := 0
  hash k := k / 10
  word := 4294967296
  lay := layout32
  lo := none
  hi := some ⟨0, 0⟩

/-- keys 11, 12, 13 in bucket 4 and 21 in bucket 0 -/
def exMap : Slots Nat (BitVec 32) :=
  [⟨21, 0x100⟩, ⟨0, 0⟩, ⟨0, 0⟩, ⟨0, 0⟩, ⟨11, 0x200⟩, ⟨12, 0x300⟩, ⟨13, 0x400⟩, ⟨0, 0x54⟩]

example : (run exEnv (init exEnv [0, 0, 0, 0, 0, 0, 0, 0x54]) [.insert 11 0x200, .insert 12 0x300, .insert 21 0x100,
    .insert 13 0x400]).map (·.1) = some exMap := by decide +kernel

/-- inserting 14: a handler finds it with 0x54, the bytes that were there -/
example : ∃ l, insertStores exEnv exMap 14 0x500 = some l ∧
    (insert exEnv exMap 14 0x500).map (·.2) = some (some 7, true) ∧ exMap[7]? = some ⟨0, 0x54⟩ ∧
    Spec.told exEnv (Spec.during exMap l 1) 14 = some (some 0x54) := ⟨_, rfl, by decide +kernel, rfl, by decide +kernel⟩

/-- inserting 14 takes slot 7, behind 11, 12 and 13 and outside the bucket of 21 -/
example : (insert exEnv exMap 14 0x500).map (·.2) = some (some 7, true) ∧ find exEnv exMap 13 = some (some 6) ∧
    find exEnv exMap 21 = some (some 0) := by decide +kernel

/-- erasing 12: a handler does not find 13, and finds it again afterwards -/
example : ∃ l, find exEnv exMap 12 = some (some 5) ∧ eraseStores exEnv (· ||| 1) exMap 5 4 = some l ∧
    find exEnv exMap 13 = some (some 6) ∧ index exEnv 8 13 = index exEnv 8 12 ∧
    find exEnv (Spec.during exMap l 1) 13 = some none ∧ find exEnv (Spec.during exMap l 3) 13 = some (some 6) ∧
    Spec.told exEnv (Spec.during exMap l 1) 11 = some (some 0x200) ∧
    Spec.told exEnv (Spec.during exMap l 2) 21 = some (some 0x100) :=
  ⟨_, by decide +kernel, rfl, by decide +kernel, by decide +kernel, by decide +kernel, by decide +kernel,
    by decide +kernel, by decide +kernel⟩

/-- erasing 12 and then 13: the second erasure also takes the mark of 12 back, nothing else is hidden meanwhile -/
example : ∃ s l, (erase exEnv exMap 12).map (·.1) = some s ∧ find exEnv s 13 = some (some 6) ∧
    eraseStores exEnv (· ||| 1) s 6 4 = some l ∧ l.length = 3 ∧
    Spec.told exEnv (Spec.during s l 2) 11 = some (some 0x200) ∧ find exEnv (Spec.during s l 2) 13 = some none := by
  refine ⟨exMap.set 5 ⟨0, 0x309⟩, [(6, ⟨0, 0x400⟩), (6, ⟨0, 0x400⟩), (5, ⟨0, 0x308⟩)], ?_, ?_, ?_, rfl, ?_, ?_⟩ <;>
    decide +kernel

example : exEnv.lay.Lawful := layout32_lawful

/-- clearing: half way through, 11 is gone and 21 too, 12 is in a bucket that has lost its first element -/
example : Spec.told exEnv (Spec.during exMap (clearStores exEnv exMap 0) 1) 21 = some none ∧
    Spec.told exEnv (Spec.during exMap (clearStores exEnv exMap 0) 4) 13 = some (some 0x400) := by decide +kernel

end Verif.Unordered.Reader
