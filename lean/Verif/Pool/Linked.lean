import Verif.Pool.Props
/-!
# The free-list pool of exp/memory/memory_pool2.h (C57)

`memory_pool<T, N, pool_types::linked_list>`.  An item is an index into `items`; `mem[b]` is the pointer `next` that
overlays the start of item `b` (the union, 33-39): a link while the item is free, the owner's data while it is
allocated.  The free list ends at `items.end()`, the index `N`.
-/
namespace Verif.Pool.Linked
open Verif

/-! ## The model -/

/-- `items` and `head`, memory_pool2.h:41-42 -/
structure LPool where
  mem : List Nat
  head : Nat
  deriving DecidableEq, Repr

/-- the loop of the constructor, memory_pool2.h:55-64, with `k` items left -/
def linkLoop (m : List Nat) : (k i : Nat) → Option (List Nat)
  | 0, _ => some m
  | k + 1, i =>
    match wr m i (i + 1) with
    | none => none
    | some m' => linkLoop m' k (i + 1)

/-- the constructor, memory_pool2.h:49-65, over uninitialised items -/
def create (mem : List Nat) : Option LPool := (linkLoop mem mem.length 0).map (⟨·, 0⟩)

/-- `allocate`, memory_pool2.h:68-77; the inner `none` is the null pointer -/
def allocate (p : LPool) : Option (LPool × Option Nat) :=
  if p.head = p.mem.length then some (p, none)
  else (rd p.mem p.head).map fun nx => (⟨p.mem, nx⟩, some p.head)

/-- `deallocate`, memory_pool2.h:79-85 -/
def deallocate (p : LPool) (b : Nat) : Option LPool := (wr p.mem b p.head).map (⟨·, b⟩)

/-- the loop of `count_free`, memory_pool2.h:93, which steps to the next item in storage, not in the list; `none`
never meets the end -/
def countLoop (e i : Nat) : Option Nat :=
  if i = e then some 0
  else if e < i then none
  else (countLoop e (i + 1)).map (· + 1)
termination_by e - i

/-- `count_free`, memory_pool2.h:87-96 -/
def countFree (p : LPool) : Option Nat := countLoop p.mem.length p.head

/-- the owner of item `b` writes over the bytes where the link lived -/
def userWrite (p : LPool) (b v : Nat) : Option LPool := (wr p.mem b v).map (⟨·, p.head⟩)

/-! ## Histories -/

/-- `Reach n p o`: the pool `p` of `n` items arises from construction over arbitrary memory by allocations,
deallocations of owned items and arbitrary writes of owners into their items; `o` are the items allocated and not
deallocated since. -/
inductive Reach (n : Nat) : LPool → List Nat → Prop
  | create {mem p} : mem.length = n → create mem = some p → Reach n p []
  | alloc {p o p' r} : Reach n p o → allocate p = some (p', r) → Reach n p' (r.toList ++ o)
  | free {p o b p'} : Reach n p o → b ∈ o → deallocate p b = some p' → Reach n p' (o.erase b)
  | write {p o b v p'} : Reach n p o → b ∈ o → userWrite p b v = some p' → Reach n p' o

/-! ## The invariant -/

/-- the free list: following links from `p` one passes the items `l` and then holds the end pointer -/
def Links (nx : List Nat) : Nat → List Nat → Prop
  | p, [] => p = nx.length
  | p, a :: l => p = a ∧ ∃ n, nx[a]? = some n ∧ Links nx n l

theorem links_lt {nx : List Nat} : ∀ {p : Nat} {l : List Nat}, Links nx p l → ∀ a ∈ l, a < nx.length
  | _, [], _, _, h => by simp at h
  | _, a :: l, ⟨_, n, hn, ht⟩, b, hb => by
    rcases List.mem_cons.mp hb with rfl | hb
    · exact (List.getElem?_eq_some_iff.mp hn).1
    · exact links_lt ht b hb

theorem links_set {nx : List Nat} {a v : Nat} : ∀ {p : Nat} {l : List Nat}, a ∉ l → Links nx p l →
    Links (nx.set a v) p l
  | _, [], _, h => by simpa [Links] using h
  | _, b :: l, ha, ⟨hp, n, hn, ht⟩ => by
    simp at ha
    exact ⟨hp, n, by rw [List.getElem?_set_ne ha.1]; exact hn, links_set ha.2 ht⟩

def Inv (n : Nat) (p : LPool) (o : List Nat) : Prop :=
  p.mem.length = n ∧ ∃ fl, Links p.mem p.head fl ∧ (fl ++ o).Nodup ∧ (∀ b ∈ o, b < n) ∧ fl.length + o.length = n

theorem linkLoop_spec : ∀ (k i : Nat) (m : List Nat), i + k = m.length →
    ∃ m', linkLoop m k i = some m' ∧ m'.length = m.length ∧ (∀ j, j < i → m'[j]? = m[j]?) ∧
      ∀ j, i ≤ j → j < m.length → m'[j]? = some (j + 1)
  | 0, i, m, h => ⟨m, rfl, rfl, fun _ _ => rfl, fun j h1 h2 => by omega⟩
  | k + 1, i, m, h => by
    have hi : i < m.length := by omega
    obtain ⟨m', e1, e2, e3, e4⟩ := linkLoop_spec k (i + 1) (m.set i (i + 1)) (by simp; omega)
    refine ⟨m', by simp [linkLoop, wr_lt hi, e1], by simpa using e2, fun j hj => ?_, fun j h1 h2 => ?_⟩
    · rw [e3 j (by omega), List.getElem?_set_ne (by omega)]
    · by_cases hj : j = i
      · subst hj
        rw [e3 j (by omega)]; simp [hi]
      · exact e4 j (by omega) (by simpa using h2)

theorem links_range {m : List Nat} (h : ∀ j, j < m.length → m[j]? = some (j + 1)) :
    ∀ k i, i + k = m.length → Links m i (List.range' i k)
  | 0, i, hk => by simpa [Links] using hk
  | k + 1, i, hk => ⟨rfl, i + 1, h i (by omega), links_range h k (i + 1) (by omega)⟩

theorem create_links {mem : List Nat} : ∃ m, create mem = some ⟨m, 0⟩ ∧ m.length = mem.length ∧
    Links m 0 (List.range mem.length) := by
  obtain ⟨m', e1, e2, -, e4⟩ := linkLoop_spec mem.length 0 mem (by omega)
  refine ⟨m', by simp [create, e1], e2, ?_⟩
  rw [List.range_eq_range']
  exact links_range (by intro j hj; exact e4 j (by omega) (by omega)) _ _ (by omega)

theorem inv_create {mem : List Nat} {p : LPool} (h : create mem = some p) : Inv mem.length p [] := by
  obtain ⟨m, e1, e2, e3⟩ := create_links (mem := mem)
  rw [h] at e1; cases e1
  exact ⟨e2, _, e3, by simpa using List.nodup_range, by simp, by simp⟩

theorem inv_alloc {n : Nat} {p : LPool} {o : List Nat} (h : Inv n p o) :
    ∃ p' r, allocate p = some (p', r) ∧ Inv n p' (r.toList ++ o) ∧ (r = none ↔ o.length = n) := by
  obtain ⟨hl, fl, hc, hnd, hlt, hlen⟩ := h
  unfold allocate
  cases fl with
  | nil =>
    have hh : p.head = p.mem.length := hc
    rw [if_pos hh]
    exact ⟨p, none, rfl, ⟨hl, [], hc, by simpa using hnd, by simpa using hlt, by simpa using hlen⟩,
      by simp at hlen; simp [hlen]⟩
  | cons b fl =>
    have hb := links_lt hc b (by simp)
    obtain ⟨hp, nx, hn, ht⟩ := hc
    rw [hp, if_neg (by omega)]
    simp only [rd, hn, Option.map_some]
    refine ⟨_, _, rfl, ⟨hl, fl, ht, ?_, ?_, ?_⟩, ?_⟩
    · simp only [Option.toList_some, List.cons_append, List.nil_append]
      have : (b :: fl ++ o).Perm (fl ++ b :: o) := List.perm_middle.symm
      exact this.nodup_iff.mp hnd
    · intro a ha
      simp at ha
      rcases ha with rfl | ha
      · omega
      · exact hlt a ha
    · simp at hlen ⊢; omega
    · simp at hlen ⊢; omega

theorem inv_free {n : Nat} {p : LPool} {o : List Nat} {b : Nat} (h : Inv n p o) (hb : b ∈ o) :
    ∃ p', deallocate p b = some p' ∧ p'.head = b ∧ Inv n p' (o.erase b) := by
  obtain ⟨hl, fl, hc, hnd, hlt, hlen⟩ := h
  have hbl : b < p.mem.length := by rw [hl]; exact hlt b hb
  rw [List.nodup_append] at hnd
  obtain ⟨n1, n2, n3⟩ := hnd
  have hbf : b ∉ fl := fun hm => n3 b hm b hb rfl
  refine ⟨⟨p.mem.set b p.head, b⟩, by simp [deallocate, wr_lt hbl], rfl, by simpa using hl, b :: fl, ?_, ?_, ?_, ?_⟩
  · exact ⟨rfl, p.head, by simp [hbl], links_set hbf hc⟩
  · have hp : (fl ++ o).Perm (b :: fl ++ o.erase b) := by
      have h1 : (fl ++ o).Perm (fl ++ b :: o.erase b) := (List.perm_cons_erase hb).append_left fl
      exact h1.trans List.perm_middle
    exact hp.nodup_iff.mp (List.nodup_append.mpr ⟨n1, n2, n3⟩)
  · intro a ha; exact hlt a (List.mem_of_mem_erase ha)
  · have := List.length_erase_of_mem hb
    have hpos : 0 < o.length := List.length_pos_of_mem hb
    simp; omega

theorem inv_write {n : Nat} {p : LPool} {o : List Nat} {b : Nat} (v : Nat) (h : Inv n p o) (hb : b ∈ o) :
    ∃ p', userWrite p b v = some p' ∧ Inv n p' o := by
  obtain ⟨hl, fl, hc, hnd, hlt, hlen⟩ := h
  have hbl : b < p.mem.length := by rw [hl]; exact hlt b hb
  refine ⟨⟨p.mem.set b v, p.head⟩, by simp [userWrite, wr_lt hbl], by simpa using hl, fl, ?_, hnd, hlt, hlen⟩
  refine links_set ?_ hc
  intro hm
  exact (List.nodup_append.mp hnd).2.2 b hm b hb rfl

theorem reach_inv {n : Nat} {p : LPool} {o : List Nat} (h : Reach n p o) : Inv n p o := by
  induction h with
  | create hl hc => rw [← hl]; exact inv_create hc
  | alloc _ ha ih =>
    obtain ⟨p', r, e1, e2, -⟩ := inv_alloc ih
    rw [ha] at e1; cases e1; exact e2
  | free _ hb hf ih =>
    obtain ⟨p', e1, -, e2⟩ := inv_free ih hb
    rw [hf] at e1; cases e1; exact e2
  | write _ hb hw ih =>
    obtain ⟨p', e1, e2⟩ := inv_write _ ih hb
    rw [hw] at e1; cases e1; exact e2

/-! ## C57 -/

/-- C57: in every reachable state the items handed out are pairwise distinct items of the pool; `allocate` is defined,
returns null exactly when all are in use, and otherwise an item nobody owns; owners may deallocate and write. -/
theorem linked_pool {n : Nat} {p : LPool} {o : List Nat} (h : Reach n p o) :
    o.Nodup ∧ (∀ b ∈ o, b < n) ∧
    (∃ p' r, allocate p = some (p', r) ∧ (r = none ↔ o.length = n) ∧ ∀ b, r = some b → b ∉ o ∧ b < n) ∧
    (∀ b ∈ o, (∃ p', deallocate p b = some p') ∧ ∀ v, ∃ p', userWrite p b v = some p') := by
  have hi := reach_inv h
  refine ⟨?_, ?_, ?_, fun b hb => ⟨?_, fun v => ?_⟩⟩
  · obtain ⟨-, fl, -, hnd, -⟩ := hi
    exact (List.nodup_append.mp hnd).2.1
  · obtain ⟨-, fl, -, -, hlt, -⟩ := hi
    exact hlt
  · obtain ⟨p', r, e1, e2, e3⟩ := inv_alloc hi
    refine ⟨p', r, e1, e3, fun b hb => ?_⟩
    subst hb
    obtain ⟨-, fl, -, hnd, hlt, -⟩ := e2
    have := (List.nodup_append.mp hnd).2.1
    simp at this
    exact ⟨this.1, hlt b (by simp)⟩
  · obtain ⟨p', e, -⟩ := inv_free hi hb
    exact ⟨p', e⟩
  · obtain ⟨p', e, -⟩ := inv_write v hi hb
    exact ⟨p', e⟩

/-- C57: construction is defined for every capacity and leaves everything free. -/
theorem linked_pool_create (mem : List Nat) : ∃ p, create mem = some p ∧ Reach mem.length p [] := by
  obtain ⟨m, e1, -⟩ := create_links (mem := mem)
  exact ⟨_, e1, .create rfl e1⟩

theorem countLoop_eq (e i : Nat) (h : i ≤ e) : countLoop e i = some (e - i) := by
  fun_induction countLoop e i with
  | case1 => simp
  | case2 i hne hlt => omega
  | case3 i hne hlt ih =>
    rw [ih (by omega)]
    simp; omega

theorem head_le {n : Nat} {p : LPool} {o : List Nat} (h : Inv n p o) : p.head ≤ n ∧ (p.head = n ↔ o.length = n) := by
  obtain ⟨hl, fl, hc, -, -, hlen⟩ := h
  cases fl with
  | nil =>
    have : p.head = p.mem.length := hc
    simp at hlen
    exact ⟨by omega, by omega⟩
  | cons b fl =>
    have hb := links_lt hc b (by simp)
    have := hc.1
    simp at hlen
    exact ⟨by omega, by omega⟩

/-- states reached by allocations only -/
inductive Fresh (n : Nat) : LPool → List Nat → Prop
  | create {mem p} : mem.length = n → create mem = some p → Fresh n p []
  | alloc {p o p' r} : Fresh n p o → allocate p = some (p', r) → Fresh n p' (r.toList ++ o)
  | write {p o b v p'} : Fresh n p o → b ∈ o → userWrite p b v = some p' → Fresh n p' o

theorem Fresh.reach {n : Nat} {p : LPool} {o : List Nat} (h : Fresh n p o) : Reach n p o := by
  induction h with
  | create hl hc => exact .create hl hc
  | alloc _ ha ih => exact .alloc ih ha
  | write _ hb hw ih => exact .write ih hb hw

theorem fresh_links {n : Nat} {p : LPool} {o : List Nat} (h : Fresh n p o) :
    p.mem.length = n ∧ p.head = o.length ∧ o.length ≤ n ∧ (∀ b ∈ o, b < o.length) ∧
      ∀ j, o.length ≤ j → j < n → p.mem[j]? = some (j + 1) := by
  induction h with
  | @create mem p hl hc =>
    obtain ⟨m', e1, e2, -, e4⟩ := linkLoop_spec mem.length 0 mem (by omega)
    rw [create, e1] at hc
    cases hc
    exact ⟨by simp only; omega, rfl, by simp, by simp, fun j _ hj => e4 j (by omega) (by omega)⟩
  | @alloc p o p' r _ ha ih =>
    obtain ⟨a1, a2, a3, a4, a5⟩ := ih
    unfold allocate at ha
    by_cases hh : p.head = p.mem.length
    · rw [if_pos hh] at ha
      cases ha
      exact ⟨a1, a2, a3, a4, a5⟩
    · have hr := a5 p.head (by omega) (by omega)
      rw [if_neg hh, rd, hr] at ha
      cases ha
      refine ⟨a1, ?_, ?_, ?_, fun j h1 h2 => ?_⟩
      · simp; omega
      · simp; omega
      · intro b hb
        simp at hb ⊢
        rcases hb with rfl | hb
        · omega
        · have := a4 b hb; omega
      · exact a5 j (by simp at h1; omega) h2
  | @write p o b v p' _ hb hw ih =>
    obtain ⟨a1, a2, a3, a4, a5⟩ := ih
    have hbl := a4 b hb
    rw [userWrite, wr_lt (by omega)] at hw
    cases hw
    refine ⟨by simpa using a1, a2, a3, a4, fun j h1 h2 => ?_⟩
    show (p.mem.set b v)[j]? = _
    rw [List.getElem?_set_ne (by omega)]
    exact a5 j h1 h2

/-- C57: as long as nothing has been deallocated `count_free()` is the number of free items.  (Missing: histories with
deallocations, where it is wrong, `count_free_wrong`.) -/
theorem count_free_partial {n : Nat} {p : LPool} {o : List Nat} (h : Fresh n p o) :
    countFree p = some (n - o.length) := by
  obtain ⟨h1, h2, h3, -⟩ := fresh_links h
  rw [countFree, countLoop_eq _ _ (by omega), h1, h2]

/-- C57: `count_free()` is zero exactly when the pool is exhausted, in every reachable state. -/
theorem count_free_zero {n : Nat} {p : LPool} {o : List Nat} (h : Reach n p o) :
    countFree p = some 0 ↔ o.length = n := by
  have hi := reach_inv h
  obtain ⟨a, b⟩ := head_le hi
  rw [countFree, countLoop_eq _ _ (by rw [hi.1]; exact a), hi.1]
  simp
  omega

/-- **Violation.**  After deallocating item `b` `count_free()` is the distance of `b` from the end of storage, whatever
the number of free items: it is right only by coincidence. -/
theorem count_free_wrong {n : Nat} {p : LPool} {o : List Nat} (h : Reach n p o) (b : Nat) (hb : b ∈ o) :
    ∃ p', deallocate p b = some p' ∧ countFree p' = some (n - b) ∧
      (countFree p' = some (n - (o.erase b).length) ↔ b + 1 = o.length) := by
  have hi := reach_inv h
  obtain ⟨p', e1, e2, e3⟩ := inv_free hi hb
  have hlt : b < n := by obtain ⟨-, fl, -, -, hlt, -⟩ := hi; exact hlt b hb
  have hc : countFree p' = some (n - b) := by
    rw [countFree, countLoop_eq _ _ (by rw [e3.1, e2]; omega), e3.1, e2]
  refine ⟨p', e1, hc, ?_⟩
  obtain ⟨-, fl, -, -, -, hlen⟩ := hi
  have h1 := List.length_erase_of_mem hb
  have h2 : 0 < o.length := List.length_pos_of_mem hb
  rw [hc]
  simp only [Option.some.injEq]
  omega

/-- A pool of three with items 0 and 1 taken, 0 scribbled on; then 0 returned: two free, three counted. -/
example : Reach 3 ⟨[77, 2, 3], 2⟩ [1, 0] ∧ deallocate ⟨[77, 2, 3], 2⟩ 0 = some ⟨[2, 2, 3], 0⟩ ∧
    countFree ⟨[2, 2, 3], 0⟩ = some 3 := by
  refine ⟨?_, by decide, by rw [countFree, countLoop_eq]; decide; decide⟩
  have h0 : Reach 3 ⟨[1, 2, 3], 0⟩ [] := .create (mem := [9, 9, 9]) rfl (by decide)
  have h1 : Reach 3 ⟨[1, 2, 3], 1⟩ [0] := .alloc (r := some 0) h0 (by decide)
  have h2 : Reach 3 ⟨[1, 2, 3], 2⟩ [1, 0] := .alloc (r := some 1) h1 (by decide)
  exact .write (b := 0) (v := 77) h2 (by decide) (by decide)

example : Fresh 3 ⟨[1, 2, 3], 1⟩ [0] :=
  .alloc (r := some 0) (.create (mem := [9, 9, 9]) rfl (by decide : create [9, 9, 9] = some ⟨[1, 2, 3], 0⟩)) (by decide)

end Verif.Pool.Linked
