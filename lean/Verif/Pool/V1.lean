import Verif.Pool.Virtual
/-!
# C70: the handle-linked pool of exp/memory/memory_pool.h

`memory_pool_1<T, N>`: `N` slots, each with room for a `T` and, behind it, the handle of the next free slot.  A handle is
an index into the storage held in a `w` bit integer; the largest value of that integer marks the end of the list.
`vals[b]` is what the bytes of slot `b` mean as a `T`.

Not modelled: `memory_pool_ll` (the same list with pointers, 537-562; no test instantiates it) and
alignment; pools of shared pointers (47-122) are in Pool/Shared.lean.  The free list is `internal::forward_list` (forward_list.h) over the storage.
-/
namespace Verif.Pool.V1
open Verif

/-! ## The model -/

/-- the width of `size_type`, deduce_fixed_size.h:21-37 -/
def handleBits (N : Nat) : Nat :=
  if N ≤ 255 then 8 else if N ≤ 65535 then 16 else 32

/-- `eol()`, memory_pool.h:291 -/
def eol (w : Nat) : Nat := 2 ^ w - 1

/-- `storage` (`value` and `_next`, memory_pool.h:145-153) and the front of the free list (list_node.h:210) -/
structure Pool (V : Type) where
  next : List Nat
  vals : List V
  front : Nat
  deriving DecidableEq, Repr

variable {V : Type}

/-- `push_front(item)`, forward_list.h:129-132 (and `deallocate_item`, memory_pool.h:440-443): the handle is the
position of the item (memory_pool.h:332-341), converted to the handle type -/
def pushFront (w : Nat) (p : Pool V) (b : Nat) : Option (Pool V) :=
  let h := b % 2 ^ w
  (wr p.next h p.front).map fun nx => ⟨nx, p.vals, h⟩

/-- the loop of the constructor, memory_pool.h:529-530, with `k` items left -/
def linkLoop (w : Nat) (nx : List Nat) : (k i : Nat) → Option (List Nat)
  | 0, _ => some nx
  | k + 1, i =>
    match wr nx i ((i + 1) % 2 ^ w) with
    | none => none
    | some nx' => linkLoop w nx' k (i + 1)

/-- the constructor, memory_pool.h:522-533, over uninitialised storage of `N` slots -/
def create (w N : Nat) (nx : List Nat) (vals : List V) : Option (Pool V) :=
  match pushFront w ⟨nx, vals, eol w⟩ 0 with
  | none => none
  | some p =>
    match linkLoop w p.next (N - 1) 0 with
    | none => none
    | some nx1 => (wr nx1 (N - 1) (eol w)).map fun nx2 => ⟨nx2, p.vals, p.front⟩

/-- `allocate()`, memory_pool.h:417-437 with `pop_front`, forward_list.h:117-127; the inner `none` is the null pointer -/
def allocate (w : Nat) (p : Pool V) : Option (Pool V × Option Nat) :=
  if p.front = eol w then some (p, none)
  else (rd p.next p.front).map fun nx => (⟨p.next, p.vals, nx⟩, some p.front)

/-- `deallocate(to_free)`, memory_pool.h:449-455; the value is the first member, so the item is where the value is -/
def deallocate (w : Nat) (p : Pool V) (b : Nat) : Option (Pool V) := pushFront w p b

/-- `construct(args...)`, memory_pool.h:458-475: allocates and constructs, without looking at the pointer -/
def construct (w : Nat) (p : Pool V) (v : V) : Option (Pool V × Nat) :=
  match allocate w p with
  | none => none
  | some (_, none) => none
  | some (p', some b) => (wr p'.vals b v).map fun vs => (⟨p'.next, vs, p'.front⟩, b)

/-- `destroy(value)`, memory_pool.h:483-492: the destructor (nothing the pool sees), then `deallocate` -/
def destroy (w : Nat) (p : Pool V) (b : Nat) : Option (Pool V) := deallocate w p b

/-- the owner of slot `b` assigns to its object -/
def assign (p : Pool V) (b : Nat) (v : V) : Option (Pool V) := (wr p.vals b v).map fun vs => ⟨p.next, vs, p.front⟩

/-- the loop of `distance(begin, end)`, iterator_standalone.h:38-50; `none`: an access outside the storage, or no end
within `fuel` steps -/
def walk (nx : List Nat) (e : Nat) : (fuel h : Nat) → Option Nat
  | 0, h => if h = e then some 0 else none
  | fuel + 1, h =>
    if h = e then some 0
    else
      match rd nx h with
      | none => none
      | some h' => (walk nx e fuel h').map (· + 1)

/-- `count_free()`, memory_pool.h:410-413, converted to `size_type` -/
def countFree (w fuel : Nat) (p : Pool V) : Option Nat := (walk p.next (eol w) fuel p.front).map (· % 2 ^ w)

/-! ## Histories -/

/-- `Reach N p o`: the pool `p` of `N` slots arises from construction over arbitrary storage by allocations, objects
constructed in the pool or in an owned slot, assignments to them, and returns of owned slots (with or without their
destructor).  `o` lists the slots handed out and not returned, with the object each holds, if any. -/
inductive Reach (N : Nat) : Pool V → List (Nat × Option V) → Prop
  | create {nx vals p} : nx.length = N → vals.length = N → create (handleBits N) N nx vals = some p → Reach N p []
  | alloc {p o p' r} : Reach N p o → allocate (handleBits N) p = some (p', r) →
      Reach N p' (r.toList.map (·, none) ++ o)
  | construct {p o p' b v} : Reach N p o → construct (handleBits N) p v = some (p', b) → Reach N p' ((b, some v) :: o)
  | assign {p l1 l2 b x v p'} : Reach N p (l1 ++ (b, x) :: l2) → assign p b v = some p' →
      Reach N p' (l1 ++ (b, some v) :: l2)
  | dealloc {p l1 l2 b x p'} : Reach N p (l1 ++ (b, x) :: l2) → deallocate (handleBits N) p b = some p' →
      Reach N p' (l1 ++ l2)
  | destroy {p l1 l2 b v p'} : Reach N p (l1 ++ (b, some v) :: l2) → destroy (handleBits N) p b = some p' →
      Reach N p' (l1 ++ l2)

/-! ## The invariant -/

/-- following links from `h` one passes the slots `l` and then holds the end mark -/
def Links (nx : List Nat) (e : Nat) : Nat → List Nat → Prop
  | h, [] => h = e
  | h, a :: l => h = a ∧ h ≠ e ∧ ∃ n, nx[a]? = some n ∧ Links nx e n l

theorem links_lt {nx : List Nat} {e : Nat} : ∀ {h : Nat} {l : List Nat}, Links nx e h l → ∀ a ∈ l, a < nx.length
  | _, [], _, _, h => by simp at h
  | _, a :: l, ⟨_, _, n, hn, ht⟩, b, hb => by
    rcases List.mem_cons.mp hb with rfl | hb
    · exact (List.getElem?_eq_some_iff.mp hn).1
    · exact links_lt ht b hb

theorem links_set {nx : List Nat} {e a v : Nat} : ∀ {h : Nat} {l : List Nat}, a ∉ l → Links nx e h l →
    Links (nx.set a v) e h l
  | _, [], _, h => by simpa [Links] using h
  | _, b :: l, ha, ⟨hp, he, n, hn, ht⟩ => by
    simp at ha
    exact ⟨hp, he, n, by rw [List.getElem?_set_ne ha.1]; exact hn, links_set ha.2 ht⟩

theorem walk_links {nx : List Nat} {e : Nat} : ∀ {h : Nat} {l : List Nat}, Links nx e h l → ∀ fuel, l.length ≤ fuel →
    walk nx e fuel h = some l.length
  | _, [], h, fuel, _ => by cases fuel <;> (have : _ = e := h; simp [walk, this])
  | _, a :: l, ⟨h1, h2, n, hn, ht⟩, fuel, hf => by
    cases fuel with
    | zero => simp at hf
    | succ fuel =>
      subst h1
      simp [walk, h2, rd, hn, walk_links ht fuel (by simpa using hf)]

/-- no slot's handle is the end mark, and no handle is truncated -/
theorem handle_fits (N : Nat) (hN : N < 2 ^ 32) : N ≤ eol (handleBits N) ∧ eol (handleBits N) < 2 ^ handleBits N := by
  unfold eol handleBits
  split
  · omega
  · split <;> omega

def Inv (N : Nat) (p : Pool V) (o : List (Nat × Option V)) : Prop :=
  p.next.length = N ∧ p.vals.length = N ∧ (∀ b v, (b, some v) ∈ o → p.vals[b]? = some v) ∧
  ∃ fl, Links p.next (eol (handleBits N)) p.front fl ∧ (fl ++ o.map (·.1)).Nodup ∧ (∀ x ∈ o, x.1 < N) ∧
    fl.length + o.length = N

theorem linkLoop_spec (w : Nat) : ∀ (k i : Nat) (m : List Nat), i + k ≤ m.length → m.length < 2 ^ w →
    ∃ m', linkLoop w m k i = some m' ∧ m'.length = m.length ∧
      (∀ j, j < i ∨ i + k ≤ j → m'[j]? = m[j]?) ∧ ∀ j, i ≤ j → j < i + k → m'[j]? = some (j + 1)
  | 0, i, m, h, _ => ⟨m, rfl, rfl, fun _ _ => rfl, fun j h1 h2 => by omega⟩
  | k + 1, i, m, h, hw => by
    have hi : i < m.length := by omega
    have hm : (i + 1) % 2 ^ w = i + 1 := Nat.mod_eq_of_lt (by omega)
    obtain ⟨m', e1, e2, e3, e4⟩ := linkLoop_spec w k (i + 1) (m.set i (i + 1)) (by simp; omega) (by simpa using hw)
    refine ⟨m', by simp [linkLoop, wr_lt hi, hm, e1], by simpa using e2, fun j hj => ?_, fun j h1 h2 => ?_⟩
    · rw [e3 j (by omega), List.getElem?_set_ne (by omega)]
    · by_cases hj : j = i
      · subst hj
        rw [e3 j (by omega)]; simp [hi]
      · exact e4 j (by omega) (by omega)

theorem links_range {m : List Nat} {e : Nat} (he : m.length ≤ e) (h : ∀ j, j + 1 < m.length → m[j]? = some (j + 1)) :
    ∀ k i, i + k + 1 = m.length → m[m.length - 1]? = some e → Links m e i (List.range' i (k + 1))
  | 0, i, hk, hl => by
    refine ⟨rfl, by omega, e, ?_, rfl⟩
    rw [← hl]; congr 1; omega
  | k + 1, i, hk, hl => by
    exact ⟨rfl, by omega, i + 1, h i (by omega), links_range he h k (i + 1) (by omega) hl⟩

theorem create_links {N : Nat} (h0 : 0 < N) (hN : N < 2 ^ 32) {nx : List Nat} {vals : List V} (hl : nx.length = N) :
    ∃ m, create (handleBits N) N nx vals = some ⟨m, vals, 0⟩ ∧ m.length = N ∧
      Links m (eol (handleBits N)) 0 (List.range N) := by
  obtain ⟨f1, f2⟩ := handle_fits N hN
  generalize handleBits N = w at *
  obtain ⟨m', e1, e2, e3, e4⟩ := linkLoop_spec w (N - 1) 0 (nx.set 0 (eol w)) (by simp; omega) (by simp; omega)
  simp only [List.length_set] at e2
  refine ⟨m'.set (N - 1) (eol w), ?_, by simp; omega, ?_⟩
  · simp [create, pushFront, wr_lt (show 0 < nx.length by omega), e1, wr_lt (show N - 1 < m'.length by omega)]
  · rw [List.range_eq_range', show N = N - 1 + 1 by omega]
    refine links_range (by simp; omega) ?_ (N - 1) 0 (by simp; omega) ?_
    · intro j hj
      simp at hj
      rw [List.getElem?_set_ne (by omega), e4 j (by omega) (by omega)]
    · simp [show m'.length - 1 = N - 1 by omega, show N - 1 < m'.length by omega]

theorem inv_alloc {N : Nat} (hN : N < 2 ^ 32) {p : Pool V} {o : List (Nat × Option V)} (h : Inv N p o) :
    ∃ p' r, allocate (handleBits N) p = some (p', r) ∧ p'.vals = p.vals ∧ Inv N p' (r.toList.map (·, none) ++ o) ∧
      (r = none ↔ o.length = N) := by
  obtain ⟨hl, hv, hobj, fl, hc, hnd, hlt, hlen⟩ := h
  unfold allocate
  cases fl with
  | nil =>
    have hh : p.front = eol (handleBits N) := hc
    rw [if_pos hh]
    exact ⟨p, none, rfl, rfl, ⟨hl, hv, by simpa using hobj, [], hc, by simpa using hnd, by simpa using hlt,
      by simpa using hlen⟩, by simp at hlen; simp [hlen]⟩
  | cons b fl =>
    have hb := links_lt hc b (by simp)
    obtain ⟨hp, he, nx, hn, ht⟩ := hc
    rw [if_neg he, hp]
    simp only [rd, hn, Option.map_some]
    refine ⟨_, _, rfl, rfl, ⟨hl, hv, ?_, fl, ht, ?_, ?_, ?_⟩, ?_⟩
    · intro a v ha
      simp at ha
      exact hobj a v ha
    · simp only [Option.toList_some, List.map_cons, List.map_nil, List.cons_append, List.nil_append]
      have : (b :: fl ++ o.map (·.1)).Perm (fl ++ b :: o.map (·.1)) := List.perm_middle.symm
      exact this.nodup_iff.mp hnd
    · intro a ha
      simp at ha
      rcases ha with rfl | ha
      · simp only; omega
      · exact hlt a ha
    · simp at hlen ⊢; omega
    · simp at hlen ⊢; omega

theorem inv_free {N : Nat} (hN : N < 2 ^ 32) {p : Pool V} {l1 l2 : List (Nat × Option V)} {b : Nat} {x : Option V}
    (h : Inv N p (l1 ++ (b, x) :: l2)) :
    ∃ p', deallocate (handleBits N) p b = some p' ∧ p'.front = b ∧ p'.vals = p.vals ∧ p'.next[b]? = some p.front ∧
      Inv N p' (l1 ++ l2) := by
  obtain ⟨hl, hv, hobj, fl, hc, hnd, hlt, hlen⟩ := h
  obtain ⟨f1, f2⟩ := handle_fits N hN
  have hbN : b < N := hlt (b, x) (by simp)
  have hbl : b < p.next.length := by omega
  have hm : b % 2 ^ handleBits N = b := Nat.mod_eq_of_lt (by omega)
  have hperm : (fl ++ (l1 ++ (b, x) :: l2).map (·.1)).Perm (b :: fl ++ (l1 ++ l2).map (·.1)) := by
    simp only [List.map_append, List.map_cons]
    have h1 : (fl ++ (l1.map (·.1) ++ b :: l2.map (·.1))).Perm (fl ++ (b :: (l1.map (·.1) ++ l2.map (·.1)))) :=
      List.perm_middle.append_left fl
    exact h1.trans List.perm_middle
  have hnd' := hperm.nodup_iff.mp hnd
  have hbf : b ∉ fl := by
    intro hm
    simp at hnd'
    exact hnd'.1.1 hm
  refine ⟨⟨p.next.set b p.front, p.vals, b⟩, by simp [deallocate, pushFront, hm, wr_lt hbl], rfl, rfl, by simp [hbl],
    by simpa using hl, hv, ?_, b :: fl, ?_, hnd', ?_, ?_⟩
  · intro a v ha
    exact hobj a v (by simp at ha ⊢; rcases ha with ha | ha <;> simp [ha])
  · exact ⟨rfl, by show b ≠ _; omega, p.front, by simp [hbl], links_set hbf hc⟩
  · intro a ha
    exact hlt a (by simp at ha ⊢; rcases ha with ha | ha <;> simp [ha])
  · simp at hlen ⊢; omega

theorem inv_assign {N : Nat} {p : Pool V} {l1 l2 : List (Nat × Option V)} {b : Nat} {x : Option V} (v : V)
    (h : Inv N p (l1 ++ (b, x) :: l2)) : ∃ p', assign p b v = some p' ∧ Inv N p' (l1 ++ (b, some v) :: l2) := by
  obtain ⟨hl, hv, hobj, fl, hc, hnd, hlt, hlen⟩ := h
  have hbN : b < N := hlt (b, x) (by simp)
  refine ⟨⟨p.next, p.vals.set b v, p.front⟩, by simp [assign, wr_lt (show b < p.vals.length by omega)], hl,
    by simpa using hv, ?_, fl, hc, ?_, ?_, ?_⟩
  · intro a u ha
    have hn := (List.nodup_append.mp hnd).2.1
    simp only [List.map_append, List.map_cons] at hn
    have hb : b ∉ l1.map (·.1) ++ l2.map (·.1) := (List.nodup_cons.mp (List.perm_middle.nodup_iff.mp hn)).1
    simp only [List.mem_append, List.mem_cons] at ha
    show (p.vals.set b v)[a]? = _
    rcases ha with ha | ha | ha
    · have hne : b ≠ a := by
        rintro rfl
        exact hb (List.mem_append.mpr (.inl (List.mem_map.mpr ⟨_, ha, rfl⟩)))
      rw [List.getElem?_set_ne hne]
      exact hobj a u (by simp [ha])
    · cases ha
      rw [List.getElem?_set_self (by omega)]
    · have hne : b ≠ a := by
        rintro rfl
        exact hb (List.mem_append.mpr (.inr (List.mem_map.mpr ⟨_, ha, rfl⟩)))
      rw [List.getElem?_set_ne hne]
      exact hobj a u (by simp [ha])
  · simpa using hnd
  · intro a ha
    simp only [List.mem_append, List.mem_cons] at ha
    rcases ha with ha | ha | ha
    · exact hlt a (by simp [ha])
    · subst ha; exact hbN
    · exact hlt a (by simp [ha])
  · simpa using hlen

theorem inv_construct {N : Nat} (hN : N < 2 ^ 32) {p : Pool V} {o : List (Nat × Option V)} (v : V) (h : Inv N p o)
    (hfree : o.length ≠ N) : ∃ p' b, construct (handleBits N) p v = some (p', b) ∧ b ∉ o.map (·.1) ∧ b < N ∧
      Inv N p' ((b, some v) :: o) := by
  obtain ⟨p1, r, e1, e2, e3, e4⟩ := inv_alloc hN h
  cases r with
  | none => exact absurd (e4.mp rfl) hfree
  | some b =>
    have e3' : Inv N p1 ([] ++ (b, none) :: o) := by simpa using e3
    obtain ⟨p', a1, a2⟩ := inv_assign v e3'
    refine ⟨p', b, ?_, ?_, ?_, by simpa using a2⟩
    · simp only [construct, e1]
      unfold assign at a1
      cases hw : wr p1.vals b v with
      | none => rw [hw] at a1; simp at a1
      | some vs => rw [hw] at a1; simp at a1; subst a1; simp
    · obtain ⟨-, -, -, fl, -, hnd, -⟩ := a2
      have hn := (List.nodup_append.mp hnd).2.1
      simp only [List.nil_append, List.map_cons] at hn
      exact (List.nodup_cons.mp hn).1
    · obtain ⟨-, -, -, fl, -, -, hlt, -⟩ := a2
      exact hlt (b, some v) (by simp)

theorem reach_inv {N : Nat} (h0 : 0 < N) (hN : N < 2 ^ 32) {p : Pool V} {o : List (Nat × Option V)}
    (h : Reach N p o) : Inv N p o := by
  induction h with
  | create hl hv hc =>
    obtain ⟨m, e1, e2, e3⟩ := create_links h0 hN (vals := ‹List V›) hl
    rw [hc] at e1; cases e1
    exact ⟨e2, hv, by simp, _, e3, by simpa using List.nodup_range, by simp, by simp⟩
  | alloc _ ha ih =>
    obtain ⟨p', r, e1, -, e2, -⟩ := inv_alloc hN ih
    rw [ha] at e1; cases e1; exact e2
  | @construct p o p' b v _ hc ih =>
    by_cases hfree : o.length = N
    · obtain ⟨p1, r, e1, -, -, e4⟩ := inv_alloc hN ih
      have := e4.mpr hfree
      subst this
      simp [construct, e1] at hc
    · obtain ⟨p', b, e1, -, -, e2⟩ := inv_construct hN v ih hfree
      rw [hc] at e1; cases e1; exact e2
  | assign _ ha ih =>
    obtain ⟨p', e1, e2⟩ := inv_assign _ ih
    rw [ha] at e1; cases e1; exact e2
  | dealloc _ hd ih =>
    obtain ⟨p', e1, -, -, -, e2⟩ := inv_free hN ih
    rw [hd] at e1; cases e1; exact e2
  | destroy _ hd ih =>
    obtain ⟨p', e1, -, -, -, e2⟩ := inv_free hN ih
    rw [destroy] at hd; rw [hd] at e1; cases e1; exact e2

/-! ## C70 -/

/-- C70: a pool of `N > 0` slots can be constructed over whatever the memory holds -/
theorem v1_create {N : Nat} (h0 : 0 < N) (hN : N < 2 ^ 32) (nx : List Nat) (vals : List V) (h1 : nx.length = N)
    (h2 : vals.length = N) : ∃ p, create (handleBits N) N nx vals = some p ∧ Reach N p [] := by
  obtain ⟨m, e1, -⟩ := create_links h0 hN (vals := vals) h1
  exact ⟨_, e1, .create h1 h2 e1⟩

/-- C70: after every legal history the slots handed out are different slots of the pool, every object in one of them
has the value last given to it, `allocate` answers null exactly when all slots are out and otherwise a slot nobody
owns, and `count_free` is the number of slots not handed out -/
theorem v1_pool {N : Nat} (h0 : 0 < N) (hN : N < 2 ^ 32) {p : Pool V} {o : List (Nat × Option V)} (h : Reach N p o) :
    (o.map (·.1)).Nodup ∧ (∀ x ∈ o, x.1 < N) ∧ (∀ b v, (b, some v) ∈ o → p.vals[b]? = some v) ∧
    (∃ p' r, allocate (handleBits N) p = some (p', r) ∧ (r = none ↔ o.length = N) ∧
      ∀ b, r = some b → b ∉ o.map (·.1) ∧ b < N) ∧
    ∀ fuel, N ≤ fuel → countFree (handleBits N) fuel p = some (N - o.length) := by
  have hi := reach_inv h0 hN h
  obtain ⟨p', r, e1, -, e2, e3⟩ := inv_alloc hN hi
  obtain ⟨hl, hv, hobj, fl, hc, hnd, hlt, hlen⟩ := hi
  refine ⟨(List.nodup_append.mp hnd).2.1, hlt, hobj, ⟨p', r, e1, e3, ?_⟩, ?_⟩
  · rintro b rfl
    obtain ⟨-, -, -, fl', -, hnd', hlt', -⟩ := e2
    have hn := (List.nodup_append.mp hnd').2.1
    simp only [Option.toList_some, List.map_cons, List.map_nil, List.cons_append, List.nil_append] at hn
    exact ⟨(List.nodup_cons.mp hn).1, hlt' (b, none) (by simp)⟩
  · intro fuel hf
    obtain ⟨f1, f2⟩ := handle_fits N hN
    rw [countFree, walk_links hc fuel (by omega)]
    simp only [Option.map_some, Option.some.injEq]
    rw [Nat.mod_eq_of_lt (by omega)]; omega

/-- C70: `construct` gives a slot nobody owns while one is left, and the object in it has the value asked for; when none
is left it writes through a null pointer -/
theorem v1_construct {N : Nat} (h0 : 0 < N) (hN : N < 2 ^ 32) {p : Pool V} {o : List (Nat × Option V)}
    (h : Reach N p o) (v : V) :
    (o.length < N → ∃ p' b, construct (handleBits N) p v = some (p', b) ∧ b ∉ o.map (·.1) ∧ b < N ∧
      p'.vals[b]? = some v) ∧
    (o.length = N → construct (handleBits N) p v = none) := by
  have hi := reach_inv h0 hN h
  constructor
  · intro hlt
    obtain ⟨p', b, e1, e2, e3, e4⟩ := inv_construct hN v hi (by omega)
    exact ⟨p', b, e1, e2, e3, e4.2.2.1 b v (by simp)⟩
  · intro he
    obtain ⟨p1, r, e1, -, -, e4⟩ := inv_alloc hN hi
    have := e4.mpr he
    subst this
    simp [construct, e1]

/-- C70: every owned slot can be returned, and the slot returned last is handed out next -/
theorem v1_lifo {N : Nat} (h0 : 0 < N) (hN : N < 2 ^ 32) {p : Pool V} {l1 l2 : List (Nat × Option V)} {b : Nat}
    {x : Option V} (h : Reach N p (l1 ++ (b, x) :: l2)) :
    ∃ p', deallocate (handleBits N) p b = some p' ∧ p'.vals = p.vals ∧
      ∃ p'', allocate (handleBits N) p' = some (p'', some b) := by
  have hi := reach_inv h0 hN h
  have hb : b < N := by obtain ⟨-, -, -, fl, -, -, hlt, -⟩ := hi; exact hlt (b, x) (by simp)
  obtain ⟨f1, -⟩ := handle_fits N hN
  obtain ⟨p', e1, e2, e3, e4, e5⟩ := inv_free hN hi
  refine ⟨p', e1, e3, ⟨p'.next, p'.vals, p.front⟩, ?_⟩
  unfold allocate
  rw [if_neg (by omega), e2, rd, e4]
  rfl

/-- C70: **Violation.** a slot returned twice is handed out twice in a row, to two owners, and then for ever -/
theorem v1_double_free {N : Nat} (h0 : 0 < N) (hN : N < 2 ^ 32) {p : Pool V} {l1 l2 : List (Nat × Option V)} {b : Nat}
    {x : Option V} (h : Reach N p (l1 ++ (b, x) :: l2)) :
    ∃ p', (deallocate (handleBits N) p b).bind (fun q => deallocate (handleBits N) q b) = some p' ∧
      allocate (handleBits N) p' = some (p', some b) ∧ ∀ fuel, countFree (handleBits N) fuel p' = none := by
  have hi := reach_inv h0 hN h
  have hb : b < N := by obtain ⟨-, -, -, fl, -, -, hlt, -⟩ := hi; exact hlt (b, x) (by simp)
  obtain ⟨f1, f2⟩ := handle_fits N hN
  obtain ⟨p1, e1, e2, e3, e4, e5⟩ := inv_free hN hi
  have hl : b < p1.next.length := by rw [e5.1]; exact hb
  have hm : b % 2 ^ handleBits N = b := Nat.mod_eq_of_lt (by omega)
  refine ⟨⟨p1.next.set b b, p1.vals, b⟩, ?_, ?_, ?_⟩
  · rw [e1]
    simp [deallocate, pushFront, hm, wr_lt hl, e2]
  · unfold allocate
    rw [if_neg (by show b ≠ _; omega)]
    simp [rd, hl]
  · intro fuel
    have : walk (p1.next.set b b) (eol (handleBits N)) fuel b = none := by
      induction fuel with
      | zero => simp [walk]; omega
      | succ fuel ih =>
        rw [walk, if_neg (by omega)]
        simp [rd, hl, ih]
    simp [countFree, this]

/-- C70: **Violation.** a pool of no slots is undefined to construct -/
theorem v1_empty_undefined (w : Nat) : create (V := V) w 0 [] [] = none := by
  simp [create, pushFront, wr]

/-- A pool of three: one slot allocated, an object constructed in another, the first returned; two are free. -/
example : Reach 3 ⟨[2, 2, 255], [9, 5, 9], 0⟩ [(1, some 5)] ∧
    countFree 8 3 (⟨[2, 2, 255], [9, 5, 9], 0⟩ : Pool Nat) = some 2 := by
  refine ⟨?_, by decide⟩
  have h0 : Reach 3 ⟨[1, 2, 255], [9, 9, 9], 0⟩ [] :=
    .create (nx := [7, 7, 7]) (vals := [9, 9, 9]) rfl rfl (by decide +kernel)
  have h1 : Reach 3 ⟨[1, 2, 255], [9, 9, 9], 1⟩ [(0, none)] := .alloc (r := some 0) h0 (by decide +kernel)
  have h2 : Reach 3 ⟨[1, 2, 255], [9, 5, 9], 2⟩ [(1, some 5), (0, none)] := .construct h1 (by decide +kernel)
  exact .dealloc (l1 := [(1, some 5)]) (l2 := []) h2 (by decide +kernel)

end Verif.Pool.V1
