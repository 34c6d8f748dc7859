import Verif.Pool.Model
/-!
# Property theorems for the block pool (C27, C28)
-/
namespace Verif.Pool
open Verif

/-- Histories: `Reach n p o` says that pool `p` of `n` blocks can arise from construction over arbitrary
storage by allocations, frees of owned blocks and arbitrary user writes into owned blocks, and that `o` are
the blocks returned by `alloc` and not freed since (most recent first). -/
inductive Reach (n : Nat) : Pool → List Nat → Prop
  | create {mem p} : mem.length = n → create mem = some p → Reach n p []
  | alloc {p o p' r} : Reach n p o → alloc p = some (p', r) → Reach n p' (r.toList ++ o)
  | free {p o b p'} : Reach n p o → b ∈ o → free p b = some p' → Reach n p' (o.erase b)
  | write {p o b v p'} : Reach n p o → b ∈ o → userWrite p b v = some p' → Reach n p' o

/-- The free list and the owned blocks partition the storage. -/
def Inv (n : Nat) (p : Pool) (o : List Nat) : Prop :=
  p.mem.length = n ∧ ∃ fl, Chain p.mem p.head fl ∧ (fl ++ o).Nodup ∧ (∀ b ∈ o, b < n) ∧ fl.length + o.length = n

theorem resetLoop_spec (mem : List (Option Nat)) (i : Nat) (c : Option Nat) (fl : List Nat)
    (hi : i ≤ mem.length) (hc : Chain mem c fl) (hfl : ∀ b ∈ fl, i ≤ b) :
    ∃ m, resetLoop mem i c = some m ∧ m.length = mem.length ∧
      (0 < i → Chain m (some 0) (List.range i ++ fl)) := by
  induction i generalizing mem c fl with
  | zero => exact ⟨mem, rfl, rfl, by simp⟩
  | succ i ih =>
    have hlt : i < mem.length := by omega
    have hch : Chain (mem.set i c) (some i) (i :: fl) := by
      refine ⟨rfl, c, by simp [hlt], Seg.set_ne ?_ hc⟩
      intro hm; have := hfl i hm; omega
    obtain ⟨m, e1, e2, e3⟩ := ih (mem.set i c) (some i) (i :: fl) (by simp; omega) hch (by
      intro b hb; rcases List.mem_cons.mp hb with rfl | hb
      · omega
      · have := hfl b hb; omega)
    refine ⟨m, by simp [resetLoop, controlFree, wr_lt hlt, e1], by simpa using e2, fun _ => ?_⟩
    rw [List.range_succ, List.append_assoc]
    by_cases h0 : 0 < i
    · exact e3 h0
    · have : i = 0 := by omega
      subst this
      simp only [resetLoop] at e1
      cases e1
      exact hch

theorem inv_create {mem : List (Option Nat)} {p : Pool} (h : create mem = some p) : Inv mem.length p [] := by
  unfold create at h
  cases mem with
  | nil => simp at h
  | cons x xs =>
    obtain ⟨m, e1, e2, e3⟩ := resetLoop_spec (x :: xs) (xs.length + 1) none [] (by simp) rfl (by simp)
    simp only [reset, List.length_cons, e1] at h
    cases h
    refine ⟨e2, List.range (xs.length + 1), ?_, ?_, by simp, by simp⟩
    · simpa using e3 (by omega)
    · simpa using List.nodup_range

theorem inv_alloc {n : Nat} {p : Pool} {o : List Nat} (h : Inv n p o) :
    ∃ p' r, alloc p = some (p', r) ∧ Inv n p' (r.toList ++ o) ∧ (r = none ↔ o.length = n) := by
  obtain ⟨hl, fl, hc, hnd, hlt, hlen⟩ := h
  unfold alloc
  cases fl with
  | nil =>
    have hh : p.head = none := hc
    rw [hh]
    exact ⟨p, none, rfl, ⟨hl, [], hc, by simpa using hnd, by simpa using hlt, by simpa using hlen⟩, by simp at hlen; simp [hlen]⟩
  | cons b fl =>
    have hb := Seg.lt hc b (by simp)
    obtain ⟨hp, nx, hn, ht⟩ := hc
    rw [hp]
    simp only [rd, hn]
    refine ⟨_, _, rfl, ⟨hl, fl, ht, ?_, ?_, ?_⟩, ?_⟩
    · simp only [Option.toList_some, List.cons_append, List.nil_append]
      have : (b :: fl ++ o).Perm (fl ++ b :: o) := List.perm_middle.symm
      exact this.nodup_iff.mp hnd
    · intro a ha
      simp at ha
      rcases ha with rfl | ha
      · omega
      · exact hlt a ha
    · simp at hlen ⊢; omega
    · simp at hlen ⊢; omega

theorem inv_free {n : Nat} {p : Pool} {o : List Nat} {b : Nat} (h : Inv n p o) (hb : b ∈ o) :
    ∃ p', free p b = some p' ∧ Inv n p' (o.erase b) := by
  obtain ⟨hl, fl, hc, hnd, hlt, hlen⟩ := h
  have hbl : b < p.mem.length := by rw [hl]; exact hlt b hb
  rw [List.nodup_append] at hnd
  obtain ⟨n1, n2, n3⟩ := hnd
  have hbf : b ∉ fl := fun hm => n3 b hm b hb rfl
  refine ⟨⟨p.mem.set b p.head, some b⟩, by simp [free, controlFree, wr_lt hbl], by simpa using hl, b :: fl, ?_, ?_, ?_, ?_⟩
  · exact ⟨rfl, p.head, by simp [hbl], Seg.set_ne hbf hc⟩
  · have hp : (fl ++ o).Perm (b :: fl ++ o.erase b) := by
      have h1 : (fl ++ o).Perm (fl ++ b :: o.erase b) := (List.perm_cons_erase hb).append_left fl
      exact h1.trans List.perm_middle
    exact hp.nodup_iff.mp (List.nodup_append.mpr ⟨n1, n2, n3⟩)
  · intro a ha; exact hlt a (List.mem_of_mem_erase ha)
  · have := List.length_erase_of_mem hb
    have hpos : 0 < o.length := List.length_pos_of_mem hb
    simp; omega

theorem inv_write {n : Nat} {p : Pool} {o : List Nat} {b : Nat} (v : Option Nat) (h : Inv n p o) (hb : b ∈ o) :
    ∃ p', userWrite p b v = some p' ∧ Inv n p' o := by
  obtain ⟨hl, fl, hc, hnd, hlt, hlen⟩ := h
  have hbl : b < p.mem.length := by rw [hl]; exact hlt b hb
  refine ⟨{ p with mem := p.mem.set b v }, by simp [userWrite, wr_lt hbl], by simpa using hl, fl, ?_, hnd, hlt, hlen⟩
  refine Seg.set_ne ?_ hc
  intro hm
  exact (List.nodup_append.mp hnd).2.2 b hm b hb rfl

theorem reach_inv {n : Nat} {p : Pool} {o : List Nat} (h : Reach n p o) : Inv n p o := by
  induction h with
  | create hl hc => rw [← hl]; exact inv_create hc
  | alloc _ ha ih =>
    obtain ⟨p', r, e1, e2, -⟩ := inv_alloc ih
    rw [ha] at e1; cases e1; exact e2
  | free _ hb hf ih =>
    obtain ⟨p', e1, e2⟩ := inv_free ih hb
    rw [hf] at e1; cases e1; exact e2
  | write _ hb hw ih =>
    obtain ⟨p', e1, e2⟩ := inv_write _ ih hb
    rw [hw] at e1; cases e1; exact e2

theorem availLoop_spec {mem : List (Option Nat)} {h : Option Nat} {fl : List Nat} {fuel : Nat}
    (hc : Chain mem h fl) (hf : fl.length ≤ fuel) : availLoop mem fuel h = some fl.length := by
  induction fl generalizing h fuel with
  | nil => have : h = none := hc; subst this; cases fuel <;> rfl
  | cons b fl ih =>
    obtain ⟨hp, n, hn, ht⟩ := hc
    subst hp
    cases fuel with
    | zero => simp at hf
    | succ fuel =>
      simp only [availLoop, rd, hn]
      rw [ih ht (by simp at hf; omega)]; rfl

/-- C27: construction of a non-empty pool always succeeds. -/
theorem pool_create_defined (mem : List (Option Nat)) (h : mem ≠ []) : ∃ p, create mem = some p := by
  cases mem with
  | nil => simp at h
  | cons x xs =>
    obtain ⟨m, e1, -, -⟩ := resetLoop_spec (x :: xs) (xs.length + 1) none [] (by simp) rfl (by simp)
    exact ⟨⟨m, some 0⟩, by simp [create, reset, e1]⟩

/-- C27: in every reachable state, whatever users write into their blocks, the blocks handed out and not
freed are pairwise distinct and belong to the pool. -/
theorem pool_blocks_distinct {n : Nat} {p : Pool} {o : List Nat} (h : Reach n p o) :
    o.Nodup ∧ ∀ b ∈ o, b < n := by
  obtain ⟨_, fl, _, hnd, hlt, _⟩ := reach_inv h
  exact ⟨(List.nodup_append.mp hnd).2.1, hlt⟩

/-- C27: in every reachable state `alloc` is defined; it returns null exactly when every block is in use,
and otherwise a block of the pool nobody owns. -/
theorem pool_alloc {n : Nat} {p : Pool} {o : List Nat} (h : Reach n p o) :
    ∃ p' r, alloc p = some (p', r) ∧ (r = none ↔ o.length = n) ∧ ∀ b, r = some b → b < n ∧ b ∉ o := by
  obtain ⟨p', r, e1, e2, e3⟩ := inv_alloc (reach_inv h)
  refine ⟨p', r, e1, e3, ?_⟩
  rintro b rfl
  have := pool_blocks_distinct (Reach.alloc h e1)
  simp at this
  exact ⟨this.2.1, this.1.1⟩

/-- C27: freeing or writing an owned block is defined in every reachable state. -/
theorem pool_free_write_defined {n : Nat} {p : Pool} {o : List Nat} (h : Reach n p o) (b : Nat) (hb : b ∈ o)
    (v : Option Nat) : (∃ p', free p b = some p') ∧ ∃ p', userWrite p b v = some p' := by
  obtain ⟨p1, e1, -⟩ := inv_free (reach_inv h) hb
  obtain ⟨p2, e2, -⟩ := inv_write v (reach_inv h) hb
  exact ⟨⟨p1, e1⟩, p2, e2⟩

/-- C27: in every reachable state `available_blocks()` is the capacity minus the blocks in use, and `full()`
is "none available". -/
theorem pool_available {n : Nat} {p : Pool} {o : List Nat} (h : Reach n p o) :
    available p = some (n - o.length) ∧ (full p = true ↔ o.length = n) := by
  obtain ⟨hl, fl, hc, hnd, hlt, hlen⟩ := reach_inv h
  constructor
  · unfold available
    rw [availLoop_spec hc (by omega)]
    congr 1; omega
  · unfold full
    cases fl with
    | nil => have hh : p.head = none := hc; simp at hlen; simp [hh, hlen]
    | cons b fl => simp at hlen; simp [hc.1]; omega

/-- Non-vacuity: a reachable state with two blocks out of three in use, one of them scribbled on. -/
example : Reach 3 ⟨[some 7, some 2, none], some 2⟩ [1, 0] := by
  have h0 : Reach 3 ⟨[some 1, some 2, none], some 0⟩ [] :=
    .create (mem := [none, none, none]) rfl (by decide +kernel)
  have h1 : Reach 3 ⟨[some 1, some 2, none], some 1⟩ [0] := .alloc (r := some 0) h0 (by decide +kernel)
  have h2 : Reach 3 ⟨[some 1, some 2, none], some 2⟩ [1, 0] := .alloc (r := some 1) h1 (by decide +kernel)
  exact .write (b := 0) (v := some 7) h2 (by simp) (by decide +kernel)

/-- C28, partial: a handle converts back to the same block for the blocks below 128 - and for no other: an
`int8_t` cannot hold a larger index.  Missing: pools of more than 128 blocks, where the property fails. -/
theorem pool_handle_roundtrip_partial (b : Nat) : fromHandle (toHandle b) = (b : Int) ↔ b < 128 := by
  unfold fromHandle toHandle
  rw [BitVec.toInt_eq_toNat_cond]
  simp only [BitVec.toNat_ofNat]
  constructor
  · intro h; split at h <;> omega
  · intro h; split <;> omega

/-- C28 fails from block 128 on: **Violation.** the handle comes back as a position *before* the pool's storage. -/
theorem pool_handle_out_of_range (b : Nat) (h1 : 128 ≤ b) (h2 : b < 256) :
    fromHandle (toHandle b) = (b : Int) - 256 ∧ fromHandle (toHandle b) < 0 := by
  unfold fromHandle toHandle
  rw [BitVec.toInt_eq_toNat_cond]
  simp only [BitVec.toNat_ofNat]
  split <;> omega
example : fromHandle (toHandle 128) = -128 := by decide +kernel

/-- C28: handles of distinct blocks of a pool of at most 256 blocks are distinct (the round trip fails only
in `from_handle`'s sign extension). -/
theorem pool_handle_injective (a b : Nat) (ha : a < 256) (hb : b < 256) (h : toHandle a = toHandle b) : a = b := by
  have := congrArg BitVec.toNat h
  simp [toHandle] at this
  omega

end Verif.Pool
