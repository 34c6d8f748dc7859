import Verif.Pool.V1
/-!
# C103: pools of shared objects

`memory_pool_1<layer1::shared_ptr<T>, N>` (exp/memory/memory_pool.h:47-122): every slot of the pool of C70 holds a
`layer1::shared_ptr` with a control block and room for a `T`.  The pool's `construct()` makes the shared pointer, its own
`construct(...)` makes the `T`; `layer3::shared_ptr` handles share it; when the last owner goes, the control block's
`Deleter()` gives the slot back to the pool.

`pool` and `pool_item` of the control block are written before the shared pointer is constructed over them
(memory_pool.h:108-110); the model takes the bytes as they are in memory, as a build without lifetime-based optimisation
does.  `built` and `ended` count the constructions and destructions of a `T`.  Making a `T` and ending one do not touch the
pool.
-/
namespace Verif.PoolShared
open Verif Verif.Pool.V1

/-! ## The model -/

/-- the control block in a slot, memory.h:58-88: `shared_count` (16 bits) and `is_active` -/
structure Blk where
  count : Nat
  active : Bool
  deriving DecidableEq, Repr

/-- the pool, the handles (`layer3::shared_ptr`, memory.h:538-612: destroyed, null, or pointing to the control block in a
slot), and the constructions and destructions of objects so far -/
structure St where
  pool : Pool Blk
  handles : List (Option (Option Nat))
  built : Nat
  ended : Nat
  deriving DecidableEq, Repr

/-- writing the control block in slot `b`, memory.h:66-77 -/
def setBlk (s : St) (b : Nat) (k : Blk) : Option St :=
  (wr s.pool.vals b k).map fun vs => { s with pool := ⟨s.pool.next, vs, s.pool.front⟩ }

/-- `pool.destroy(p)`, memory_pool.h:483-492: the destructor of the shared pointer (118-121 → memory.h:324-329 → 223-240: if
it is active, the count goes down, and if that makes it zero `Deleter()` (memory_pool.h:77-80) comes back here through
`destroy_internal`, 498-501), then `deallocate`.  The room for the object is plain bytes (value_evaporator.h:256-264), so no
destructor of a `T` runs.  `fuel` bounds the depth of calls. -/
def destroy (w : Nat) : Nat → St → Nat → Option St
  | 0, _, _ => none
  | fuel + 1, s, b =>
    match rd s.pool.vals b with
    | none => none
    | some k =>
      match (if k.active then
          let k1 : Blk := { k with count := (k.count + 65535) % 65536 }
          match setBlk s b k1 with
          | none => none
          | some s1 => if k1.count = 0 then destroy w fuel s1 b else some s1
        else some s) with
      | none => none
      | some s1 => (deallocate w s1.pool b).map fun p => { s1 with pool := p }

/-- `eval_delete(with_deactivate)`, memory.h:223-240: `deactivate()` of a master if asked for (373), then
`if(--c.shared_count == 0) c.Deleter()` -/
def evalDelete (w : Nat) (s : St) (b : Nat) (deact : Bool) : Option St :=
  match rd s.pool.vals b with
  | none => none
  | some k =>
    let k1 : Blk := ⟨(k.count + 65535) % 65536, if deact then false else k.active⟩
    match setBlk s b k1 with
    | none => none
    | some s1 => if k1.count = 0 then destroy w 3 s1 b else some s1

/-- what a program does with a pool of shared objects -/
inductive Op
  /-- `auto& p = pool.construct()` -/
  | make
  /-- `p.construct(...)` for the shared pointer in slot `b` -/
  | build (b : Nat)
  /-- `layer3::shared_ptr<T> h(p)` -/
  | hold (b : Nat)
  /-- `layer3::shared_ptr<T> h(other)` -/
  | copy (i : Nat)
  /-- `h.reset()` -/
  | clear (i : Nat)
  /-- the end of a handle's lifetime -/
  | drop (i : Nat)
  /-- `p.reset()` -/
  | reset (b : Nat)
  /-- `pool.destroy(p)` -/
  | destroy (b : Nat)
  deriving DecidableEq, Repr

/-- a new handle that points to control block `p` (or nothing), memory.h:309-314: the count goes up only if the *master* is
active -/
def newHandle (s : St) (p : Option Nat) : Option St :=
  match p with
  | none => some { s with handles := s.handles ++ [some none] }
  | some b =>
    match rd s.pool.vals b with
    | none => none
    | some k =>
      match (if k.active then setBlk s b { k with count := (k.count + 1) % 65536 } else some s) with
      | none => none
      | some s1 => some { s1 with handles := s1.handles ++ [some (some b)] }

/-- one operation; `none` is undefined behaviour -/
def step (w : Nat) (s : St) : Op → Option St
  -- memory_pool.h:458-475 with 102-115 and memory.h:366-368: not active, count 0
  | .make => (Pool.V1.construct w s.pool ⟨0, false⟩).map fun r => { s with pool := r.1 }
  -- memory.h:427-432
  | .build b =>
    match rd s.pool.vals b with
    | none => none
    | some k => (setBlk s b ⟨(k.count + 1) % 65536, true⟩).map fun s1 => { s1 with built := s1.built + 1 }
  -- memory.h:554-559
  | .hold b =>
    match rd s.pool.vals b with
    | none => none
    | some k => newHandle s (if k.active then some b else none)
  -- memory.h:571
  | .copy i =>
    match s.handles[i]? with
    | some (some p) => newHandle s p
    | _ => none
  -- memory.h:259-262 with 516-517
  | .clear i =>
    match s.handles[i]? with
    | some (some none) => some s
    | some (some (some b)) => evalDelete w { s with handles := s.handles.set i (some none) } b false
    | _ => none
  -- memory.h:324-329
  | .drop i =>
    match s.handles[i]? with
    | some (some none) => some { s with handles := s.handles.set i none }
    | some (some (some b)) => evalDelete w { s with handles := s.handles.set i none } b false
    | _ => none
  -- memory.h:259-262 with 371-373
  | .reset b =>
    match rd s.pool.vals b with
    | none => none
    | some k => if k.active then evalDelete w s b true else some s
  | .destroy b => destroy w 3 s b

/-- a history (memory_pool.h:362-509) -/
def run (w : Nat) : List Op → St → Option St
  | [], s => some s
  | op :: ops, s =>
    match step w s op with
    | none => none
    | some s' => run w ops s'

/-- a new pool of `N` slots over arbitrary memory, memory_pool.h:522-533, and no handles -/
def start (N : Nat) (nx : List Nat) (vals : List Blk) : Option St :=
  (create (handleBits N) N nx vals).map fun p => ⟨p, [], 0, 0⟩

/-- `use_count()` of a handle, memory.h:249-252 -/
def useCount (s : St) (i : Nat) : Option Nat :=
  match s.handles[i]? with
  | some (some none) => some 0
  | some (some (some b)) => (rd s.pool.vals b).map (·.count)
  | _ => none

/-- `p.use_count()`, memory.h:249-252 with 371 -/
def useCountMaster (s : St) (b : Nat) : Option Nat :=
  (rd s.pool.vals b).map fun k => if k.active then k.count else 0

/-! ## Specification -/

/-- What a slot that is out of the pool is: made but without an object, owned by its shared pointer (and maybe handles),
or owned by handles only. -/
inductive Spec.Stage
  | fresh
  | owned
  | orphan
  deriving DecidableEq, Repr

/-- Which slots are in the pool (the next to go out first), what the others are, and what each handle points to. -/
structure Spec.View where
  free : List Nat
  stage : Nat → Option Spec.Stage
  handles : List (Option (Option Nat))

/-- The handles that point to slot `b`. -/
def Spec.holders (v : Spec.View) (b : Nat) : Nat := v.handles.countP (· == some (some b))

/-- The owners of the object in slot `b`. -/
def Spec.owners (v : Spec.View) (b : Nat) : Nat :=
  (if v.stage b = some .owned then 1 else 0) + Spec.holders v b

def Spec.put (v : Spec.View) (b : Nat) (st : Option Spec.Stage) : Spec.View :=
  { v with stage := fun c => if c = b then st else v.stage c }

/-- A slot without owners goes back to the pool. -/
def Spec.settle (v : Spec.View) (b : Nat) : Spec.View :=
  if Spec.owners v b = 0 then { Spec.put v b none with free := b :: v.free } else v

def Spec.act (v : Spec.View) : Op → Spec.View
  | .make =>
    match v.free with
    | [] => v
    | b :: f => { Spec.put v b (some .fresh) with free := f }
  | .build b => Spec.put v b (some .owned)
  | .hold b => { v with handles := v.handles ++ [some (if v.stage b = some .owned then some b else none)] }
  | .copy i => { v with handles := v.handles ++ [v.handles[i]?.join] }
  | .clear i =>
    match v.handles[i]? with
    | some (some (some b)) => Spec.settle { v with handles := v.handles.set i (some none) } b
    | _ => v
  | .drop i =>
    match v.handles[i]? with
    | some (some (some b)) => Spec.settle { v with handles := v.handles.set i none } b
    | _ => { v with handles := v.handles.set i none }
  | .reset b => if v.stage b = some .owned then Spec.settle (Spec.put v b (some .orphan)) b else v
  | .destroy _ => v

/-- What a careful caller does: makes shared pointers while there is room, makes the object in each once, uses slots and
handles that exist, copies a handle only while the shared pointer in the slot is an owner, never destroys a slot by hand;
and there are fewer than 65535 owners. -/
def Spec.may (v : Spec.View) : Op → Prop
  | .make => v.free ≠ []
  | .build b => v.stage b = some .fresh
  | .hold b => (v.stage b).isSome ∧ Spec.owners v b < 65535
  | .copy i => v.handles[i]? = some (some none) ∨
      ∃ b, v.handles[i]? = some (some (some b)) ∧ v.stage b = some .owned ∧ Spec.owners v b < 65535
  | .clear i | .drop i => ∃ p, v.handles[i]? = some (some p)
  | .reset b => (v.stage b).isSome
  | .destroy _ => False

def Spec.view : List Op → Spec.View → Spec.View
  | [], v => v
  | op :: ops, v => Spec.view ops (Spec.act v op)

def Spec.Legal : List Op → Spec.View → Prop
  | [], _ => True
  | op :: ops, v => Spec.may v op ∧ Spec.Legal ops (Spec.act v op)

/-- A pool of `N` slots, nothing out. -/
def Spec.full (N : Nat) : Spec.View := ⟨List.range N, fun _ => none, []⟩

/-- How many objects a history makes. -/
def Spec.builds : List Op → Nat
  | [] => 0
  | .build _ :: ops => Spec.builds ops + 1
  | _ :: ops => Spec.builds ops

/-! ## Proofs -/

/-- The concrete state represents the view. -/
structure Rep (N : Nat) (s : St) (v : Spec.View) : Prop where
  nlen : s.pool.next.length = N
  vlen : s.pool.vals.length = N
  links : Links s.pool.next (eol (handleBits N)) s.pool.front v.free
  nodup : v.free.Nodup
  out : ∀ b, b < N → (v.stage b = none ↔ b ∈ v.free)
  inRange : ∀ b, (v.stage b).isSome → b < N
  blk : ∀ b st, v.stage b = some st → s.pool.vals[b]? = some ⟨Spec.owners v b, decide (st = .owned)⟩
  small : ∀ b, Spec.owners v b < 65536
  hs : s.handles = v.handles
  safe : ∀ (i : Nat) b, v.handles[i]? = some (some (some b)) → v.stage b = some .owned ∨ v.stage b = some .orphan
  kept : ∀ b, v.stage b = some .orphan → 0 < Spec.holders v b
  bare : ∀ b, v.stage b = some .fresh → Spec.holders v b = 0
  never : s.ended = 0

theorem holders_append (v : Spec.View) (b : Nat) (h : Option (Option Nat)) :
    (v.handles ++ [h]).countP (· == some (some b)) = Spec.holders v b + if h = some (some b) then 1 else 0 := by
  rw [List.countP_append]
  by_cases hb : h = some (some b) <;> simp [Spec.holders, hb]

theorem countP_set_eq (l : List (Option (Option Nat))) (i : Nat) (x y : Option (Option Nat)) (b : Nat)
    (h : l[i]? = some x) :
    (l.set i y).countP (· == some (some b)) + (if x = some (some b) then 1 else 0)
      = l.countP (· == some (some b)) + (if y = some (some b) then 1 else 0) := by
  induction l generalizing i with
  | nil => simp at h
  | cons a l ih =>
    cases i with
    | zero =>
      simp at h
      subst h
      rw [List.set_cons_zero, List.countP_cons, List.countP_cons]
      by_cases ha : a = some (some b) <;> by_cases hy : y = some (some b) <;> simp [ha, hy]
    | succ i =>
      simp at h
      rw [List.set_cons_succ, List.countP_cons, List.countP_cons]
      have := ih i h
      omega

theorem zero_holders {v : Spec.View} {b : Nat} (h : Spec.holders v b = 0) (i : Nat) :
    v.handles[i]? ≠ some (some (some b)) := by
  intro hi
  have hm := List.mem_of_getElem? hi
  have := List.countP_pos_iff.mpr (⟨_, hm, by simp⟩ : ∃ a ∈ v.handles, (a == some (some b)) = true)
  unfold Spec.holders at h
  omega

theorem some_holder {v : Spec.View} {b : Nat} {i : Nat} (h : v.handles[i]? = some (some (some b))) :
    0 < Spec.holders v b := by
  rcases Nat.eq_zero_or_pos (Spec.holders v b) with h0 | h0
  · exact absurd h (zero_holders h0 i)
  · exact h0

theorem setBlk_lt {s : St} {b : Nat} (h : b < s.pool.vals.length) (k : Blk) :
    setBlk s b k = some { s with pool := ⟨s.pool.next, s.pool.vals.set b k, s.pool.front⟩ } := by
  simp [setBlk, wr_lt h]

/-- giving back a slot that is not in the pool -/
theorem dealloc_rep {N : Nat} (hN : N < 2 ^ 32) {p : Pool Blk} {free : List Nat} {b : Nat} (hl : p.next.length = N)
    (hb : b < N) (hbf : b ∉ free) (hc : Links p.next (eol (handleBits N)) p.front free) :
    ∃ p', deallocate (handleBits N) p b = some p' ∧ p'.next.length = N ∧ p'.vals = p.vals
      ∧ Links p'.next (eol (handleBits N)) p'.front (b :: free) := by
  obtain ⟨f1, f2⟩ := handle_fits N hN
  have hm : b % 2 ^ handleBits N = b := Nat.mod_eq_of_lt (by omega)
  have hbl : b < p.next.length := by omega
  refine ⟨⟨p.next.set b p.front, p.vals, b⟩, by simp [deallocate, pushFront, hm, wr_lt hbl], by simpa using hl, rfl, ?_⟩
  exact ⟨rfl, by show b ≠ _; omega, p.front, by simp [hbl], links_set hbf hc⟩

/-- What holds between the step that takes an owner away and the settling of the slot: the control block of slot `b` still
counts one owner more. -/
structure Pend (N : Nat) (s : St) (v : Spec.View) (b : Nat) : Prop where
  nlen : s.pool.next.length = N
  vlen : s.pool.vals.length = N
  links : Links s.pool.next (eol (handleBits N)) s.pool.front v.free
  nodup : v.free.Nodup
  out : ∀ c, c < N → (v.stage c = none ↔ c ∈ v.free)
  inRange : ∀ c, (v.stage c).isSome → c < N
  blk : ∀ c st, c ≠ b → v.stage c = some st → s.pool.vals[c]? = some ⟨Spec.owners v c, decide (st = .owned)⟩
  small : ∀ c, Spec.owners v c < 65535 + if c = b then 0 else 1
  hs : s.handles = v.handles
  safe : ∀ (i : Nat) c, v.handles[i]? = some (some (some c)) → v.stage c = some .owned ∨ v.stage c = some .orphan
  kept : ∀ c, c ≠ b → v.stage c = some .orphan → 0 < Spec.holders v c
  bare : ∀ c, v.stage c = some .fresh → Spec.holders v c = 0
  never : s.ended = 0

theorem settle_rep {N : Nat} (hN : N < 2 ^ 32) {s : St} {v : Spec.View} {b : Nat} (h : Pend N s v b) (deact act0 : Bool)
    (hst : v.stage b = some .owned ∧ deact = false ∧ act0 = true ∨
      v.stage b = some .orphan ∧ (deact = true ∨ act0 = false))
    (hk : s.pool.vals[b]? = some ⟨Spec.owners v b + 1, act0⟩) :
    ∃ s', evalDelete (handleBits N) s b deact = some s' ∧ Rep N s' (Spec.settle v b) ∧ s'.built = s.built := by
  have hb : b < N := h.inRange b (by rcases hst with ⟨h1, -⟩ | ⟨h1, -⟩ <;> simp [h1])
  have hbv : b < s.pool.vals.length := by rw [h.vlen]; exact hb
  have hsm := h.small b
  simp only [if_true] at hsm
  have hcnt : (Spec.owners v b + 1 + 65535) % 65536 = Spec.owners v b := by omega
  have hbf : b ∉ v.free := by
    intro hm
    have := (h.out b hb).mpr hm
    rcases hst with ⟨h1, -⟩ | ⟨h1, -⟩ <;> simp [h1] at this
  simp only [evalDelete, rd, hk, hcnt, setBlk_lt hbv]
  by_cases h0 : Spec.owners v b = 0
  · rw [if_pos h0, Spec.settle, if_pos h0]
    have hor : v.stage b = some .orphan ∧ (deact = true ∨ act0 = false) := by
      rcases hst with ⟨h1, -⟩ | h1
      · simp [Spec.owners, h1] at h0
      · exact h1
    have hinact : (if deact then false else act0) = false := by
      rcases hor.2 with h1 | h1 <;> simp [h1]
    rw [hinact]
    obtain ⟨p', e1, e2, e3, e4⟩ := dealloc_rep hN (p := ⟨s.pool.next, s.pool.vals.set b ⟨Spec.owners v b, false⟩,
      s.pool.front⟩) (by simpa using h.nlen) hb hbf h.links
    refine ⟨{ s with pool := p' }, ?_, ?_, rfl⟩
    · rw [destroy]
      simp [rd, hbv, e1]
    · have hown : ∀ c, c ≠ b → Spec.owners { Spec.put v b none with free := b :: v.free } c = Spec.owners v c := by
        intro c hc; simp [Spec.owners, Spec.put, Spec.holders, hc]
      have hhold : ∀ c, Spec.holders { Spec.put v b none with free := b :: v.free } c = Spec.holders v c := fun _ => rfl
      have hz : Spec.holders v b = 0 := by unfold Spec.owners at h0; omega
      refine ⟨e2, by simp [e3, h.vlen], e4, by simp [hbf, h.nodup], ?_, ?_, ?_, ?_, h.hs, ?_, ?_, ?_, h.never⟩
      · intro c hc
        by_cases hcb : c = b
        · simp [Spec.put, hcb]
        · simp only [Spec.put, hcb, if_false, List.mem_cons, false_or]
          exact h.out c hc
      · intro c hc
        by_cases hcb : c = b
        · rw [hcb]; exact hb
        · simp only [Spec.put, hcb, if_false] at hc
          exact h.inRange c hc
      · intro c st hc
        by_cases hcb : c = b
        · simp [Spec.put, hcb] at hc
        · simp only [Spec.put, hcb, if_false] at hc
          rw [hown c hcb, ← h.blk c st hcb hc]
          simp [e3, List.getElem?_set_ne (Ne.symm hcb)]
      · intro c
        by_cases hcb : c = b
        · have : Spec.owners { Spec.put v b none with free := b :: v.free } c = 0 := by
            rw [Spec.owners, hhold, hcb, hz]; simp [Spec.put]
          omega
        · rw [hown c hcb]
          have := h.small c
          rw [if_neg hcb] at this
          omega
      · intro i c hc
        have hcb : c ≠ b := by
          rintro rfl
          exact zero_holders hz i hc
        simp only [Spec.put, hcb, if_false]
        exact h.safe i c hc
      · intro c hc
        by_cases hcb : c = b
        · simp [Spec.put, hcb] at hc
        · simp only [Spec.put, hcb, if_false] at hc
          exact h.kept c hcb hc
      · intro c hc
        by_cases hcb : c = b
        · simp [Spec.put, hcb] at hc
        · simp only [Spec.put, hcb, if_false] at hc
          exact h.bare c hc
  · rw [if_neg h0, Spec.settle, if_neg h0]
    refine ⟨_, rfl, ⟨h.nlen, by simpa using h.vlen, h.links, h.nodup, h.out, h.inRange, ?_, ?_, h.hs, h.safe, ?_, h.bare,
      h.never⟩, rfl⟩
    · intro c st hc
      by_cases hcb : c = b
      · subst hcb
        rw [List.getElem?_set_self hbv]
        have hd : (if deact then false else act0) = decide (st = .owned) := by
          rcases hst with ⟨h1, h2, h3⟩ | ⟨h1, h2⟩
          · rw [h1] at hc; cases hc; simp [h2, h3]
          · rw [h1] at hc; cases hc
            rcases h2 with h2 | h2 <;> simp [h2]
        rw [hd]
      · rw [List.getElem?_set_ne (Ne.symm hcb)]
        exact h.blk c st hcb hc
    · intro c
      have := h.small c
      split at this <;> omega
    · intro c hc
      by_cases hcb : c = b
      · subst hcb
        unfold Spec.owners at h0
        rw [hc] at h0
        simp at h0
        omega
      · exact h.kept c hcb hc

/-- a handle goes away -/
theorem handle_goes {N : Nat} {s : St} {v : Spec.View} (h : Rep N s v) {i b : Nat} (y : Option (Option Nat))
    (hy : y = none ∨ y = some none) (hi : v.handles[i]? = some (some (some b))) :
    Pend N { s with handles := s.handles.set i y } { v with handles := v.handles.set i y } b ∧
      (v.stage b = some .owned ∨ v.stage b = some .orphan) ∧
      s.pool.vals[b]? = some ⟨Spec.owners { v with handles := v.handles.set i y } b + 1,
        decide (v.stage b = some .owned)⟩ := by
  have hcnt : ∀ c, Spec.holders { v with handles := v.handles.set i y } c + (if c = b then 1 else 0) = Spec.holders v c := by
    intro c
    have h1 := countP_set_eq v.handles i (some (some b)) y c hi
    have hyc : y ≠ some (some c) := by rcases hy with rfl | rfl <;> simp
    simp only [hyc, if_false, Option.some.injEq] at h1
    simp only [Spec.holders]
    by_cases hcb : c = b
    · subst hcb; simpa using h1
    · simp only [hcb, if_false]
      simpa [Ne.symm hcb] using h1
  have hown : ∀ c, Spec.owners { v with handles := v.handles.set i y } c + (if c = b then 1 else 0) = Spec.owners v c := by
    intro c
    have := hcnt c
    simp only [Spec.owners] at this ⊢
    omega
  have hst := h.safe i b hi
  refine ⟨⟨h.nlen, h.vlen, h.links, h.nodup, h.out, h.inRange, ?_, ?_, by simp [h.hs], ?_, ?_, ?_, h.never⟩, hst, ?_⟩
  · intro c st hcb hc
    have := hown c
    rw [if_neg hcb] at this
    rw [h.blk c st hc, ← this]
    rfl
  · intro c
    have h1 := h.small c
    have h2 := hown c
    split <;> simp_all <;> omega
  · intro j c hc
    simp only [List.getElem?_set] at hc
    split at hc
    · split at hc
      · rcases hy with rfl | rfl <;> simp at hc
      · simp at hc
    · exact h.safe j c hc
  · intro c hcb hc
    have := hcnt c
    rw [if_neg hcb] at this
    have := h.kept c hc
    omega
  · intro c hc
    have h1 := hcnt c
    have h2 := h.bare c hc
    omega
  · have h1 := hown b
    simp only [if_true] at h1
    rcases hst with h2 | h2
    · rw [h.blk b _ h2, h1]; simp [h2]
    · rw [h.blk b _ h2, h1]; simp [h2]

theorem newHandle_null {N : Nat} {s : St} {v : Spec.View} (h : Rep N s v) :
    ∃ s', newHandle s none = some s' ∧ Rep N s' { v with handles := v.handles ++ [some none] } ∧ s'.built = s.built := by
  have hh : ∀ c, Spec.holders { v with handles := v.handles ++ [some none] } c = Spec.holders v c := by
    intro c
    have := holders_append v c (some none)
    simpa [Spec.holders] using this
  have ho : ∀ c, Spec.owners { v with handles := v.handles ++ [some none] } c = Spec.owners v c := by
    intro c; rw [Spec.owners, hh]; rfl
  refine ⟨_, rfl, ⟨h.nlen, h.vlen, h.links, h.nodup, h.out, h.inRange, ?_, ?_, by simp [h.hs], ?_, ?_, ?_, h.never⟩, rfl⟩
  · intro c st hc; rw [ho]; exact h.blk c st hc
  · intro c; rw [ho]; exact h.small c
  · intro i c hc
    simp only [List.getElem?_append] at hc
    split at hc
    · exact h.safe i c hc
    · simp [List.getElem?_singleton] at hc
  · intro c hc; rw [hh]; exact h.kept c hc
  · intro c hc; rw [hh]; exact h.bare c hc

theorem newHandle_owned {N : Nat} {s : St} {v : Spec.View} (h : Rep N s v) {b : Nat} (hb : v.stage b = some .owned)
    (hs : Spec.owners v b < 65535) :
    ∃ s', newHandle s (some b) = some s' ∧ Rep N s' { v with handles := v.handles ++ [some (some b)] }
      ∧ s'.built = s.built := by
  have hh : ∀ c, Spec.holders { v with handles := v.handles ++ [some (some b)] } c
      = Spec.holders v c + if c = b then 1 else 0 := by
    intro c
    have h1 := holders_append v c (some (some b))
    rw [Spec.holders, h1]
    by_cases hcb : c = b
    · simp [hcb]
    · simp [hcb, Ne.symm hcb]
  have ho : ∀ c, Spec.owners { v with handles := v.handles ++ [some (some b)] } c
      = Spec.owners v c + if c = b then 1 else 0 := by
    intro c; rw [Spec.owners, hh]; simp only [Spec.owners]; omega
  have hbN : b < N := h.inRange b (by simp [hb])
  have hbv : b < s.pool.vals.length := by rw [h.vlen]; exact hbN
  have hk := h.blk b _ hb
  have hm : (Spec.owners v b + 1) % 65536 = Spec.owners v b + 1 := Nat.mod_eq_of_lt (by omega)
  refine ⟨⟨⟨s.pool.next, s.pool.vals.set b ⟨Spec.owners v b + 1, true⟩, s.pool.front⟩, s.handles ++ [some (some b)], s.built,
    s.ended⟩, by simp only [newHandle, rd, hk, decide_true, if_true, hm, setBlk_lt hbv], ⟨h.nlen, by simpa using h.vlen,
    h.links, h.nodup, h.out, h.inRange, ?_, ?_, by simp [h.hs], ?_, ?_, ?_, h.never⟩, rfl⟩
  · intro c st hc
    have hc' : v.stage c = some st := hc
    rw [ho]
    by_cases hcb : c = b
    · subst hcb
      rw [hb] at hc'; cases hc'
      rw [List.getElem?_set_self hbv]; simp
    · rw [List.getElem?_set_ne (Ne.symm hcb), if_neg hcb, Nat.add_zero]
      exact h.blk c st hc'
  · intro c
    rw [ho]
    have := h.small c
    by_cases hcb : c = b
    · subst hcb; simp; omega
    · simp [hcb]; omega
  · intro i c hc
    simp only [List.getElem?_append] at hc
    split at hc
    · exact h.safe i c hc
    · simp only [List.getElem?_singleton] at hc
      split at hc
      · simp only [Option.some.injEq] at hc
        subst hc
        exact .inl hb
      · simp at hc
  · intro c hc
    have := h.kept c hc
    rw [hh]; omega
  · intro c hc
    have hc' : v.stage c = some .fresh := hc
    have hcb : c ≠ b := by rintro rfl; rw [hb] at hc'; simp at hc'
    rw [hh, if_neg hcb]
    exact h.bare c hc'

theorem step_rep {N : Nat} (hN : N < 2 ^ 32) {s : St} {v : Spec.View} (h : Rep N s v) (op : Op) (hm : Spec.may v op) :
    ∃ s', step (handleBits N) s op = some s' ∧ Rep N s' (Spec.act v op)
      ∧ s'.built = s.built + Spec.builds [op] := by
  cases op with
  | make =>
    cases hf : v.free with
    | nil => exact absurd hf hm
    | cons b f =>
      have hc := h.links
      rw [hf] at hc
      have hbN : b < N := by have := links_lt hc b (by simp); rw [h.nlen] at this; exact this
      obtain ⟨hfr, hne, n, hn, ht⟩ := hc
      have hbv : b < s.pool.vals.length := by rw [h.vlen]; exact hbN
      have hnd := h.nodup
      rw [hf] at hnd
      have hbf : b ∉ f := (List.nodup_cons.mp hnd).1
      have hsb : v.stage b = none := (h.out b hbN).mpr (by simp [hf])
      have hzb : Spec.holders v b = 0 := by
        rcases Nat.eq_zero_or_pos (Spec.holders v b) with h0 | h0
        · exact h0
        · obtain ⟨x, hx, hxe⟩ := List.countP_pos_iff.mp h0
          obtain ⟨i, hi⟩ := List.getElem?_of_mem hx
          have hxe' : x = some (some b) := by simpa using hxe
          rw [hxe'] at hi
          rcases h.safe i b hi with h1 | h1 <;> simp [hsb] at h1
      have ho : ∀ c, c ≠ b → Spec.owners { Spec.put v b (some .fresh) with free := f } c = Spec.owners v c := by
        intro c hcb; simp [Spec.owners, Spec.put, Spec.holders, hcb]
      have hob : Spec.owners { Spec.put v b (some .fresh) with free := f } b = 0 := by
        have : Spec.holders { Spec.put v b (some .fresh) with free := f } b = 0 := hzb
        rw [Spec.owners, this]; simp [Spec.put]
      have hact : Spec.act v .make = { Spec.put v b (some .fresh) with free := f } := by simp only [Spec.act, hf]
      rw [hact]
      refine ⟨{ s with pool := ⟨s.pool.next, s.pool.vals.set b ⟨0, false⟩, n⟩ }, ?_, ⟨h.nlen, by simpa using h.vlen, ht,
        (List.nodup_cons.mp hnd).2, ?_, ?_, ?_, ?_, h.hs, ?_, ?_, ?_, h.never⟩, rfl⟩
      · have hne' : ¬ b = eol (handleBits N) := by rw [← hfr]; exact hne
        simp [step, Pool.V1.construct, allocate, hfr, hne', rd, hn, wr_lt hbv]
      · intro c hc
        by_cases hcb : c = b
        · subst hcb; simp [Spec.put, hbf]
        · have := h.out c hc
          rw [hf] at this
          simpa [Spec.put, hcb] using this
      · intro c hc
        by_cases hcb : c = b
        · rw [hcb]; exact hbN
        · simp only [Spec.put, hcb, if_false] at hc
          exact h.inRange c hc
      · intro c st hc
        by_cases hcb : c = b
        · subst hcb
          simp only [Spec.put, if_true, Option.some.injEq] at hc
          subst hc
          rw [List.getElem?_set_self hbv, hob]; rfl
        · simp only [Spec.put, hcb, if_false] at hc
          rw [List.getElem?_set_ne (Ne.symm hcb), ho c hcb]
          exact h.blk c st hc
      · intro c
        by_cases hcb : c = b
        · subst hcb; omega
        · rw [ho c hcb]; exact h.small c
      · intro i c hc
        have hcb : c ≠ b := by rintro rfl; exact zero_holders hzb i hc
        simp only [Spec.put, hcb, if_false]
        exact h.safe i c hc
      · intro c hc
        by_cases hcb : c = b
        · simp [Spec.put, hcb] at hc
        · simp only [Spec.put, hcb, if_false] at hc
          exact h.kept c hc
      · intro c hc
        by_cases hcb : c = b
        · subst hcb; exact hzb
        · simp only [Spec.put, hcb, if_false] at hc
          exact h.bare c hc
  | build b =>
    have hst : v.stage b = some .fresh := hm
    have hbN : b < N := h.inRange b (by simp [hst])
    have hbv : b < s.pool.vals.length := by rw [h.vlen]; exact hbN
    have hk := h.blk b _ hst
    have hz := h.bare b hst
    have ho0 : Spec.owners v b = 0 := by simp [Spec.owners, hst, hz]
    have ho : ∀ c, c ≠ b → Spec.owners (Spec.put v b (some .owned)) c = Spec.owners v c := by
      intro c hcb; simp [Spec.owners, Spec.put, Spec.holders, hcb]
    have hob : Spec.owners (Spec.put v b (some .owned)) b = 1 := by
      have : Spec.holders (Spec.put v b (some .owned)) b = 0 := hz
      rw [Spec.owners, this]; simp [Spec.put]
    rw [ho0] at hk
    refine ⟨{ s with pool := ⟨s.pool.next, s.pool.vals.set b ⟨1, true⟩, s.pool.front⟩, built := s.built + 1 }, ?_,
      ⟨h.nlen, by simpa using h.vlen, h.links, h.nodup, ?_, ?_, ?_, ?_, h.hs, ?_, ?_, ?_, h.never⟩, rfl⟩
    · simp [step, rd, hk, setBlk_lt hbv]
    · intro c hc
      by_cases hcb : c = b
      · subst hcb
        have := h.out c hc
        rw [hst] at this
        simpa [Spec.act, Spec.put] using this
      · simpa [Spec.act, Spec.put, hcb] using h.out c hc
    · intro c hc
      by_cases hcb : c = b
      · rw [hcb]; exact hbN
      · simp only [Spec.act, Spec.put, hcb, if_false] at hc
        exact h.inRange c hc
    · intro c st hc
      by_cases hcb : c = b
      · subst hcb
        simp only [Spec.act, Spec.put, if_true, Option.some.injEq] at hc
        subst hc
        rw [List.getElem?_set_self hbv, Spec.act, hob]; rfl
      · simp only [Spec.act, Spec.put, hcb, if_false] at hc
        rw [List.getElem?_set_ne (Ne.symm hcb), Spec.act, ho c hcb]
        exact h.blk c st hc
    · intro c
      rw [Spec.act]
      by_cases hcb : c = b
      · subst hcb; omega
      · rw [ho c hcb]; exact h.small c
    · intro i c hc
      have := h.safe i c hc
      by_cases hcb : c = b
      · left; simp [Spec.act, Spec.put, hcb]
      · simpa [Spec.act, Spec.put, hcb] using this
    · intro c hc
      by_cases hcb : c = b
      · simp [Spec.act, Spec.put, hcb] at hc
      · simp only [Spec.act, Spec.put, hcb, if_false] at hc
        exact h.kept c hc
    · intro c hc
      by_cases hcb : c = b
      · simp [Spec.act, Spec.put, hcb] at hc
      · simp only [Spec.act, Spec.put, hcb, if_false] at hc
        exact h.bare c hc
  | hold b =>
    obtain ⟨h1, h2⟩ := hm
    obtain ⟨st, hst⟩ := Option.isSome_iff_exists.mp h1
    have hk := h.blk b _ hst
    by_cases hown : st = .owned
    · subst hown
      obtain ⟨s', e1, e2, e3⟩ := newHandle_owned h hst h2
      exact ⟨s', by simp [step, rd, hk, e1], by simpa [Spec.act, hst] using e2, by simpa [Spec.builds] using e3⟩
    · obtain ⟨s', e1, e2, e3⟩ := newHandle_null h
      exact ⟨s', by simp [step, rd, hk, hown, e1], by simpa [Spec.act, hst, hown] using e2,
        by simpa [Spec.builds] using e3⟩
  | copy i =>
    rcases hm with hi | ⟨b, hi, hst, hs⟩
    · obtain ⟨s', e1, e2, e3⟩ := newHandle_null h
      exact ⟨s', by simp [step, h.hs, hi, e1], by simpa [Spec.act, hi] using e2, by simpa [Spec.builds] using e3⟩
    · obtain ⟨s', e1, e2, e3⟩ := newHandle_owned h hst hs
      exact ⟨s', by simp [step, h.hs, hi, e1], by simpa [Spec.act, hi] using e2, by simpa [Spec.builds] using e3⟩
  | clear i =>
    obtain ⟨p, hi⟩ := hm
    cases p with
    | none => exact ⟨s, by simp [step, h.hs, hi], by simpa [Spec.act, hi] using h, by simp [Spec.builds]⟩
    | some b =>
      obtain ⟨e1, e2, e3⟩ := handle_goes h (some none) (.inr rfl) hi
      obtain ⟨s', f1, f2, f3⟩ := settle_rep hN e1 false _ (by
        rcases e2 with h1 | h1
        · exact .inl ⟨h1, rfl, by simp [h1]⟩
        · exact .inr ⟨h1, .inr (by simp [h1])⟩) e3
      exact ⟨s', by simpa [step, h.hs, hi] using f1, by simpa [Spec.act, hi] using f2, by simpa [Spec.builds] using f3⟩
  | drop i =>
    obtain ⟨p, hi⟩ := hm
    cases p with
    | none =>
      have hh : ∀ c, Spec.holders { v with handles := v.handles.set i none } c = Spec.holders v c := by
        intro c
        have := countP_set_eq v.handles i (some none) none c hi
        simpa [Spec.holders] using this
      have ho : ∀ c, Spec.owners { v with handles := v.handles.set i none } c = Spec.owners v c := by
        intro c; rw [Spec.owners, hh]; rfl
      refine ⟨{ s with handles := s.handles.set i none }, by simp [step, h.hs, hi], ?_, by simp [Spec.builds]⟩
      have hact : Spec.act v (.drop i) = { v with handles := v.handles.set i none } := by simp only [Spec.act, hi]
      rw [hact]
      refine ⟨h.nlen, h.vlen, h.links, h.nodup, h.out, h.inRange, ?_, ?_, by simp [h.hs], ?_, ?_, ?_, h.never⟩
      · intro c st hc; rw [ho]; exact h.blk c st hc
      · intro c; rw [ho]; exact h.small c
      · intro j c hc
        simp only [List.getElem?_set] at hc
        split at hc
        · split at hc <;> simp at hc
        · exact h.safe j c hc
      · intro c hc; rw [hh]; exact h.kept c hc
      · intro c hc; rw [hh]; exact h.bare c hc
    | some b =>
      obtain ⟨e1, e2, e3⟩ := handle_goes h none (.inl rfl) hi
      obtain ⟨s', f1, f2, f3⟩ := settle_rep hN e1 false _ (by
        rcases e2 with h1 | h1
        · exact .inl ⟨h1, rfl, by simp [h1]⟩
        · exact .inr ⟨h1, .inr (by simp [h1])⟩) e3
      exact ⟨s', by simpa [step, h.hs, hi] using f1, by simpa [Spec.act, hi] using f2, by simpa [Spec.builds] using f3⟩
  | reset b =>
    obtain ⟨st, hst⟩ := Option.isSome_iff_exists.mp hm
    have hk := h.blk b _ hst
    by_cases hown : st = .owned
    · subst hown
      have hoc : ∀ c, c ≠ b → Spec.owners (Spec.put v b (some .orphan)) c = Spec.owners v c := by
        intro c hcb; simp [Spec.owners, Spec.put, Spec.holders, hcb]
      have hob : Spec.owners (Spec.put v b (some .orphan)) b + 1 = Spec.owners v b := by
        simp [Spec.owners, Spec.put, Spec.holders, hst]; omega
      have hpend : Pend N s (Spec.put v b (some .orphan)) b := by
        refine ⟨h.nlen, h.vlen, h.links, h.nodup, ?_, ?_, ?_, ?_, h.hs, ?_, ?_, ?_, h.never⟩
        · intro c hc
          by_cases hcb : c = b
          · subst hcb
            have := h.out c hc
            rw [hst] at this
            simpa [Spec.put] using this
          · simpa [Spec.put, hcb] using h.out c hc
        · intro c hc
          by_cases hcb : c = b
          · rw [hcb]; exact h.inRange b (by simp [hst])
          · simp only [Spec.put, hcb, if_false] at hc
            exact h.inRange c hc
        · intro c st hcb hc
          simp only [Spec.put, hcb, if_false] at hc
          rw [hoc c hcb]
          exact h.blk c st hc
        · intro c
          have := h.small c
          by_cases hcb : c = b
          · subst hcb; simp; omega
          · rw [hoc c hcb, if_neg hcb]; omega
        · intro i c hc
          have := h.safe i c hc
          by_cases hcb : c = b
          · right; simp [Spec.put, hcb]
          · simpa [Spec.put, hcb] using this
        · intro c hcb hc
          simp only [Spec.put, hcb, if_false] at hc
          exact h.kept c hc
        · intro c hc
          by_cases hcb : c = b
          · simp [Spec.put, hcb] at hc
          · simp only [Spec.put, hcb, if_false] at hc
            exact h.bare c hc
      obtain ⟨s', f1, f2, f3⟩ := settle_rep hN hpend true true (.inr ⟨by simp [Spec.put], .inl rfl⟩)
        (by rw [hob, hk]; simp)
      exact ⟨s', by simpa [step, rd, hk] using f1, by simpa [Spec.act, hst] using f2, by simpa [Spec.builds] using f3⟩
    · exact ⟨s, by simp [step, rd, hk, hown], by simpa [Spec.act, hst, hown] using h, by simp [Spec.builds]⟩
  | destroy b => exact absurd hm (by simp [Spec.may])

theorem run_rep {N : Nat} (hN : N < 2 ^ 32) (ops : List Op) : ∀ {s : St} {v : Spec.View}, Rep N s v → Spec.Legal ops v →
    ∃ s', run (handleBits N) ops s = some s' ∧ Rep N s' (Spec.view ops v) ∧ s'.built = s.built + Spec.builds ops := by
  induction ops with
  | nil => intro s v h _; exact ⟨s, rfl, h, by simp [Spec.builds]⟩
  | cons op ops ih =>
    intro s v h hl
    obtain ⟨s1, e1, e2, e3⟩ := step_rep hN h op hl.1
    obtain ⟨s2, f1, f2, f3⟩ := ih e2 hl.2
    refine ⟨s2, by simp [run, e1, f1], f2, ?_⟩
    rw [f3, e3]
    cases op <;> simp [Spec.builds] <;> omega

theorem start_rep {N : Nat} (h0 : 0 < N) (hN : N < 2 ^ 32) {nx : List Nat} {vals : List Blk} (h1 : nx.length = N)
    (h2 : vals.length = N) : ∃ s, start N nx vals = some s ∧ Rep N s (Spec.full N) ∧ s.built = 0 := by
  obtain ⟨m, e1, e2, e3⟩ := create_links h0 hN (vals := vals) h1
  refine ⟨⟨⟨m, vals, 0⟩, [], 0, 0⟩, by simp [start, e1], ⟨e2, h2, e3, List.nodup_range, ?_, ?_, ?_, ?_, rfl, ?_, ?_, ?_, rfl⟩, rfl⟩
  · intro b hb; simp [Spec.full, hb]
  · intro b hb; simp [Spec.full] at hb
  · intro b st hb; simp [Spec.full] at hb
  · intro b; simp [Spec.owners, Spec.holders, Spec.full]
  · intro i b hi; simp [Spec.full] at hi
  · intro b hb; simp [Spec.full] at hb
  · intro b hb; simp [Spec.full] at hb

theorem history_rep {N : Nat} (h0 : 0 < N) (hN : N < 2 ^ 32) {nx : List Nat} {vals : List Blk} (h1 : nx.length = N)
    (h2 : vals.length = N) (ops : List Op) (hl : Spec.Legal ops (Spec.full N)) :
    ∃ s, (start N nx vals).bind (run (handleBits N) ops) = some s ∧ Rep N s (Spec.view ops (Spec.full N))
      ∧ s.built = Spec.builds ops := by
  obtain ⟨s0, e1, e2, e3⟩ := start_rep h0 hN h1 h2
  obtain ⟨s, f1, f2, f3⟩ := run_rep hN ops e2 hl
  exact ⟨s, by simp [e1, f1], f2, by rw [f3, e3]; simp⟩

theorem count_free_rep {N : Nat} (hN : N < 2 ^ 32) {s : St} {v : Spec.View} (h : Rep N s v) (fuel : Nat) (hf : N ≤ fuel) :
    countFree (handleBits N) fuel s.pool = some v.free.length := by
  have hle : v.free.length ≤ N := nodup_length_le h.nodup (fun a ha => by
    have := links_lt h.links a ha
    rw [h.nlen] at this; exact this)
  obtain ⟨f1, f2⟩ := handle_fits N hN
  rw [countFree, walk_links h.links fuel (by omega)]
  simp only [Option.map_some, Option.some.injEq]
  exact Nat.mod_eq_of_lt (by omega)

/-! ## C103 -/

/-- For every history of a careful caller on a new pool of `N` slots: no operation is undefined; the handles point where
they should; no handle ever points to a slot that is in the pool, and every slot out of the pool is one nobody has
made an object in yet or has an owner, so that a slot goes back exactly when its last owner goes; `use_count()` is the
number of owners; `count_free()` the number of slots in the pool; and every object asked for was made. -/
theorem pooled_objects_partial {N : Nat} (h0 : 0 < N) (hN : N < 2 ^ 32) {nx : List Nat} {vals : List Blk}
    (h1 : nx.length = N) (h2 : vals.length = N) (ops : List Op) (hl : Spec.Legal ops (Spec.full N)) :
    ∃ s, (start N nx vals).bind (run (handleBits N) ops) = some s
      ∧ s.handles = (Spec.view ops (Spec.full N)).handles
      ∧ (∀ (i : Nat) b, s.handles[i]? = some (some (some b)) →
          b < N ∧ b ∉ (Spec.view ops (Spec.full N)).free ∧ useCount s i = some (Spec.owners (Spec.view ops (Spec.full N)) b))
      ∧ (∀ b, b < N → b ∉ (Spec.view ops (Spec.full N)).free →
          (Spec.view ops (Spec.full N)).stage b = some .fresh ∨ 0 < Spec.owners (Spec.view ops (Spec.full N)) b)
      ∧ (∀ b, (Spec.view ops (Spec.full N)).stage b = some .owned →
          useCountMaster s b = some (Spec.owners (Spec.view ops (Spec.full N)) b))
      ∧ (∀ fuel, N ≤ fuel → countFree (handleBits N) fuel s.pool = some (Spec.view ops (Spec.full N)).free.length)
      ∧ s.built = Spec.builds ops := by
  obtain ⟨s, e1, e2, e3⟩ := history_rep h0 hN h1 h2 ops hl
  refine ⟨s, e1, e2.hs, ?_, ?_, ?_, count_free_rep hN e2, e3⟩
  · intro i b hi
    have hi' := hi
    rw [e2.hs] at hi'
    obtain ⟨st, hst⟩ : ∃ st, (Spec.view ops (Spec.full N)).stage b = some st := by
      rcases e2.safe i b hi' with h | h <;> exact ⟨_, h⟩
    have hb := e2.inRange b (by simp [hst])
    refine ⟨hb, ?_, ?_⟩
    · intro hm
      rw [(e2.out b hb).mpr hm] at hst
      simp at hst
    · simp [useCount, hi, rd, e2.blk b st hst]
  · intro b hb hm
    cases hst : (Spec.view ops (Spec.full N)).stage b with
    | none => exact absurd ((e2.out b hb).mp hst) hm
    | some st =>
      cases st with
      | fresh => exact .inl rfl
      | owned => right; simp [Spec.owners, hst]; omega
      | orphan => right; have := e2.kept b hst; unfold Spec.owners; omega
  · intro b hst
    simp [useCountMaster, rd, e2.blk b _ hst]

/-- Two shared objects out of three slots, one shared by a handle that outlives the shared pointer. -/
example : Spec.Legal [.make, .make, .build 1, .build 0, .hold 1, .copy 0, .reset 1, .drop 0, .reset 0, .drop 1]
    (Spec.full 3) := by
  simp [Spec.Legal, Spec.may, Spec.act, Spec.full, Spec.put, Spec.settle, Spec.owners, Spec.holders, List.range,
    List.range.loop]

/-- **Violation.** No object is ever destroyed: after every history of a careful caller, also one after which every slot is
back in the pool, not one destructor of the objects made has run. -/
theorem pooled_objects_never_destroyed {N : Nat} (h0 : 0 < N) (hN : N < 2 ^ 32) {nx : List Nat} {vals : List Blk}
    (h1 : nx.length = N) (h2 : vals.length = N) (ops : List Op) (hl : Spec.Legal ops (Spec.full N)) :
    ∃ s, (start N nx vals).bind (run (handleBits N) ops) = some s ∧ s.ended = 0 ∧ s.built = Spec.builds ops := by
  obtain ⟨s, e1, e2, e3⟩ := history_rep h0 hN h1 h2 ops hl
  exact ⟨s, e1, e2.never, e3⟩

/-- **Violation.** `pool.destroy(p)` on a shared pointer that is the only owner returns the slot twice: after every history
of a careful caller, the pool then answers this slot to every further request, for ever. -/
theorem pooled_destroy_sole_owner {N : Nat} (h0 : 0 < N) (hN : N < 2 ^ 32) {nx : List Nat} {vals : List Blk}
    (h1 : nx.length = N) (h2 : vals.length = N) (ops : List Op) (hl : Spec.Legal ops (Spec.full N)) (b : Nat)
    (hst : (Spec.view ops (Spec.full N)).stage b = some .owned)
    (hone : Spec.owners (Spec.view ops (Spec.full N)) b = 1) :
    ∃ s s', (start N nx vals).bind (run (handleBits N) ops) = some s ∧ step (handleBits N) s (.destroy b) = some s'
      ∧ allocate (handleBits N) s'.pool = some (s'.pool, some b)
      ∧ ∀ fuel, countFree (handleBits N) fuel s'.pool = none := by
  obtain ⟨s, e1, e2, -⟩ := history_rep h0 hN h1 h2 ops hl
  have hb := e2.inRange b (by simp [hst])
  have hbv : b < s.pool.vals.length := by rw [e2.vlen]; exact hb
  have hk := e2.blk b _ hst
  rw [hone] at hk
  have hbf : b ∉ (Spec.view ops (Spec.full N)).free := by
    intro hm
    have := (e2.out b hb).mpr hm
    simp [hst] at this
  obtain ⟨f1, f2⟩ := handle_fits N hN
  have hm : b % 2 ^ handleBits N = b := Nat.mod_eq_of_lt (by omega)
  have hbn : b < s.pool.next.length := by rw [e2.nlen]; exact hb
  have hd : step (handleBits N) s (.destroy b)
      = some { s with pool := ⟨s.pool.next.set b b, s.pool.vals.set b ⟨65535, true⟩, b⟩ } := by
    show destroy (handleBits N) 3 s b = _
    rw [destroy]
    simp only [rd, hk, decide_true, if_true, setBlk_lt hbv]
    rw [destroy]
    simp [rd, hbv, setBlk, wr_lt, deallocate, pushFront, hm, hbn]
  refine ⟨s, _, e1, hd, ?_, ?_⟩
  · unfold allocate
    rw [if_neg (by show b ≠ _; omega)]
    simp [rd, hbn]
  · intro fuel
    have : walk (s.pool.next.set b b) (eol (handleBits N)) fuel b = none := by
      induction fuel with
      | zero => simp [walk]; omega
      | succ fuel ih =>
        rw [walk, if_neg (by omega)]
        simp only [rd]
        rw [List.getElem?_set_self (by simpa using hbn)]
        simp only [ih, Option.map_none]
    simp [countFree, this]

example : (Spec.view [.make, .build 0] (Spec.full 3)).stage 0 = some .owned
    ∧ Spec.owners (Spec.view [.make, .build 0] (Spec.full 3)) 0 = 1 := by
  simp [Spec.view, Spec.act, Spec.full, Spec.put, Spec.owners, Spec.holders, List.range, List.range.loop]

/-- **Violation.** `pool.destroy(p)` on an object that handles share gives the slot back under them: after every history of
a careful caller, the next object is made in the slot that the handle still points to. -/
theorem pooled_destroy_shared {N : Nat} (h0 : 0 < N) (hN : N < 2 ^ 32) {nx : List Nat} {vals : List Blk}
    (h1 : nx.length = N) (h2 : vals.length = N) (ops : List Op) (hl : Spec.Legal ops (Spec.full N)) (i b : Nat)
    (hst : (Spec.view ops (Spec.full N)).stage b = some .owned)
    (hi : (Spec.view ops (Spec.full N)).handles[i]? = some (some (some b))) :
    ∃ s s', (start N nx vals).bind (run (handleBits N) ops) = some s ∧ step (handleBits N) s (.destroy b) = some s'
      ∧ s'.handles[i]? = some (some (some b)) ∧ ∃ p, allocate (handleBits N) s'.pool = some (p, some b) := by
  obtain ⟨s, e1, e2, -⟩ := history_rep h0 hN h1 h2 ops hl
  have hb := e2.inRange b (by simp [hst])
  have hbv : b < s.pool.vals.length := by rw [e2.vlen]; exact hb
  have hk := e2.blk b _ hst
  have hown : 2 ≤ Spec.owners (Spec.view ops (Spec.full N)) b := by
    have := some_holder hi
    simp [Spec.owners, hst]; omega
  have hsm := e2.small b
  have hbf : b ∉ (Spec.view ops (Spec.full N)).free := by
    intro hm
    have := (e2.out b hb).mpr hm
    simp [hst] at this
  obtain ⟨f1, f2⟩ := handle_fits N hN
  have hcnt : (Spec.owners (Spec.view ops (Spec.full N)) b + 65535) % 65536
      = Spec.owners (Spec.view ops (Spec.full N)) b - 1 := by omega
  obtain ⟨p', d1, d2, d3, d4⟩ := dealloc_rep hN (p := ⟨s.pool.next,
    s.pool.vals.set b ⟨Spec.owners (Spec.view ops (Spec.full N)) b - 1, true⟩, s.pool.front⟩)
    (by simpa using e2.nlen) hb hbf e2.links
  refine ⟨s, { s with pool := p' }, e1, ?_, by rw [e2.hs]; exact hi, ?_⟩
  · show destroy (handleBits N) 3 s b = _
    rw [destroy]
    simp only [rd, hk, decide_true, if_true, hcnt, setBlk_lt hbv]
    rw [if_neg (by omega)]
    simp [d1]
  · obtain ⟨g1, g2, n, g3, -⟩ := d4
    have : ¬ b = eol (handleBits N) := by rw [← g1]; exact g2
    refine ⟨⟨p'.next, p'.vals, n⟩, ?_⟩
    simp only [allocate, g1, this, if_false, rd, g3, Option.map_some]

/-- **Violation.** Copying a handle after the shared pointer in the slot was reset does not count the copy: after every
history of a careful caller that leaves an object with one handle as its only owner, copy the handle and end the first —
the slot is back in the pool, next to go out, while the copy still points to it. -/
theorem pooled_copy_after_reset {N : Nat} (h0 : 0 < N) (hN : N < 2 ^ 32) {nx : List Nat} {vals : List Blk}
    (h1 : nx.length = N) (h2 : vals.length = N) (ops : List Op) (hl : Spec.Legal ops (Spec.full N)) (i b : Nat)
    (hst : (Spec.view ops (Spec.full N)).stage b = some .orphan)
    (hi : (Spec.view ops (Spec.full N)).handles[i]? = some (some (some b)))
    (hone : Spec.owners (Spec.view ops (Spec.full N)) b = 1) :
    ∃ s s', (start N nx vals).bind (run (handleBits N) ops) = some s
      ∧ run (handleBits N) [.copy i, .drop i] s = some s'
      ∧ s'.handles[s.handles.length]? = some (some (some b))
      ∧ ∃ p, allocate (handleBits N) s'.pool = some (p, some b) := by
  obtain ⟨s, e1, e2, -⟩ := history_rep h0 hN h1 h2 ops hl
  have hb := e2.inRange b (by simp [hst])
  have hbv : b < s.pool.vals.length := by rw [e2.vlen]; exact hb
  have hk := e2.blk b _ hst
  rw [hone] at hk
  have hbf : b ∉ (Spec.view ops (Spec.full N)).free := by
    intro hm
    have := (e2.out b hb).mpr hm
    simp [hst] at this
  obtain ⟨p', d1, d2, d3, d4⟩ := dealloc_rep hN (p := ⟨s.pool.next, s.pool.vals.set b ⟨0, false⟩, s.pool.front⟩)
    (by simpa using e2.nlen) hb hbf e2.links
  have hi' : s.handles[i]? = some (some (some b)) := by rw [e2.hs]; exact hi
  have hil : i < s.handles.length := (List.getElem?_eq_some_iff.mp hi').1
  refine ⟨s, ⟨p', (s.handles ++ [some (some b)]).set i none, s.built, s.ended⟩, e1, ?_, ?_, ?_⟩
  · have hi2 : (s.handles ++ [some (some b)])[i]? = some (some (some b)) := by
      rw [List.getElem?_append_left hil]; exact hi'
    simp only [run, step, hi', newHandle, rd, hk, hi2, evalDelete, reduceCtorEq, decide_false, setBlk,
      wr_lt hbv, Option.map_some, Bool.false_eq_true, if_false]
    simp [destroy, rd, hbv, d1]
  · show ((s.handles ++ [some (some b)]).set i none)[s.handles.length]? = _
    rw [List.getElem?_set_ne (by omega)]
    simp
  · obtain ⟨g1, g2, n, g3, -⟩ := d4
    have : ¬ b = eol (handleBits N) := by rw [← g1]; exact g2
    refine ⟨⟨p'.next, p'.vals, n⟩, ?_⟩
    simp only [allocate, g1, this, if_false, rd, g3, Option.map_some]

example : Spec.Legal [.make, .build 0, .hold 0, .reset 0] (Spec.full 3)
    ∧ (Spec.view [.make, .build 0, .hold 0, .reset 0] (Spec.full 3)).stage 0 = some .orphan
    ∧ (Spec.view [.make, .build 0, .hold 0, .reset 0] (Spec.full 3)).handles[0]? = some (some (some 0))
    ∧ Spec.owners (Spec.view [.make, .build 0, .hold 0, .reset 0] (Spec.full 3)) 0 = 1 := by
  simp [Spec.Legal, Spec.may, Spec.view, Spec.act, Spec.full, Spec.put, Spec.settle, Spec.owners, Spec.holders, List.range,
    List.range.loop]

/-- Making the object in a slot a second time (the code calls this undefined, memory.h:424) is counted as a second owner that nobody can give up: after
every history of a careful caller in which the shared pointer in slot `b` is the only owner, `p.construct()` and
`p.reset()` leave nobody pointing to the slot and the slot out of the pool, and every further `p.reset()` does nothing. -/
theorem pooled_construct_twice_leaks {N : Nat} (h0 : 0 < N) (hN : N < 2 ^ 32) {nx : List Nat} {vals : List Blk}
    (h1 : nx.length = N) (h2 : vals.length = N) (ops : List Op) (hl : Spec.Legal ops (Spec.full N)) (b : Nat)
    (hst : (Spec.view ops (Spec.full N)).stage b = some .owned)
    (hone : Spec.owners (Spec.view ops (Spec.full N)) b = 1) :
    ∃ s s', (start N nx vals).bind (run (handleBits N) ops) = some s
      ∧ run (handleBits N) [.build b, .reset b] s = some s'
      ∧ useCountMaster s' b = some 0 ∧ (∀ i : Nat, s'.handles[i]? ≠ some (some (some b)))
      ∧ (∀ fuel, countFree (handleBits N) fuel s'.pool = countFree (handleBits N) fuel s.pool)
      ∧ step (handleBits N) s' (.reset b) = some s' := by
  obtain ⟨s, e1, e2, -⟩ := history_rep h0 hN h1 h2 ops hl
  have hb := e2.inRange b (by simp [hst])
  have hbv : b < s.pool.vals.length := by rw [e2.vlen]; exact hb
  have hk := e2.blk b _ hst
  rw [hone] at hk
  have hz : Spec.holders (Spec.view ops (Spec.full N)) b = 0 := by
    have := hone
    unfold Spec.owners at this
    rw [if_pos hst] at this
    omega
  refine ⟨s, ⟨⟨s.pool.next, s.pool.vals.set b ⟨1, false⟩, s.pool.front⟩, s.handles, s.built + 1, s.ended⟩, e1, ?_, ?_, ?_,
    fun _ => rfl, ?_⟩
  · have hself : ∀ k : Blk, (s.pool.vals.set b k)[b]? = some k := fun k => List.getElem?_set_self hbv
    simp only [run, step, rd, hk, setBlk, wr_lt hbv, Option.map_some, hself, if_true, evalDelete]
    rw [wr_lt (by simpa using hbv)]
    simp
  · simp [useCountMaster, rd, hbv]
  · intro i
    show s.handles[i]? ≠ _
    rw [e2.hs]
    exact zero_holders hz i
  · simp [step, rd, hbv]

/-- **Violation.** With all slots out, `pool.construct()` is undefined. -/
theorem pooled_exhausted_undefined {N : Nat} (h0 : 0 < N) (hN : N < 2 ^ 32) {nx : List Nat} {vals : List Blk}
    (h1 : nx.length = N) (h2 : vals.length = N) (ops : List Op) (hl : Spec.Legal ops (Spec.full N))
    (he : (Spec.view ops (Spec.full N)).free = []) :
    ∃ s, (start N nx vals).bind (run (handleBits N) ops) = some s ∧ step (handleBits N) s .make = none := by
  obtain ⟨s, e1, e2, -⟩ := history_rep h0 hN h1 h2 ops hl
  refine ⟨s, e1, ?_⟩
  have hf := e2.links
  rw [he] at hf
  have hf' : s.pool.front = eol (handleBits N) := hf
  simp [step, Pool.V1.construct, allocate, hf']

end Verif.PoolShared
