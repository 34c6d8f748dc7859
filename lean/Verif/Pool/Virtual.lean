import Verif.Pool.Linked
/-!
# The handle-based heap of exp/memory/memory_pool2.h (C58)

`virtual_memory<N, N_Handles>`: a free list of variable-size chunks inside `storage`, and handles to allocated chunks.
An address is an offset into `storage`.  `hdr a` is what the bytes at address `a` mean when read as an `item`
(a link and a size, 153-158); `S` is `sizeof(item)`.  Alignment is not modelled.
-/
namespace Verif.Pool.Virtual
open Verif

/-! ## The model -/

/-- `item`, memory_pool2.h:153-158; `none` is the null pointer -/
structure Item where
  next : Option Nat
  size : Nat
  deriving DecidableEq, Repr

/-- `maintenance_mode`, memory_pool2.h:120-125 -/
inductive Mode where | uninitialized | compact | move
  deriving DecidableEq, Repr

/-- The object, memory_pool2.h:130-179.  A handle is `(data, chunk_size)` (144-150).  `ev`, `evPrev`, `processed` are
`compact_state`. -/
structure VM where
  hdr : Nat → Item
  handles : List (Option Nat × Nat)
  head : Option Nat
  mode : Mode
  ev : Option Nat
  evPrev : Option Nat
  processed : Nat

/-- writing an `item` at address `a`.  (Simplification: what the overlapping addresses mean afterwards is left as it
was; the theorems only read headers that overlap no other.) -/
def upd (f : Nat → Item) (a : Nat) (v : Item) : Nat → Item := fun x => if x = a then v else f x

/-- the constructor, memory_pool2.h:182-187, over arbitrary storage -/
def create (g : Nat → Item) (N nh : Nat) : VM :=
  ⟨upd g 0 ⟨none, N⟩, List.replicate nh (none, 0), some 0, .uninitialized, none, none, 0⟩

/-- `get_free_handle`, memory_pool2.h:189-203: the first handle without data -/
def freeHandle : List (Option Nat × Nat) → Option Nat
  | [] => none
  | (none, _) :: _ => some 0
  | (some _, _) :: hs => (freeHandle hs).map (· + 1)

/-- The two branches of `allocate` that take chunk `a`, memory_pool2.h:219-238.  `prev` is `none` while the local
variable is uninitialised; dereferencing it or a null handle is undefined. -/
def allocAt (vm : VM) (size : Nat) (prev : Option Nat) (a : Nat) : Option (VM × Option Nat) :=
  if (vm.hdr a).size = size then
    match prev with
    | none => none
    | some p =>
      match freeHandle vm.handles with
      | none => none
      | some h =>
        some ({ vm with hdr := upd vm.hdr p ⟨(vm.hdr a).next, (vm.hdr p).size⟩,
                        handles := vm.handles.set h (some a, size) }, some h)
  else
    match freeHandle vm.handles with
    | none => none
    | some h =>
      some ({ vm with hdr := upd vm.hdr a ⟨(vm.hdr a).next, (vm.hdr a).size - size⟩,
                      handles := vm.handles.set h (some (a + ((vm.hdr a).size - size)), size) }, some h)

/-- the loop of `allocate`, memory_pool2.h:216-248; the inner `none` is the result -1, the outer one undefined
behaviour or a loop that does not end -/
def allocLoop (vm : VM) (size : Nat) : Nat → Option Nat → Option Nat → Option (VM × Option Nat)
  | _, _, none => some (vm, none)
  | 0, _, some _ => none
  | f + 1, prev, some a =>
    if size ≤ (vm.hdr a).size then allocAt vm size prev a
    else allocLoop vm size f (some a) (vm.hdr a).next

/-- `allocate(size)`, memory_pool2.h:205-249; a free list has at most `N` chunks -/
def allocate (N S : Nat) (vm : VM) (size : Nat) : Option (VM × Option Nat) :=
  allocLoop vm (if size < S then S else size) (N + 1) none vm.head

/-- `free(h_index)`, memory_pool2.h:251-263 -/
def free (vm : VM) (h : Nat) : Option VM :=
  match vm.handles[h]? with
  | some (some d, sz) =>
    some { vm with hdr := upd vm.hdr d ⟨vm.head, sz⟩, handles := vm.handles.set h (none, sz), head := some d }
  | _ => none

/-- the loop of `total_free`, memory_pool2.h:272-278: bytes and nodes -/
def totalLoop (vm : VM) : Nat → Option Nat → Option (Nat × Nat)
  | _, none => some (0, 0)
  | 0, some _ => none
  | f + 1, some a => (totalLoop vm f (vm.hdr a).next).map fun r => (r.1 + (vm.hdr a).size, r.2 + 1)

/-- `total_free(&nodes)`, memory_pool2.h:265-281 -/
def totalFree (N : Nat) (vm : VM) : Option (Nat × Nat) := totalLoop vm (N + 1) vm.head

/-- `maint_absorb(a, b)`, memory_pool2.h:283-299 -/
def absorb (vm : VM) (a b : Nat) : VM × Bool :=
  if (b : Int) - a = (vm.hdr a).size then
    ({ vm with processed := vm.processed + 1,
               hdr := upd vm.hdr a ⟨(vm.hdr b).next, (vm.hdr a).size + (vm.hdr b).size⟩ }, true)
  else (vm, false)

/-- the end of `maint_compact`, memory_pool2.h:332-333 and 340-345: absorb, and move on from chunk `i`, or from the
absorbed chunk `b` -/
def compactEnd (vm : VM) (i a b : Nat) : VM :=
  let (vm1, r) := absorb vm a b
  let j := if r then b else i
  { vm1 with evPrev := some j, ev := (vm1.hdr j).next }

/-- `maint_compact`, memory_pool2.h:303-348 -/
def maintCompact (vm : VM) : Option VM :=
  match vm.ev with
  | none => none
  | some i =>
    match (vm.hdr i).next with
    | none => some vm
    | some j =>
      if j < i then
        let n2 := (vm.hdr j).next
        let h1 := upd vm.hdr j ⟨some i, (vm.hdr j).size⟩
        let h2 := upd h1 i ⟨n2, (h1 i).size⟩
        let vm1 := { vm with processed := vm.processed + 1, hdr := h2 }
        match vm.evPrev with
        | none => some (compactEnd { vm1 with head := some j } i j i)
        | some p => some (compactEnd { vm1 with hdr := upd h2 p ⟨some j, (h2 p).size⟩ } i j i)
      else some (compactEnd vm i i j)

/-- the `compact` case of `maint`, memory_pool2.h:367-374 -/
def maintC (vm : VM) : Option VM :=
  (maintCompact { vm with processed := 0 }).map fun v =>
    if v.processed = 0 then { v with mode := .move } else v

/-- `maint`, memory_pool2.h:355-381 -/
def maint (vm : VM) : Option VM :=
  match vm.mode with
  | .uninitialized => maintC { vm with ev := vm.head, evPrev := none, mode := .compact }
  | .compact => maintC vm
  | .move => some { vm with mode := .uninitialized }

/-! ## Specification -/

/-- the regions of the handles in use -/
def Spec.live (hs : List (Option Nat × Nat)) : List (Nat × Nat) := hs.filterMap fun h => h.1.map (·, h.2)

/-- two regions `(start, length)` do not overlap -/
def Spec.Disj (r q : Nat × Nat) : Prop := r.1 + r.2 ≤ q.1 ∨ q.1 + q.2 ≤ r.1

/-- The owner of handle `h` writes into its region: afterwards every header that does not touch the region is as
before, everything else may be anything. -/
def Spec.Scribble (S : Nat) (vm vm' : VM) (h : Nat) : Prop :=
  ∃ d sz, vm.handles[h]? = some (some d, sz) ∧
    vm' = { vm with hdr := vm'.hdr } ∧ ∀ a, Spec.Disj (a, S) (d, sz) → vm'.hdr a = vm.hdr a

/-- Histories: construction over arbitrary storage, allocations of multiples of `S`, frees of handles in use, arbitrary
writes of owners into their regions, and maintenance outside the `compact` mode. -/
inductive Reach (N S nh : Nat) : VM → Prop
  | create {g} : Reach N S nh (create g N nh)
  | alloc {vm vm' size r} : Reach N S nh vm → S ∣ size → allocate N S vm size = some (vm', r) → Reach N S nh vm'
  | free {vm vm' h} : Reach N S nh vm → free vm h = some vm' → Reach N S nh vm'
  | scribble {vm vm' h} : Reach N S nh vm → Spec.Scribble S vm vm' h → Reach N S nh vm'
  | maint {vm vm'} : Reach N S nh vm → vm.mode ≠ .compact → maint vm = some vm' → Reach N S nh vm'

/-! ## Chains -/

/-- following links from `p` one passes the chunks `l` and then holds `q` -/
def Sg (f : Nat → Item) : Option Nat → List Nat → Option Nat → Prop
  | p, [], q => p = q
  | p, a :: l, q => p = some a ∧ Sg f (f a).next l q

theorem Sg.append {f : Nat → Item} : ∀ {l1 l2 : List Nat} {p q : Option Nat},
    Sg f p (l1 ++ l2) q ↔ ∃ r, Sg f p l1 r ∧ Sg f r l2 q
  | [], l2, p, q => by simp [Sg]
  | a :: l1, l2, p, q => by
    simp only [List.cons_append, Sg, Sg.append]
    constructor
    · rintro ⟨h, r, h1, h2⟩; exact ⟨r, ⟨h, h1⟩, h2⟩
    · rintro ⟨r, ⟨h, h1⟩, h2⟩; exact ⟨h, r, h1, h2⟩

theorem Sg.congr {f g : Nat → Item} : ∀ {l : List Nat} {p q : Option Nat}, (∀ a ∈ l, (f a).next = (g a).next) →
    Sg f p l q → Sg g p l q
  | [], _, _, _, h => h
  | a :: l, _, _, hc, h => ⟨h.1, by
      have := h.2
      rw [hc a (by simp)] at this
      exact Sg.congr (fun b hb => hc b (by simp [hb])) this⟩

theorem upd_self (f : Nat → Item) (a : Nat) (v : Item) : upd f a v a = v := by simp [upd]
theorem upd_ne {f : Nat → Item} {a x : Nat} {v : Item} (h : x ≠ a) : upd f a v x = f x := by simp [upd, h]

/-! ## Tilings -/

/-- The regions fill `[0, N)` without overlap, and their lengths are positive multiples of `S`. -/
structure Tiles (N S : Nat) (l : List (Nat × Nat)) : Prop where
  disj : l.Pairwise Spec.Disj
  ok : ∀ r ∈ l, S ≤ r.2 ∧ S ∣ r.2 ∧ r.1 + r.2 ≤ N
  sum : (l.map (·.2)).sum = N

theorem disj_symm {r q : Nat × Nat} (h : Spec.Disj r q) : Spec.Disj q r := by
  unfold Spec.Disj at *; omega

theorem Tiles.perm {N S : Nat} {l l' : List (Nat × Nat)} (h : Tiles N S l) (p : l.Perm l') : Tiles N S l' :=
  ⟨(p.pairwise_iff disj_symm).mp h.disj, fun r hr => h.ok r (p.mem_iff.mpr hr), by
    rw [← h.sum]; exact (p.map _).sum_nat.symm⟩

theorem Tiles.split {N S : Nat} {l : List (Nat × Nat)} {a z s : Nat} (h : Tiles N S ((a, z) :: l)) (hS : S ∣ s)
    (h1 : S ≤ s) (h2 : s < z) : Tiles N S ((a, z - s) :: (a + (z - s), s) :: l) := by
  obtain ⟨d, o, e⟩ := h
  rw [List.pairwise_cons] at d
  have oa := o (a, z) (by simp)
  simp only at oa
  have hd : S ∣ z - s := Nat.dvd_sub oa.2.1 hS
  have hge : S ≤ z - s := Nat.le_of_dvd (by omega) hd
  refine ⟨?_, ?_, ?_⟩
  · rw [List.pairwise_cons, List.pairwise_cons]
    refine ⟨fun r hr => ?_, fun r hr => ?_, d.2⟩
    · rcases List.mem_cons.mp hr with rfl | hr
      · exact .inl (Nat.le_refl _)
      · have := d.1 r hr
        unfold Spec.Disj at *; simp only at *; omega
    · have := d.1 r hr
      unfold Spec.Disj at *; simp only at *; omega
  · intro r hr
    simp only [List.mem_cons] at hr
    rcases hr with rfl | rfl | hr
    · exact ⟨hge, hd, by simp only; omega⟩
    · exact ⟨h1, hS, by simp only; omega⟩
    · exact o r (by simp [hr])
  · simp at e ⊢; omega

theorem Tiles.merge {N S : Nat} {l : List (Nat × Nat)} {a z w : Nat} (hS : 0 < S) (h : Tiles N S ((a, z) :: (a + z, w) :: l)) :
    Tiles N S ((a, z + w) :: l) := by
  obtain ⟨d, o, e⟩ := h
  rw [List.pairwise_cons, List.pairwise_cons] at d
  have oa := o (a, z) (by simp)
  have ob := o (a + z, w) (by simp)
  simp only at oa ob
  refine ⟨?_, ?_, ?_⟩
  · rw [List.pairwise_cons]
    refine ⟨fun r hr => ?_, d.2.2⟩
    have h1 := d.1 r (by simp [hr])
    have h2 := d.2.1 r hr
    have := o r (by simp [hr])
    unfold Spec.Disj at *; simp only at *
    omega
  · intro r hr
    rcases List.mem_cons.mp hr with rfl | hr
    · exact ⟨by simp only; omega, Nat.dvd_add oa.2.1 ob.2.1, by simp only; omega⟩
    · exact o r (by simp [hr])
  · simp at e ⊢; omega

/-! ## The invariant -/

def regions (vm : VM) (fl : List Nat) : List (Nat × Nat) :=
  fl.map (fun a => (a, (vm.hdr a).size)) ++ Spec.live vm.handles

def InvL (N S nh : Nat) (vm : VM) (fl : List Nat) : Prop :=
  fl ≠ [] ∧ Sg vm.hdr vm.head fl none ∧ Tiles N S (regions vm fl) ∧ vm.handles.length = nh

theorem fl_nodup {N S nh : Nat} {vm : VM} {fl : List Nat} (hS : 0 < S) (h : InvL N S nh vm fl) : fl.Nodup := by
  obtain ⟨-, -, t, -⟩ := h
  have d := (List.pairwise_append.mp t.disj).1
  rw [List.pairwise_map] at d
  refine d.imp_of_mem ?_
  intro a b ha hb hab heq
  subst heq
  have := t.ok (a, (vm.hdr a).size) (List.mem_append_left _ (List.mem_map.mpr ⟨a, ha, rfl⟩))
  unfold Spec.Disj at hab
  simp only at this hab
  omega

theorem fl_length {N S nh : Nat} {vm : VM} {fl : List Nat} (hS : 0 < S) (h : InvL N S nh vm fl) : fl.length ≤ N := by
  have t := h.2.2.1
  have key : ∀ l : List (Nat × Nat), (∀ r ∈ l, S ≤ r.2 ∧ S ∣ r.2 ∧ r.1 + r.2 ≤ N) → l.length ≤ (l.map (·.2)).sum := by
    intro l
    induction l with
    | nil => simp
    | cons x l ih =>
      intro hl
      have h1 := ih (fun r hr => hl r (by simp [hr]))
      have h2 := (hl x (by simp)).1
      simp only [List.length_cons, List.map_cons, List.sum_cons]
      omega
  have := key _ t.ok
  rw [t.sum, regions, List.length_append, List.length_map] at this
  omega

theorem freeHandle_spec : ∀ (hs : List (Option Nat × Nat)),
    (∀ h, freeHandle hs = some h → ∃ z, hs[h]? = some (none, z)) ∧
    (freeHandle hs = none ↔ ∀ (h : Nat) x, hs[h]? = some x → x.1 ≠ none)
  | [] => by simp [freeHandle]
  | (none, z) :: hs => by
    refine ⟨fun h he => ?_, ?_⟩
    · simp [freeHandle] at he; subst he; exact ⟨z, rfl⟩
    · simp only [freeHandle]
      refine ⟨nofun, fun hc => absurd rfl (hc 0 (none, z) rfl)⟩
  | (some d, z) :: hs => by
    obtain ⟨h1, h2⟩ := freeHandle_spec hs
    refine ⟨fun h he => ?_, ?_⟩
    · simp only [freeHandle, Option.map_eq_some_iff] at he
      obtain ⟨k, hk, rfl⟩ := he
      simpa using h1 k hk
    · simp only [freeHandle, Option.map_eq_none_iff, h2]
      constructor
      · intro hc h x hx
        cases h with
        | zero => simp at hx; subst hx; simp
        | succ h => exact hc h x (by simpa using hx)
      · intro hc h x hx
        exact hc (h + 1) x (by simpa using hx)

theorem live_set_some {d s z : Nat} : ∀ {hs : List (Option Nat × Nat)} {h : Nat}, hs[h]? = some (none, z) →
    (Spec.live (hs.set h (some d, s))).Perm ((d, s) :: Spec.live hs)
  | [], _, h => by simp at h
  | x :: hs, 0, h => by simp at h; subst h; simp [Spec.live]
  | (none, _) :: hs, h + 1, he => by
    have := live_set_some (d := d) (s := s) (hs := hs) (h := h) (by simpa using he)
    simpa [Spec.live] using this
  | (some c, w) :: hs, h + 1, he => by
    have := live_set_some (d := d) (s := s) (hs := hs) (h := h) (by simpa using he)
    simp only [Spec.live, List.set_cons_succ, List.filterMap_cons, Option.map_some] at this ⊢
    exact (this.cons _).trans (List.Perm.swap _ _ _)

theorem live_set_none {d s : Nat} : ∀ {hs : List (Option Nat × Nat)} {h : Nat}, hs[h]? = some (some d, s) →
    (Spec.live hs).Perm ((d, s) :: Spec.live (hs.set h (none, s)))
  | [], _, h => by simp at h
  | x :: hs, 0, h => by simp at h; subst h; simp [Spec.live]
  | (none, _) :: hs, h + 1, he => by
    have := live_set_none (d := d) (s := s) (hs := hs) (h := h) (by simpa using he)
    simpa [Spec.live] using this
  | (some c, w) :: hs, h + 1, he => by
    have := live_set_none (d := d) (s := s) (hs := hs) (h := h) (by simpa using he)
    simp only [Spec.live, List.set_cons_succ, List.filterMap_cons, Option.map_some] at this ⊢
    exact (this.cons _).trans (List.Perm.swap _ _ _)

theorem mem_live {d s : Nat} {hs : List (Option Nat × Nat)} {h : Nat} (he : hs[h]? = some (some d, s)) :
    (d, s) ∈ Spec.live hs := (live_set_none he).mem_iff.mpr (by simp)

theorem map_upd {f : Nat → Item} {a : Nat} {v : Item} {l : List Nat} (h : a ∉ l) :
    l.map (fun x => (x, (upd f a v x).size)) = l.map (fun x => (x, (f x).size)) := by
  apply List.map_congr_left
  intro x hx
  rw [upd_ne (by rintro rfl; exact h hx)]

theorem map_upd_size {f : Nat → Item} {a : Nat} {v : Item} {l : List Nat} (h : v.size = (f a).size) :
    l.map (fun x => (x, (upd f a v x).size)) = l.map (fun x => (x, (f x).size)) := by
  apply List.map_congr_left
  intro x _
  unfold upd
  split
  · next e => rw [e, h]
  · rfl

/-- first fit -/
theorem allocLoop_spec (vm : VM) (size : Nat) : ∀ (rest : List Nat) (fuel : Nat) (prev i : Option Nat),
    rest.length < fuel → Sg vm.hdr i rest none →
    ((∀ a ∈ rest, (vm.hdr a).size < size) ∧ allocLoop vm size fuel prev i = some (vm, none)) ∨
    ∃ p a q, rest = p ++ a :: q ∧ (∀ b ∈ p, (vm.hdr b).size < size) ∧ size ≤ (vm.hdr a).size ∧
      allocLoop vm size fuel prev i = allocAt vm size (p.getLast?.or prev) a
  | [], fuel, prev, i, _, h => by
    have : i = none := h
    subst this
    exact .inl ⟨by simp, by cases fuel <;> rfl⟩
  | a :: rest, 0, _, _, hf, _ => by simp at hf
  | a :: rest, f + 1, prev, i, hf, ⟨hi, h⟩ => by
    subst hi
    by_cases hz : size ≤ (vm.hdr a).size
    · exact .inr ⟨[], a, rest, rfl, by simp, hz, by simp [allocLoop, hz]⟩
    · rcases allocLoop_spec vm size rest f (some a) (vm.hdr a).next (by simp at hf; omega) h with ⟨h1, h2⟩ | h1
      · refine .inl ⟨?_, by simp [allocLoop, hz, h2]⟩
        intro b hb
        rcases List.mem_cons.mp hb with rfl | hb
        · omega
        · exact h1 b hb
      · obtain ⟨p, c, q, e1, e2, e3, e4⟩ := h1
        refine .inr ⟨a :: p, c, q, by rw [e1]; rfl, ?_, e3, ?_⟩
        · intro b hb
          rcases List.mem_cons.mp hb with rfl | hb
          · omega
          · exact e2 b hb
        · simp only [allocLoop, hz, if_false, e4]
          congr 1
          cases p with
          | nil => rfl
          | cons x p =>
            rw [List.getLast?_cons_cons, List.getLast?_eq_some_getLast (by simp)]
            rfl

theorem inv_create (g : Nat → Item) (N S nh : Nat) (hS : 0 < S) (hN : S ∣ N) (h0 : 0 < N) :
    InvL N S nh (create g N nh) [0] := by
  have hlive : Spec.live (List.replicate nh ((none : Option Nat), 0)) = [] := by
    simp [Spec.live, List.filterMap_replicate]
  refine ⟨by simp, ⟨rfl, by simp [create, upd, Sg]⟩, ?_, by simp [create]⟩
  simp only [regions, create, hlive, List.map_cons, List.map_nil, upd_self, List.append_nil]
  exact ⟨by simp, by simp; exact ⟨Nat.le_of_dvd h0 hN, hN⟩, by simp⟩

theorem inv_allocAt {N S nh : Nat} {vm vm' : VM} {size : Nat} {p q : List Nat} {a : Nat} {r : Option Nat}
    (hS : 0 < S) (hi : InvL N S nh vm (p ++ a :: q)) (hd : S ∣ size) (hge : S ≤ size)
    (hz : size ≤ (vm.hdr a).size) (he : allocAt vm size p.getLast? a = some (vm', r)) :
    ∃ fl' h d, InvL N S nh vm' fl' ∧ r = some h ∧ (∃ z, vm.handles[h]? = some (none, z)) ∧
      vm'.handles = vm.handles.set h (some d, size) := by
  have hnd := fl_nodup hS hi
  obtain ⟨-, hsg, ht, hlen⟩ := hi
  have hnd' := List.nodup_append.mp hnd
  have hap : a ∉ p := fun hm => hnd'.2.2 a hm a (by simp) rfl
  have haq : a ∉ q := by have := hnd'.2.1; simp at this; exact this.1
  have hpq : ∀ x ∈ p, x ∉ q := fun x hx hq => hnd'.2.2 x hx x (by simp [hq]) rfl
  have hrp : (regions vm (p ++ a :: q)).Perm
      ((a, (vm.hdr a).size) :: ((p ++ q).map (fun x => (x, (vm.hdr x).size)) ++ Spec.live vm.handles)) := by
    simp only [regions, List.map_append, List.map_cons, List.append_assoc, List.cons_append]
    exact List.perm_middle
  unfold allocAt at he
  by_cases hex : (vm.hdr a).size = size
  · rw [if_pos hex] at he
    cases hl : p.getLast? with
    | none => rw [hl] at he; simp at he
    | some b =>
      rw [hl] at he
      simp only at he
      cases hf : freeHandle vm.handles with
      | none => rw [hf] at he; simp at he
      | some h =>
        rw [hf] at he
        simp only [Option.some.injEq, Prod.mk.injEq] at he
        obtain ⟨rfl, rfl⟩ := he
        obtain ⟨z, hz0⟩ := (freeHandle_spec vm.handles).1 h hf
        refine ⟨p ++ q, h, a, ⟨?_, ?_, ?_, by simpa using hlen⟩, rfl, ⟨z, hz0⟩, rfl⟩
        · intro hn
          simp at hn
          rw [hn.1] at hl
          simp at hl
        · obtain ⟨p', rfl⟩ : ∃ p', p = p' ++ [b] := List.getLast?_eq_some_iff.mp hl
          have hbq : b ∉ q := hpq b (by simp)
          have hbp : b ∉ p' := by
            have := hnd'.1
            rw [List.nodup_append] at this
            exact fun hm => this.2.2 b hm b (by simp) rfl
          obtain ⟨r1, s1, s2⟩ := Sg.append.mp hsg
          obtain ⟨r2, s3, s4⟩ := Sg.append.mp s1
          refine Sg.append.mpr ⟨(vm.hdr a).next, Sg.append.mpr ⟨r2, ?_, s4.1, ?_⟩, ?_⟩
          · refine Sg.congr (fun x hx => ?_) s3
            show _ = (upd _ _ _ x).next
            rw [upd_ne (by rintro rfl; exact hbp hx)]
          · simp [Sg, upd_self]
          · refine Sg.congr (fun x hx => ?_) s2.2
            show _ = (upd _ _ _ x).next
            rw [upd_ne (by rintro rfl; exact hbq hx)]
        · refine (ht.perm hrp).perm ?_
          simp only [regions]
          rw [map_upd_size (f := vm.hdr) (a := b) (v := ⟨(vm.hdr a).next, (vm.hdr b).size⟩) rfl, hex]
          refine List.Perm.trans ?_ ((live_set_some hz0).symm.append_left _)
          exact List.perm_middle.symm
  · rw [if_neg hex] at he
    cases hf : freeHandle vm.handles with
    | none => rw [hf] at he; simp at he
    | some h =>
      rw [hf] at he
      simp only [Option.some.injEq, Prod.mk.injEq] at he
      obtain ⟨rfl, rfl⟩ := he
      obtain ⟨z, hz0⟩ := (freeHandle_spec vm.handles).1 h hf
      refine ⟨p ++ a :: q, h, a + ((vm.hdr a).size - size), ⟨by simp, ?_, ?_, by simpa using hlen⟩, rfl, ⟨z, hz0⟩, rfl⟩
      · refine Sg.congr (fun x _ => ?_) hsg
        show _ = (upd _ _ _ x).next
        unfold upd
        split
        · next e => rw [e]
        · rfl
      · have t2 := (ht.perm hrp).split hd hge (by omega)
        refine t2.perm ?_
        simp only [regions, List.map_append, List.map_cons, upd_self]
        rw [map_upd hap, map_upd haq]
        refine List.Perm.trans ?_ ((live_set_some hz0).symm.append_left _)
        simp only [List.append_assoc, List.cons_append]
        refine List.Perm.trans ?_ List.perm_middle.symm
        refine List.Perm.cons _ ?_
        rw [← List.append_assoc, ← List.append_assoc]
        exact List.perm_middle.symm

theorem inv_free {N S nh : Nat} {vm vm' : VM} {fl : List Nat} {h : Nat} (hS : 0 < S) (hi : InvL N S nh vm fl)
    (he : free vm h = some vm') :
    ∃ d sz, vm.handles[h]? = some (some d, sz) ∧ vm'.handles = vm.handles.set h (none, sz) ∧
      InvL N S nh vm' (d :: fl) := by
  obtain ⟨-, hsg, ht, hlen⟩ := hi
  unfold free at he
  split at he
  · next d sz hh =>
    cases he
    have hdf : d ∉ fl := by
      intro hm
      have h1 := (List.pairwise_append.mp ht.disj).2.2 (d, (vm.hdr d).size) (List.mem_map.mpr ⟨d, hm, rfl⟩) (d, sz) (mem_live hh)
      have h2 := ht.ok (d, (vm.hdr d).size) (List.mem_append_left _ (List.mem_map.mpr ⟨d, hm, rfl⟩))
      have h3 := ht.ok (d, sz) (List.mem_append_right _ (mem_live hh))
      unfold Spec.Disj at h1
      simp only at h1 h2 h3
      omega
    refine ⟨d, sz, hh, rfl, by simp, ⟨rfl, ?_⟩, ?_, by simpa using hlen⟩
    · show Sg (upd _ _ _) (upd _ _ _ d).next fl none
      rw [upd_self]
      exact Sg.congr (fun x hx => by rw [upd_ne (by rintro rfl; exact hdf hx)]) hsg
    · refine ht.perm ?_
      simp only [regions, List.map_cons, upd_self, map_upd hdf, List.cons_append]
      exact ((live_set_none hh).append_left _).trans List.perm_middle
  · simp at he

theorem inv_scribble {N S nh : Nat} {vm vm' : VM} {fl : List Nat} {h : Nat} (hi : InvL N S nh vm fl)
    (hs : Spec.Scribble S vm vm' h) : InvL N S nh vm' fl := by
  obtain ⟨hne, hsg, ht, hlen⟩ := hi
  obtain ⟨d, sz, hh, e, hk⟩ := hs
  have same : ∀ a ∈ fl, vm'.hdr a = vm.hdr a := by
    intro a ha
    apply hk
    have h1 := (List.pairwise_append.mp ht.disj).2.2 (a, (vm.hdr a).size) (List.mem_map.mpr ⟨a, ha, rfl⟩) (d, sz) (mem_live hh)
    have h2 := ht.ok (a, (vm.hdr a).size) (List.mem_append_left _ (List.mem_map.mpr ⟨a, ha, rfl⟩))
    unfold Spec.Disj at *
    simp only at *
    omega
  have e1 : vm'.head = vm.head := by rw [e]
  have e2 : vm'.handles = vm.handles := by rw [e]
  refine ⟨hne, ?_, ?_, by rw [e2]; exact hlen⟩
  · rw [e1]
    exact Sg.congr (fun x hx => by rw [same x hx]) hsg
  · rw [regions, e2, List.map_congr_left (g := fun a => (a, (vm.hdr a).size)) (fun x hx => by rw [same x hx])]
    exact ht

/-- merging two chunks that follow each other in the list and touch -/
theorem inv_absorb {N S nh : Nat} {vm : VM} {fl : List Nat} {a b : Nat} (hS : 0 < S)
    (hi : InvL N S nh vm (a :: b :: fl)) :
    ∃ fl', InvL N S nh (absorb vm a b).1 fl' := by
  unfold absorb
  split
  · next hc =>
    have hnd := fl_nodup hS hi
    obtain ⟨-, hsg, ht, hlen⟩ := hi
    have hab : b = a + (vm.hdr a).size := by omega
    simp at hnd
    refine ⟨a :: fl, by simp, ⟨hsg.1, ?_⟩, ?_, hlen⟩
    · show Sg (upd _ _ _) (upd _ _ _ a).next fl none
      rw [upd_self]
      refine Sg.congr (fun x hx => ?_) hsg.2.2
      rw [upd_ne (by rintro rfl; exact hnd.1.2 hx)]
    · simp only [regions, List.map_cons, upd_self, map_upd hnd.1.2, List.cons_append] at ht ⊢
      have h2 : ((b, (vm.hdr b).size) : Nat × Nat) = (a + (vm.hdr a).size, (vm.hdr b).size) := by rw [← hab]
      rw [h2] at ht
      exact ht.merge hS
  · exact ⟨_, hi⟩

theorem inv_modes {N S nh : Nat} {vm vm' : VM} {fl : List Nat} (hi : InvL N S nh vm fl) (h1 : vm'.hdr = vm.hdr)
    (h2 : vm'.handles = vm.handles) (h3 : vm'.head = vm.head) : InvL N S nh vm' fl := by
  unfold InvL regions at *
  rw [h1, h2, h3]; exact hi

theorem inv_maint {N S nh : Nat} {vm : VM} {fl : List Nat} (hS : 0 < S) (hi : InvL N S nh vm fl)
    (hm : vm.mode ≠ .compact) : ∃ vm' fl', maint vm = some vm' ∧ vm'.handles = vm.handles ∧ InvL N S nh vm' fl' := by
  unfold maint
  split
  · have hnd := fl_nodup hS hi
    obtain ⟨hne, hsg, ht, hlen⟩ := hi
    have key : ∃ v fl', maintCompact { vm with ev := vm.head, evPrev := none, mode := .compact, processed := 0 } = some v ∧
        v.handles = vm.handles ∧ InvL N S nh v fl' := by
      cases fl with
      | nil => exact absurd rfl hne
      | cons i fl =>
        have hh : vm.head = some i := hsg.1
        unfold maintCompact
        simp only [hh]
        cases fl with
        | nil =>
          have : (vm.hdr i).next = none := hsg.2
          simp only [this]
          exact ⟨_, [i], rfl, rfl, by simp, ⟨rfl, hsg.2⟩, ht, hlen⟩
        | cons j fl =>
          have hj : (vm.hdr i).next = some j := hsg.2.1
          have hij : i ≠ j := by rintro rfl; simp at hnd
          simp only [hj]
          simp at hnd
          have hce : ∀ (v : VM) (i' a b : Nat) (l : List Nat), InvL N S nh v (a :: b :: l) →
              (compactEnd v i' a b).handles = v.handles ∧ ∃ fl', InvL N S nh (compactEnd v i' a b) fl' := by
            intro v i' a b l hv
            obtain ⟨fl', hx⟩ := inv_absorb hS hv
            refine ⟨?_, fl', inv_modes hx rfl rfl rfl⟩
            show (absorb v a b).1.handles = _
            unfold absorb
            split <;> rfl
          by_cases hlt : j < i
          · simp only [hlt, if_true]
            obtain ⟨x1, fl', x2⟩ := hce ⟨upd (upd vm.hdr j ⟨some i, (vm.hdr j).size⟩) i
                ⟨(vm.hdr j).next, (upd vm.hdr j ⟨some i, (vm.hdr j).size⟩ i).size⟩, vm.handles, some j, .compact, some i,
                none, 0 + 1⟩ i j i fl (by
              refine ⟨by simp, ⟨rfl, ?_, ?_⟩, ?_, hlen⟩
              · show (upd _ _ _ j).next = _
                rw [upd_ne (Ne.symm hij), upd_self]
              · show Sg _ (upd _ _ _ i).next _ _
                rw [upd_self]
                refine Sg.congr (fun x hx => ?_) hsg.2.2
                show _ = (upd _ _ _ x).next
                rw [upd_ne (by rintro rfl; exact hnd.1.2 hx), upd_ne (by rintro rfl; exact hnd.2.1 hx)]
              · simp only [regions]
                rw [map_upd_size (f := upd vm.hdr j ⟨some i, (vm.hdr j).size⟩) (a := i)
                  (v := ⟨(vm.hdr j).next, (upd vm.hdr j ⟨some i, (vm.hdr j).size⟩ i).size⟩) rfl,
                  map_upd_size (f := vm.hdr) (a := j) (v := ⟨some i, (vm.hdr j).size⟩) rfl]
                exact ht.perm (List.Perm.swap _ _ _))
            exact ⟨_, fl', rfl, x1, x2⟩
          · simp only [hlt, if_false]
            obtain ⟨x1, fl', x2⟩ := hce ⟨vm.hdr, vm.handles, some i, .compact, some i, none, 0⟩ i i j fl
              ⟨by simp, ⟨rfl, hsg.2⟩, ht, hlen⟩
            exact ⟨_, fl', rfl, x1, x2⟩
    obtain ⟨v, fl', e1, e2, e3⟩ := key
    unfold maintC
    simp only at e1 ⊢
    rw [e1, Option.map_some]
    refine ⟨_, fl', rfl, ?_, inv_modes e3 ?_ ?_ ?_⟩
    all_goals split <;> first | rfl | exact e2
  · next h => exact absurd h hm
  · exact ⟨_, fl, rfl, rfl, inv_modes hi rfl rfl rfl⟩

theorem alloc_cases {N S nh : Nat} {vm : VM} {fl : List Nat} {size : Nat} (hS : 0 < S) (hi : InvL N S nh vm fl) :
    ((∀ a ∈ fl, (vm.hdr a).size < (if size < S then S else size)) ∧ allocate N S vm size = some (vm, none)) ∨
    ∃ p a q, fl = p ++ a :: q ∧ (∀ b ∈ p, (vm.hdr b).size < (if size < S then S else size)) ∧
      (if size < S then S else size) ≤ (vm.hdr a).size ∧
      allocate N S vm size = allocAt vm (if size < S then S else size) p.getLast? a := by
  have := allocLoop_spec vm (if size < S then S else size) fl (N + 1) none vm.head
    (by have := fl_length hS hi; omega) hi.2.1
  simpa [allocate] using this

theorem coerce {S size : Nat} (hd : S ∣ size) : S ∣ (if size < S then S else size) ∧ S ≤ (if size < S then S else size) := by
  split
  · exact ⟨Nat.dvd_refl S, Nat.le_refl S⟩
  · exact ⟨hd, by omega⟩

theorem reach_inv {N S nh : Nat} {vm : VM} (hS : 0 < S) (hN : S ∣ N) (h0 : 0 < N) (h : Reach N S nh vm) :
    ∃ fl, InvL N S nh vm fl := by
  induction h with
  | create => exact ⟨_, inv_create _ _ _ _ hS hN h0⟩
  | @alloc vm vm' size r _ hd he ih =>
    obtain ⟨fl, hi⟩ := ih
    rcases alloc_cases (size := size) hS hi with ⟨-, h2⟩ | ⟨p, a, q, rfl, -, h2, h3⟩
    · rw [h2] at he; cases he; exact ⟨fl, hi⟩
    · rw [h3] at he
      obtain ⟨fl', -, -, h4, -⟩ := inv_allocAt hS hi (coerce hd).1 (coerce hd).2 h2 he
      exact ⟨fl', h4⟩
  | free _ he ih =>
    obtain ⟨fl, hi⟩ := ih
    obtain ⟨d, sz, -, -, h⟩ := inv_free hS hi he
    exact ⟨_, h⟩
  | scribble _ hs ih =>
    obtain ⟨fl, hi⟩ := ih
    exact ⟨fl, inv_scribble hi hs⟩
  | maint _ hm he ih =>
    obtain ⟨fl, hi⟩ := ih
    obtain ⟨v, fl', h1, -, h2⟩ := inv_maint hS hi hm
    rw [he] at h1; cases h1
    exact ⟨fl', h2⟩

/-! ## C58 -/

theorem totalLoop_eq (vm : VM) : ∀ (fl : List Nat) (fuel : Nat) (i : Option Nat), fl.length < fuel →
    Sg vm.hdr i fl none → totalLoop vm fuel i = some ((fl.map fun a => (vm.hdr a).size).sum, fl.length)
  | [], fuel, i, _, h => by
    have : i = none := h
    subst this
    cases fuel <;> rfl
  | a :: fl, 0, _, hf, _ => by simp at hf
  | a :: fl, f + 1, i, hf, ⟨hi, h⟩ => by
    subst hi
    rw [totalLoop, totalLoop_eq vm fl f _ (by simp at hf; omega) h]
    simp [Nat.add_comm]

/-- C58: in every reachable state the regions of the handles in use are pairwise disjoint and inside the storage, and
`total_free()` is what they leave.  (Missing: sizes that are not multiples of `sizeof(item)`, `alloc_overlap`, and
maintenance in compact mode, `maint_crash`, `maint_leak`.) -/
theorem vm_regions_partial {N S nh : Nat} {vm : VM} (hS : 0 < S) (hN : S ∣ N) (h0 : 0 < N) (h : Reach N S nh vm) :
    (Spec.live vm.handles).Pairwise Spec.Disj ∧ (∀ r ∈ Spec.live vm.handles, S ≤ r.2 ∧ r.1 + r.2 ≤ N) ∧
    ∃ nodes, totalFree N vm = some (N - ((Spec.live vm.handles).map (·.2)).sum, nodes) ∧
      ((Spec.live vm.handles).map (·.2)).sum < N := by
  obtain ⟨fl, hi⟩ := reach_inv hS hN h0 h
  have hl := fl_length hS hi
  obtain ⟨hne, hsg, ht, hlen⟩ := hi
  refine ⟨(List.pairwise_append.mp ht.disj).2.1, fun r hr => ?_, fl.length, ?_, ?_⟩
  · have := ht.ok r (List.mem_append_right _ hr)
    exact ⟨this.1, this.2.2⟩
  · rw [totalFree, totalLoop_eq vm fl _ _ (by omega) hsg]
    have := ht.sum
    simp only [regions, List.map_append, List.map_map, List.sum_append, Function.comp_def] at this
    congr 2
    omega
  · have := ht.sum
    simp only [regions, List.map_append, List.map_map, List.sum_append, Function.comp_def] at this
    cases fl with
    | nil => exact absurd rfl hne
    | cons a fl =>
      have h1 := ht.ok (a, (vm.hdr a).size) (by simp [regions])
      simp only [List.map_cons, List.sum_cons] at this h1
      omega

/-- C58: what `allocate` does in a reachable state.  If no free chunk is large enough it returns -1 and changes nothing.
Otherwise it is undefined exactly when no handle is left, or when the first chunk of the list is the first large enough
and has exactly the requested size; if defined, an unused handle now has a region of the requested size (at least
`sizeof(item)`) and the other handles are unchanged. -/
theorem vm_allocate {N S nh : Nat} {vm : VM} (hS : 0 < S) (hN : S ∣ N) (h0 : 0 < N) (h : Reach N S nh vm)
    (size : Nat) (hd : S ∣ size) :
    ∃ fl, Sg vm.hdr vm.head fl none ∧
    ((∀ a ∈ fl, (vm.hdr a).size < max S size) → allocate N S vm size = some (vm, none)) ∧
    ((∃ a ∈ fl, max S size ≤ (vm.hdr a).size) →
      (allocate N S vm size = none ↔
        (∀ (k : Nat) x, vm.handles[k]? = some x → x.1 ≠ none) ∨ (fl.head?.map fun a => (vm.hdr a).size) = some (max S size)) ∧
      ∀ vm' r, allocate N S vm size = some (vm', r) →
        ∃ k d, r = some k ∧ (∃ z, vm.handles[k]? = some (none, z)) ∧
          vm'.handles = vm.handles.set k (some d, max S size)) := by
  obtain ⟨fl, hi⟩ := reach_inv hS hN h0 h
  have hmax : (if size < S then S else size) = max S size := by split <;> omega
  have hc := alloc_cases (size := size) hS hi
  have hco := coerce hd
  rw [hmax] at hc hco
  refine ⟨fl, hi.2.1, fun hall => ?_, fun ⟨b, hb, hbz⟩ => ?_⟩
  · rcases hc with ⟨-, h2⟩ | ⟨p, a, q, rfl, -, h2, -⟩
    · exact h2
    · have := hall a (by simp); omega
  · rcases hc with ⟨h1, -⟩ | ⟨p, a, q, rfl, h1, h2, h3⟩
    · have := h1 b hb; omega
    · refine ⟨?_, fun vm' r he => ?_⟩
      · rw [h3]
        have hfh := (freeHandle_spec vm.handles).2
        unfold allocAt
        cases p with
        | nil =>
          by_cases hex : (vm.hdr a).size = max S size
          · simp [hex]
          · rw [if_neg hex]
            cases hf : freeHandle vm.handles with
            | none => exact ⟨fun _ => .inl (hfh.mp hf), fun _ => rfl⟩
            | some k =>
              have hnf : ¬ (∀ (k : Nat) x, vm.handles[k]? = some x → x.1 ≠ none) := by
                rw [← hfh, hf]; nofun
              simp only [reduceCtorEq, false_iff]
              rintro (hx | hx)
              · exact hnf hx
              · simp at hx; omega
        | cons x p =>
          have hx : (vm.hdr x).size < max S size := h1 x (by simp)
          obtain ⟨y, hy⟩ : ∃ y, (x :: p).getLast? = some y := by
            rw [List.getLast?_eq_some_getLast (by simp)]; exact ⟨_, rfl⟩
          rw [hy]
          cases hf : freeHandle vm.handles with
          | none => exact ⟨fun _ => .inl (hfh.mp hf), fun _ => by split <;> rfl⟩
          | some k =>
            have hnf : ¬ (∀ (k : Nat) x, vm.handles[k]? = some x → x.1 ≠ none) := by
              rw [← hfh, hf]; nofun
            split
            · simp only [reduceCtorEq, false_iff]
              rintro (hx' | hx')
              · exact hnf hx'
              · simp at hx'; omega
            · simp only [reduceCtorEq, false_iff]
              rintro (hx' | hx')
              · exact hnf hx'
              · simp at hx'; omega
      · rw [h3] at he
        obtain ⟨-, k, d, -, h5, h6, h7⟩ := inv_allocAt hS hi hco.1 hco.2 h2 he
        exact ⟨k, d, h5, h6, h7⟩

/-- C58: freeing a handle in use is defined and releases exactly that handle. -/
theorem vm_free {N S nh : Nat} {vm : VM} (h : Nat) (d sz : Nat) (_hr : Reach N S nh vm)
    (hh : vm.handles[h]? = some (some d, sz)) :
    ∃ vm', free vm h = some vm' ∧ vm'.handles = vm.handles.set h (none, sz) := by
  exact ⟨_, by rw [free, hh], rfl⟩

/-- C58: maintenance outside compact mode is defined and moves no handle. -/
theorem vm_maint {N S nh : Nat} {vm : VM} (hS : 0 < S) (hN : S ∣ N) (h0 : 0 < N) (h : Reach N S nh vm)
    (hm : vm.mode ≠ .compact) :
    ∃ vm', maint vm = some vm' ∧ vm'.handles = vm.handles := by
  obtain ⟨fl, hi⟩ := reach_inv hS hN h0 h
  obtain ⟨v, -, h1, h2, -⟩ := inv_maint hS hi hm
  exact ⟨v, h1, h2⟩

/-! ## Violations -/

/-- **Violation.**  Asking a new heap for all of its memory is undefined behaviour. -/
theorem alloc_all_undefined (g : Nat → Item) (N S nh : Nat) (h : S ≤ N) : allocate N S (create g N nh) N = none := by
  have : (if N < S then S else N) = N := by split <;> omega
  simp [allocate, this, allocLoop, create, upd, allocAt]

/-- **Violation.**  When a request leaves less than `sizeof(item)` of the chunk, the header of the remaining free chunk
overlaps the region handed out: the owner's data and the free list share bytes. -/
theorem alloc_overlap (vm : VM) (N S nh size a : Nat) (hh : vm.head = some a) (hs : S ≤ size)
    (h1 : size < (vm.hdr a).size) (h2 : (vm.hdr a).size < size + S) (k : Nat) (hf : freeHandle vm.handles = some k)
    (_hn : vm.handles.length = nh) :
    ∃ vm' d, allocate N S vm size = some (vm', some k) ∧ vm'.handles = vm.handles.set k (some d, size) ∧
      vm'.head = some a ∧ ¬ Spec.Disj (a, S) (d, size) := by
  have e : (if size < S then S else size) = size := by split <;> omega
  refine ⟨{ vm with hdr := upd vm.hdr a ⟨(vm.hdr a).next, (vm.hdr a).size - size⟩,
                    handles := vm.handles.set k (some (a + ((vm.hdr a).size - size)), size) },
    a + ((vm.hdr a).size - size), ?_, rfl, hh, ?_⟩
  · rw [allocate, e, hh]
    simp only [allocLoop, Nat.le_of_lt h1, if_true, allocAt, hf]
    rw [if_neg (by omega), hh]
  · unfold Spec.Disj
    simp only
    omega

/-- **Violation.**  After a maintenance step has merged the two chunks of the free list the next step dereferences a
null pointer: allocating a block, freeing it and calling `maint()` twice is undefined. -/
theorem maint_crash (vm : VM) (a b : Nat) (hm : vm.mode = .uninitialized) (hh : vm.head = some b)
    (hb : (vm.hdr b).next = some a) (ha : (vm.hdr a).next = none) (hab : b = a + (vm.hdr a).size) (hz : 0 < (vm.hdr a).size) :
    (maint vm).bind maint = none := by
  have hlt : a < b := by omega
  have hne : a ≠ b := by omega
  have hne' : b ≠ a := by omega
  have hd : (b : Int) - a = (vm.hdr a).size := by omega
  simp [maint, hm, maintC, maintCompact, hh, hb, hlt, compactEnd, absorb, upd, hne, hne', ha, hd]

/-- **Violation.**  Maintenance can lose free memory: when the first step merges `i` with its neighbour `j` and the
second finds the last two chunks `k`, `l` out of order, `l` is linked only from the absorbed header of `j`. -/
theorem maint_leak (vm : VM) (N i j k l : Nat) (hN : 4 ≤ N) (hm : vm.mode = .uninitialized) (hh : vm.head = some i)
    (hi : (vm.hdr i).next = some j) (hj : (vm.hdr j).next = some k) (hk : (vm.hdr k).next = some l)
    (hl : (vm.hdr l).next = none) (hij : j = i + (vm.hdr i).size) (hz : 0 < (vm.hdr i).size)
    (hlk : l < k) (hna : l + (vm.hdr l).size ≠ k) (hd : [i, j, k, l].Nodup) :
    totalFree N vm = some ((vm.hdr i).size + (vm.hdr j).size + (vm.hdr k).size + (vm.hdr l).size, 4) ∧
    ∃ vm', (maint vm).bind maint = some vm' ∧
      totalFree N vm' = some ((vm.hdr i).size + (vm.hdr j).size + (vm.hdr k).size, 2) := by
  obtain ⟨n, rfl⟩ : ∃ n, N = n + 4 := ⟨N - 4, by omega⟩
  simp at hd
  obtain ⟨⟨d1, d2, d3⟩, ⟨d4, d5⟩, d6⟩ := hd
  have e1 : (j : Int) - i = (vm.hdr i).size := by omega
  have e2 : ¬ ((k : Int) - l = (vm.hdr l).size) := by omega
  have e3 : ¬ j < i := by omega
  refine ⟨?_, ?_⟩
  · simp [totalFree, totalLoop, hh, hi, hj, hk, hl]; omega
  · simp [maint, hm, maintC, maintCompact, hh, hi, hj, hk, hl, e1, e3, compactEnd, absorb, upd, d1, d2, d3, d4, d5, d6,
      Ne.symm d1, Ne.symm d2, Ne.symm d3, Ne.symm d4, Ne.symm d5, Ne.symm d6, hlk, e2, totalFree, totalLoop]
    omega

/-- a step of a program: allocate, or free a handle -/
def step (N S : Nat) (vm : VM) : Nat ⊕ Nat → Option VM
  | .inl n => (allocate N S vm n).map (·.1)
  | .inr h => free vm h

def steps (N S : Nat) (vm : VM) : List (Nat ⊕ Nat) → Option VM
  | [] => some vm
  | x :: xs => (step N S vm x).bind fun v => steps N S v xs

/-- Non-vacuity: allocating and freeing multiples of `S` stays reachable. -/
theorem steps_reach {N S nh : Nat} : ∀ (xs : List (Nat ⊕ Nat)) (vm vm' : VM), Reach N S nh vm →
    (∀ n, .inl n ∈ xs → S ∣ n) → steps N S vm xs = some vm' → Reach N S nh vm'
  | [], _, _, h, _, he => by cases he; exact h
  | x :: xs, vm, vm', h, hd, he => by
    simp only [steps, Option.bind_eq_some_iff] at he
    obtain ⟨v, h1, h2⟩ := he
    refine steps_reach xs v vm' ?_ (fun n hn => hd n (by simp [hn])) h2
    cases x with
    | inl n =>
      simp only [step, Option.map_eq_some_iff] at h1
      obtain ⟨⟨w, r⟩, h3, rfl⟩ := h1
      exact .alloc h (hd n (by simp)) h3
    | inr k => exact .free h h1

/-- six blocks allocated from 160 bytes, three of them freed -/
def demo : List (Nat ⊕ Nat) := [.inl 16, .inl 16, .inl 16, .inl 16, .inl 16, .inl 16, .inr 1, .inr 3, .inr 4]

def zeros : Nat → Item := fun _ => ⟨none, 0⟩

/-- The program reaches a state with three handles in use and four free chunks of 112 bytes in all; two maintenance
steps leave two chunks of 48 bytes. -/
example : ∃ vm, steps 160 16 (create zeros 160 8) demo = some vm ∧ Reach 160 16 8 vm ∧
    Spec.live vm.handles = [(144, 16), (112, 16), (64, 16)] ∧ totalFree 160 vm = some (112, 4) ∧
    ((maint vm).bind maint).bind (totalFree 160) = some (48, 2) := by
  obtain ⟨vm, h⟩ : ∃ vm, steps 160 16 (create zeros 160 8) demo = some vm := by
    rw [← Option.isSome_iff_exists]; decide +kernel
  have k1 : (steps 160 16 (create zeros 160 8) demo).map (fun v => Spec.live v.handles) =
    some [(144, 16), (112, 16), (64, 16)] := by decide +kernel
  have k2 : (steps 160 16 (create zeros 160 8) demo).map (fun v => totalFree 160 v) = some (some (112, 4)) := by
    decide +kernel
  have k3 : (steps 160 16 (create zeros 160 8) demo).map (fun v => ((maint v).bind maint).bind (totalFree 160)) =
    some (some (48, 2)) := by decide +kernel
  rw [h] at k1 k2 k3
  simp only [Option.map_some, Option.some.injEq] at k1 k2 k3
  exact ⟨vm, h, steps_reach demo _ _ .create (by simp [demo]) h, k1, k2, k3⟩

/-- Non-vacuity of `maint_crash` and `alloc_overlap`: one block allocated and freed; 100 bytes of 104. -/
example : ((steps 160 16 (create zeros 160 8) [.inl 16, .inr 0]).map fun v => ((maint v).bind maint).isNone) = some true ∧
    ((steps 104 16 (create zeros 104 8) [.inl 100]).map fun v => (v.head, Spec.live v.handles)) =
      some (some 0, [(4, 100)]) := by decide +kernel

end Verif.Pool.Virtual
