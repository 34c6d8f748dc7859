import Verif.Descriptor.Spec
/-!
# C95: handle descriptors tell the truth about the memory they describe
-/
namespace Verif.Descriptor
open Verif.DynArray (Res)
open Verif.Growable (Heap)

universe u v w
variable {α : Type u} {σ : Type w} {η : Type v} [DecidableEq η]

/-- a relation between descriptors and the contents of their block that all calls on the contents respect -/
structure Cells (A : Allocator α σ η) (R : Desc σ η → List (Option α) → Prop) : Prop where
  write : ∀ {d c} pos v, R d c → pos < c.length → ∃ d', d.construct A pos v = .ok d' ∧ R d' (c.set pos (some v))
  read : ∀ {d c pos v}, R d c → c[pos]? = some (some v) → d.read A pos = .ok v
  held : ∀ {d c}, R d c → d.isAllocated A = true
  size : ∀ {d c}, R d c → d.size A = c.length

theorem splice_cons (c : List (Option α)) (pos : Nat) (v : α) (src : List α) (h : pos < c.length) :
    Spec.splice (c.set pos (some v)) (pos + 1) src = Spec.splice c pos (v :: src) := by
  unfold Spec.splice
  rw [List.drop_set_of_lt (by omega)]
  have h1 : (c.set pos (some v)).take (pos + 1) = c.take pos ++ [some v] := by
    rw [List.take_add_one]
    simp [h, List.take_set_of_le]
  rw [h1]
  simp only [List.map_cons, List.length_cons, List.append_assoc, List.singleton_append]
  rw [show pos + 1 + src.length = pos + (src.length + 1) by omega]

theorem splice_nil (c : List (Option α)) (pos : Nat) : Spec.splice c pos [] = c := by simp [Spec.splice]

theorem Cells.copyInto {A : Allocator α σ η} {R} (H : Cells A R) (src : List α) (d : Desc σ η) (c : List (Option α))
    (pos : Nat) (h : R d c) (hp : pos + src.length ≤ c.length) :
    ∃ d', d.copyInto A src pos = .ok d' ∧ R d' (Spec.splice c pos src) := by
  induction src generalizing d c pos with
  | nil => exact ⟨d, rfl, by rw [splice_nil]; exact h⟩
  | cons v src ih =>
    simp only [List.length_cons] at hp
    obtain ⟨d1, h1, h2⟩ := H.write pos v h (by omega)
    obtain ⟨d2, h3, h4⟩ := ih d1 _ (pos + 1) h2 (by simp; omega)
    refine ⟨d2, by simp [Desc.copyInto, h1, Res.bind, h3], ?_⟩
    rw [splice_cons c pos v src (by omega)] at h4
    exact h4

theorem Cells.copyFrom {A : Allocator α σ η} {R} (H : Cells A R) (d : Desc σ η) (c : List (Option α))
    (pos len : Nat) (h : R d c) (l : List α) (hl : Spec.slice c pos len = some l) : d.copyFrom A pos len = .ok l := by
  induction len generalizing pos l with
  | zero => simp [Spec.slice] at hl; subst hl; rfl
  | succ len ih =>
    unfold Spec.slice at hl
    split at hl
    · rename_i v l' h1 h2
      cases hl
      simp [Desc.copyFrom, H.read h h1, Res.bind, ih (pos + 1) l' h2]
    · cases hl

theorem Cells.step {A : Allocator α σ η} {R} (H : Cells A R) (d : Desc σ η) (c : List (Option α)) (h : R d c)
    (op : Op α) (c' : List (Option α)) (o : Out α) (hs : Spec.onCells c op = some (c', o)) :
    ∃ d', d.step A op = .ok (d', o) ∧ R d' c' := by
  cases op with
  | allocate n => cases hs
  | reallocate n => cases hs
  | construct pos v =>
    simp only [Spec.onCells] at hs
    split at hs
    · rename_i hp
      cases hs
      obtain ⟨d1, h1, h2⟩ := H.write pos v h hp
      refine ⟨d1, by simp [Desc.step, h1, Res.bind], ?_⟩
      rw [← splice_cons c pos v [] hp, splice_nil]; exact h2
    · cases hs
  | copyInto src pos =>
    simp only [Spec.onCells] at hs
    split at hs
    · rename_i hp
      cases hs
      obtain ⟨d1, h1, h2⟩ := H.copyInto src d c pos h hp
      exact ⟨d1, by simp [Desc.step, h1, Res.bind], h2⟩
    · cases hs
  | read pos =>
    simp only [Spec.onCells] at hs
    split at hs
    · rename_i v hv
      cases hs
      exact ⟨d, by simp [Desc.step, H.read h hv, Res.bind], h⟩
    · cases hs
  | copyFrom pos len =>
    simp only [Spec.onCells, Option.map_eq_some_iff] at hs
    obtain ⟨l, hl, he⟩ := hs
    cases he
    exact ⟨d, by simp [Desc.step, H.copyFrom d c pos len h l hl, Res.bind], h⟩
  | isAllocated => cases hs; exact ⟨d, by simp [Desc.step, H.held h], h⟩
  | size => cases hs; exact ⟨d, by simp [Desc.step, H.size h], h⟩

theorem splice_length (c : List (Option α)) (pos : Nat) (src : List α) (h : pos + src.length ≤ c.length) :
    (Spec.splice c pos src).length = c.length := by
  simp [Spec.splice]; omega

/-! ## fixed buffers -/

/-- how a fixed allocator over `len` elements comes about: with a length known at compile time, or at run time -/
def Made (mem : List (Option α)) (base len : Nat) (asserts : Bool) (f : Fixed α) : Prop :=
  (0 < len ∧ sized mem base len asserts = some f) ∨ (len < 2 ^ 64 ∧ f = runtimeSized mem base len asserts)

/-- the descriptor of the buffer whose contents are `c` -/
def FixedRel (f : Fixed α) (lo hi : List (Option α)) (d : Desc (Fixed α) Bool) (c : List (Option α)) : Prop :=
  d = fixedDesc { f with mem := lo ++ c ++ hi } ∧ c.length = f.len ∧ lo.length = f.base

theorem fixed_cells (f : Fixed α) (lo hi : List (Option α)) (hsize : f.maxSize % 2 ^ f.bits = f.len) :
    Cells (fixedAllocator α) (FixedRel f lo hi) where
  write := by
    rintro d c pos v ⟨rfl, hc, hlo⟩ hp
    refine ⟨fixedDesc { f with mem := lo ++ c.set pos (some v) ++ hi }, ?_, rfl, by simpa using hc, hlo⟩
    have : wr (lo ++ c ++ hi) (f.base + pos) (some v) = some (lo ++ c.set pos (some v) ++ hi) := by
      rw [wr_lt (by simp; omega), ← hlo]
      congr 1
      rw [List.append_assoc, List.set_append_right _ _ (by omega), List.set_append_left _ _ (by omega)]
      simp
    simp only [Desc.construct, fixedAllocator, fixedDesc, this, Res.bind]
  read := by
    rintro d c pos v ⟨rfl, hc, hlo⟩ hp
    have hlt : pos < c.length := by
      rw [List.getElem?_eq_some_iff] at hp; exact hp.1
    have : rd (lo ++ c ++ hi) (f.base + pos) = some (some v) := by
      unfold rd
      rw [← hlo, List.append_assoc, List.getElem?_append_right (by omega), List.getElem?_append_left (by omega)]
      simpa using hp
    simp only [Desc.read, fixedAllocator, fixedDesc, this]
  held := by rintro d c ⟨rfl, -, -⟩; rfl
  size := by
    rintro d c ⟨rfl, hc, -⟩
    rw [hc]
    exact hsize

theorem made_facts {mem : List (Option α)} {base len : Nat} {asserts : Bool} {f : Fixed α}
    (h : Made mem base len asserts f) :
    f.mem = mem ∧ f.base = base ∧ f.len = len ∧ f.asserts = asserts ∧ f.maxSize = len ∧
      f.maxSize % 2 ^ f.bits = f.len ∧ ∀ n, f.allocate n = decide (n ≤ len) := by
  rcases h with ⟨h0, h⟩ | ⟨hl, rfl⟩
  · unfold sized at h
    obtain ⟨b, hb, rfl⟩ := Option.map_eq_some_iff.1 h
    have hm : Fixed.maxSize (⟨mem, base, len, false, b, asserts⟩ : Fixed α) = len := by
      simp [Fixed.maxSize]; omega
    refine ⟨rfl, rfl, rfl, rfl, hm, ?_, fun n => ?_⟩
    · rw [hm]
      apply Nat.mod_eq_of_lt
      unfold Arrays.deduceBits at hb
      repeat' split at hb
      all_goals cases hb
      all_goals simp only; omega
    · simp only [Fixed.allocate, hm]
      rw [if_neg (by simp; omega)]
  · refine ⟨rfl, rfl, rfl, rfl, by simp [Fixed.maxSize, runtimeSized], ?_, fun n => by
      simp [Fixed.allocate, runtimeSized, Fixed.maxSize]⟩
    simp only [Fixed.maxSize, runtimeSized, Bool.not_true, Bool.false_and, Bool.false_eq_true, if_false]
    exact Nat.mod_eq_of_lt hl

/-- C95 (fixed buffers), partial: a descriptor of a fixed buffer is an array of `len` elements that is always there: for
every sequence of calls inside it the answers are those of such an array, `size()` among them, and no memory but the
buffer changes.  A length of 0 known at compile time, which means "unbounded", is not covered (`unbounded_size`).
Missing: requests that do not fit, which are granted (`fixed_allocate_always_true`). -/
theorem fixed_descriptor_partial (mem : List (Option α)) (base len : Nat) (asserts : Bool) (f : Fixed α)
    (hf : Made mem base len asserts f) (hb : base + len ≤ mem.length) (ops : List (Op α))
    (hfit : ∀ n, Op.allocate n ∈ ops → n ≤ len) (c : List (Option α)) (outs : List (Out α))
    (h : Spec.runs Spec.fixed ((mem.drop base).take len) ops = some (c, outs)) :
    ∃ f', (fixedDesc f).run (fixedAllocator α) ops = .ok (fixedDesc f', outs) ∧ c.length = len ∧
      f'.mem = mem.take base ++ c ++ mem.drop (base + len) := by
  obtain ⟨e1, e2, e3, -, e5, e6, e7⟩ := made_facts hf
  have H := fixed_cells f (mem.take base) (mem.drop (base + len)) e6
  have key : ∀ ops d c0 c outs, FixedRel f (mem.take base) (mem.drop (base + len)) d c0 →
      (∀ n, Op.allocate n ∈ ops → n ≤ len) → Spec.runs Spec.fixed c0 ops = some (c, outs) →
      ∃ d', d.run (fixedAllocator α) ops = .ok (d', outs) ∧ FixedRel f (mem.take base) (mem.drop (base + len)) d' c := by
    intro ops
    induction ops with
    | nil => intro d c0 c outs hr _ hs; simp [Spec.runs] at hs; obtain ⟨rfl, rfl⟩ := hs; exact ⟨d, rfl, hr⟩
    | cons op ops ih =>
      intro d c0 c outs hr hfit hs
      have step : ∃ d1 c1 o outs', d.step (fixedAllocator α) op = .ok (d1, o) ∧
          FixedRel f (mem.take base) (mem.drop (base + len)) d1 c1 ∧ Spec.runs Spec.fixed c1 ops = some (c, outs') ∧
          outs = o :: outs' := by
        unfold Spec.runs at hs
        split at hs
        · cases hs
        · rename_i c1 o h1
          obtain ⟨q, hq, hq2⟩ := Option.map_eq_some_iff.1 hs
          simp only [Prod.mk.injEq] at hq2
          obtain ⟨rfl, rfl⟩ := hq2
          cases op with
          | allocate n =>
            simp only [Spec.fixed, Option.some.injEq, Prod.mk.injEq] at h1
            obtain ⟨rfl, rfl⟩ := h1
            have hn : n ≤ c0.length := by rw [hr.2.1, e3]; exact hfit n (by simp)
            refine ⟨d, c0, _, q.2, ?_, hr, hq, rfl⟩
            obtain ⟨rfl, -, -⟩ := hr
            simp [Desc.step, Desc.allocate, fixedDesc, fixedAllocator, Slot.set, Slot.get, Desc.isAllocated, hn]
          | reallocate n => cases h1
          | _ =>
            obtain ⟨d1, h2, h3⟩ := H.step d c0 hr _ c1 o (by simpa only [Spec.fixed] using h1)
            exact ⟨d1, c1, o, q.2, h2, h3, hq, rfl⟩
      obtain ⟨d1, c1, o, outs', h1, h2, h3, rfl⟩ := step
      obtain ⟨d2, h4, h5⟩ := ih d1 c1 c outs' h2 (fun n hn => hfit n (by simp [hn])) h3
      exact ⟨d2, by simp [Desc.run, h1, Res.bind, h4], h5⟩
  have h0 : FixedRel f (mem.take base) (mem.drop (base + len)) (fixedDesc f) ((mem.drop base).take len) := by
    refine ⟨?_, by simp [e3]; omega, by simp [e2]; omega⟩
    have : mem.take base ++ (mem.drop base).take len ++ mem.drop (base + len) = mem := by
      rw [List.append_assoc, ← List.drop_drop, List.take_append_drop, List.take_append_drop]
    rw [this, ← e1]
  obtain ⟨d', h1, h2⟩ := key ops _ _ c outs h0 hfit h
  exact ⟨_, by rw [h1, h2.1], by rw [h2.2.1, e3], rfl⟩

/-- a buffer of three in a memory of five -/
def exFixed : Fixed Nat := ⟨[some 9, none, none, none, some 8], 1, 3, false, 8, true⟩

def exFixedOps : List (Op Nat) :=
  [.isAllocated, .allocate 2, .construct 1 5, .copyInto [6, 7] 0, .read 1, .copyFrom 0 2, .size]

example : Made [some 9, none, none, none, some 8] 1 3 true exFixed ∧
    (∀ n, Op.allocate n ∈ exFixedOps → n ≤ 3) ∧
    Spec.runs Spec.fixed [none, none, none] exFixedOps =
      some ([some 6, some 7, none], [.bool true, .bool true, .unit, .unit, .val 7, .vals [6, 7], .nat 3]) :=
  ⟨.inl ⟨by decide, rfl⟩, by intro n hn; simp [exFixedOps] at hn; omega, by decide +kernel⟩

/-- C95: **Violation.** A descriptor of a fixed buffer grants every request: the allocator refuses more elements than
there are, the descriptor answers that it has them, before any request, after it, and whatever was asked for.  For every
buffer and request. -/
theorem fixed_allocate_always_true (mem : List (Option α)) (base len : Nat) (asserts : Bool) (f : Fixed α)
    (hf : Made mem base len asserts f) (n : Nat) (hn : len < n) :
    (f.allocate n = false) ∧ (fixedDesc f).isAllocated (fixedAllocator α) = true ∧
    (fixedDesc f).allocate (fixedAllocator α) n = (fixedDesc f, true) ∧
    (fixedDesc f).size (fixedAllocator α) = len := by
  obtain ⟨-, -, e3, -, -, e6, e7⟩ := made_facts hf
  refine ⟨by rw [e7]; simp; omega, rfl, rfl, ?_⟩
  simp only [Desc.size, fixedDesc, fixedAllocator, Option.getD_none]
  omega

/-- C95: **Violation.** The descriptor of an unbounded buffer (length 0 at compile time) says it has 255 elements: the size
type is deduced from the 0. -/
theorem unbounded_size (mem : List (Option α)) (base : Nat) (asserts : Bool) (f : Fixed α)
    (hf : sized mem base 0 asserts = some f) :
    f.maxSize = 2 ^ 64 - 1 ∧ (fixedDesc f).size (fixedAllocator α) = 255 := by
  simp [sized, Arrays.deduceBits] at hf
  subst hf
  exact ⟨by simp [Fixed.maxSize], by simp [Desc.size, fixedDesc, fixedAllocator, Fixed.maxSize]⟩

/-- C95: resizing a fixed buffer stops the program when assertions are compiled in. **Violation** when they are not: the
answer is that the buffer has the new size. -/
theorem fixed_reallocate (f : Fixed α) (n : Nat) :
    (f.asserts = true → (fixedDesc f).reallocate (fixedAllocator α) n = .abort) ∧
    (f.asserts = false → (fixedDesc f).reallocate (fixedAllocator α) n = .ok (fixedDesc f, true)) := by
  constructor <;> intro h <;>
    simp [Desc.reallocate, fixedDesc, fixedAllocator, h, Res.bind, Slot.set, Slot.get]

/-! ## blocks -/

section blocks
variable {α : Type}

/-- the heap holds the block `b` with contents `c`, the blocks of `h0` are as they were, and every other block has been
given back -/
structure Owns (h0 h : Heap α) (b : Nat) (c : List (Option α)) : Prop where
  live : h.blocks[b]? = some (some c)
  mine : h0.blocks.length ≤ b
  theirs : ∀ i, i < h0.blocks.length → h.blocks[i]? = h0.blocks[i]?
  rest : ∀ i x, h0.blocks.length ≤ i → h.blocks[i]? = some (some x) → i = b
  plan : h.plan = []

/-- the heap holds nothing of the descriptor's -/
structure Clean (h0 h : Heap α) : Prop where
  theirs : ∀ i, i < h0.blocks.length → h.blocks[i]? = h0.blocks[i]?
  rest : ∀ i x, h0.blocks.length ≤ i → h.blocks[i]? ≠ some (some x)
  len : h0.blocks.length ≤ h.blocks.length
  plan : h.plan = []

def HeapRel (h0 : Heap α) (d : Desc (Heap α) (Option Nat)) (c : List (Option α)) : Prop :=
  ∃ b, d.slot = .stored (some b) ∧ d.tracked = some c.length ∧ Owns h0 d.a b c

theorem heap_cells (h0 : Heap α) : Cells (heapAllocator α) (HeapRel h0) where
  write := by
    rintro ⟨a, s, t⟩ c pos v ⟨b, hs, ht, ho⟩ hp
    simp only at hs ht ho
    subst hs ht
    have hb : b < a.blocks.length := (List.getElem?_eq_some_iff.1 ho.live).1
    refine ⟨⟨{ a with blocks := a.blocks.set b (some (c.set pos (some v))) }, .stored (some b), some c.length⟩, ?_,
      b, rfl, by simp, ?_⟩
    · simp [Desc.construct, heapAllocator, Slot.get, ho.live, wr_lt hp, Res.bind]
    · refine ⟨by simp [hb], ho.mine, fun i hi => ?_, fun i x hi hx => ?_, ho.plan⟩
      · have := ho.mine
        rw [← ho.theirs i hi]
        exact List.getElem?_set_ne (by omega)
      · by_cases hib : i = b
        · exact hib
        · simp only at hx
          rw [List.getElem?_set_ne (by omega)] at hx
          exact ho.rest i x hi hx
  read := by
    rintro ⟨a, s, t⟩ c pos v ⟨b, hs, ht, ho⟩ hp
    simp only at hs ht ho
    subst hs ht
    simp [Desc.read, heapAllocator, Slot.get, ho.live, rd, hp]
  held := by
    rintro ⟨a, s, t⟩ c ⟨b, hs, ht, ho⟩
    simp only at hs
    subst hs
    simp [Desc.isAllocated, heapAllocator, Slot.get]
  size := by
    rintro ⟨a, s, t⟩ c ⟨b, hs, ht, ho⟩
    simp only at ht
    subst ht
    simp [Desc.size]

theorem allocate_owns (h0 h : Heap α) (hc : Clean h0 h) (n : Nat) :
    (h.allocate n).2 = some h.blocks.length ∧ Owns h0 (h.allocate n).1 h.blocks.length (List.replicate n none) := by
  simp only [Heap.allocate, hc.plan]
  refine ⟨trivial, by simp, hc.len, fun i hi => ?_, fun i x hi hx => ?_, by simp⟩
  · have := hc.len
    rw [← hc.theirs i hi]
    exact List.getElem?_append_left (by omega)
  · simp only [List.getElem?_append] at hx
    split at hx
    · exact absurd hx (hc.rest i x hi)
    · rename_i hlt
      rw [List.getElem?_eq_some_iff] at hx
      obtain ⟨h1, -⟩ := hx
      simp at h1; omega

theorem reallocate_owns (h0 h : Heap α) (b : Nat) (c : List (Option α)) (ho : Owns h0 h b c) (n : Nat) :
    ∃ h' , h.reallocate b n = .ok (h', some h.blocks.length) ∧
      Owns h0 h' h.blocks.length (c.take n ++ List.replicate (n - c.length) none) := by
  have hb : b < h.blocks.length := (List.getElem?_eq_some_iff.1 ho.live).1
  have hm := ho.mine
  refine ⟨_, by simp [Heap.reallocate, ho.live, ho.plan]; rfl, ?_⟩
  refine ⟨by simp, by omega, fun i hi => ?_, fun i x hi hx => ?_, by simp⟩
  · rw [← ho.theirs i hi]
    simp only
    rw [List.getElem?_append_left (by simp; omega), List.getElem?_set_ne (by omega)]
  · simp only [List.getElem?_append, List.length_set] at hx
    split at hx
    · by_cases hib : i = b
      · subst hib; simp [hb] at hx
      · rw [List.getElem?_set_ne (by omega)] at hx
        exact absurd (ho.rest i x hi hx) hib
    · rename_i hlt
      rw [List.getElem?_eq_some_iff] at hx
      obtain ⟨h1, -⟩ := hx
      simp at h1; omega

/-- what a descriptor is when the specification is in a given state -/
def BlockRel (h0 : Heap α) (d : Desc (Heap α) (Option Nat)) : Option (List (Option α)) → Prop
  | none => d.slot = .stored none ∧ d.tracked = some 0 ∧ Clean h0 d.a
  | some c => HeapRel h0 d c

/-- C95 (blocks), partial: a descriptor of an allocator of blocks tells the truth while every request succeeds: for every
sequence of calls that asks for a block only when there is none, or to resize it, the answers are those of the block held
(its contents kept by resizing, `is_allocated()`, `size()`); no other block of the allocator changes, and in the end
exactly the block held is outstanding.  Missing: requests that fail (`failed_request`, `failed_reallocate_lost`), asking
for a block while holding one (`second_allocate_lost`), giving it back (`free_forgets_nothing`). -/
theorem block_descriptor_partial (h0 : Heap α) (hp : h0.plan = []) (ops : List (Op α)) (s : Option (List (Option α)))
    (outs : List (Out α)) (h : Spec.runs Spec.block none ops = some (s, outs)) :
    ∃ d, (heapDesc h0).run (heapAllocator α) ops = .ok (d, outs) ∧
      (∀ i, i < h0.blocks.length → d.a.blocks[i]? = h0.blocks[i]?) ∧
      (∀ c, (∃ i, h0.blocks.length ≤ i ∧ d.a.blocks[i]? = some (some c)) ↔ s = some c) ∧
      d.isAllocated (heapAllocator α) = s.isSome ∧ d.size (heapAllocator α) = (s.getD []).length := by
  have H := heap_cells h0
  have key : ∀ ops d s0 s outs, BlockRel h0 d s0 → Spec.runs Spec.block s0 ops = some (s, outs) →
      ∃ d', d.run (heapAllocator α) ops = .ok (d', outs) ∧ BlockRel h0 d' s := by
    intro ops
    induction ops with
    | nil => intro d s0 s outs hr hs; simp [Spec.runs] at hs; obtain ⟨rfl, rfl⟩ := hs; exact ⟨d, rfl, hr⟩
    | cons op ops ih =>
      intro d s0 s outs hr hs
      unfold Spec.runs at hs
      split at hs
      · cases hs
      · rename_i s1 o h1
        obtain ⟨q, hq, hq2⟩ := Option.map_eq_some_iff.1 hs
        simp only [Prod.mk.injEq] at hq2
        obtain ⟨rfl, rfl⟩ := hq2
        have step : ∃ d1, d.step (heapAllocator α) op = .ok (d1, o) ∧ BlockRel h0 d1 s1 := by
          cases s0 with
          | none =>
            obtain ⟨a, sl, t⟩ := d
            obtain ⟨hs1, hs2, hs3⟩ := hr
            simp only at hs1 hs2 hs3
            subst hs1 hs2
            cases op with
            | allocate n =>
              simp only [Spec.block, Option.some.injEq, Prod.mk.injEq] at h1
              obtain ⟨rfl, rfl⟩ := h1
              obtain ⟨e1, e2⟩ := allocate_owns h0 a hs3 n
              refine ⟨⟨(a.allocate n).1, .stored (a.allocate n).2, some n⟩, ?_, a.blocks.length, ?_, by simp, e2⟩
              · simp [Desc.step, Desc.allocate, heapAllocator, Slot.set, Slot.get, Desc.isAllocated, e1]
              · simp [e1]
            | reallocate n =>
              simp only [Spec.block, Option.some.injEq, Prod.mk.injEq] at h1
              obtain ⟨rfl, rfl⟩ := h1
              obtain ⟨e1, e2⟩ := allocate_owns h0 a hs3 n
              refine ⟨⟨(a.allocate n).1, .stored (a.allocate n).2, some n⟩, ?_, a.blocks.length, ?_, by simp, e2⟩
              · simp [Desc.step, Desc.reallocate, heapAllocator, Slot.set, Slot.get, e1, Res.bind]
              · simp [e1]
            | isAllocated => cases h1; exact ⟨_, rfl, rfl, rfl, hs3⟩
            | size => cases h1; exact ⟨_, rfl, rfl, rfl, hs3⟩
            | construct pos v => cases h1
            | copyInto src pos => cases h1
            | read pos => cases h1
            | copyFrom pos len => cases h1
          | some c =>
            have other : ∀ op, Spec.onCells c op = (Spec.onCells c op) →
                (∃ c1, (Spec.onCells c op) = some (c1, o) ∧ s1 = some c1) →
                ∃ d1, d.step (heapAllocator α) op = .ok (d1, o) ∧ BlockRel h0 d1 s1 := by
              rintro op - ⟨c1, e1, rfl⟩
              exact H.step d c hr op c1 o e1
            have back : ∀ op, (Spec.onCells c op).map (fun r => (some r.1, r.2)) = some (s1, o) →
                ∃ c1, (Spec.onCells c op) = some (c1, o) ∧ s1 = some c1 := by
              intro op h
              obtain ⟨⟨c1, o1⟩, e1, e2⟩ := Option.map_eq_some_iff.1 h
              simp only [Prod.mk.injEq] at e2
              obtain ⟨rfl, rfl⟩ := e2
              exact ⟨c1, e1, rfl⟩
            cases op with
            | reallocate n =>
              simp only [Spec.block, Option.some.injEq, Prod.mk.injEq] at h1
              obtain ⟨rfl, rfl⟩ := h1
              obtain ⟨a, sl, t⟩ := d
              obtain ⟨b, hs1, hs2, hs3⟩ := hr
              simp only at hs1 hs2 hs3
              subst hs1 hs2
              obtain ⟨h', e1, e2⟩ := reallocate_owns h0 a b c hs3 n
              refine ⟨⟨h', .stored (some a.blocks.length), some n⟩, ?_, a.blocks.length, rfl, ?_, e2⟩
              · simp [Desc.step, Desc.reallocate, heapAllocator, Slot.set, Slot.get, e1, Res.bind]
              · simp; omega
            | allocate n => exact other _ rfl (back _ h1)
            | construct pos v => exact other _ rfl (back _ h1)
            | copyInto src pos => exact other _ rfl (back _ h1)
            | read pos => exact other _ rfl (back _ h1)
            | copyFrom pos len => exact other _ rfl (back _ h1)
            | isAllocated => exact other _ rfl (back _ h1)
            | size => exact other _ rfl (back _ h1)
        obtain ⟨d1, e1, e2⟩ := step
        obtain ⟨d2, e3, e4⟩ := ih d1 s1 q.1 q.2 e2 hq
        exact ⟨d2, by simp [Desc.run, e1, Res.bind, e3], e4⟩
  have h00 : BlockRel h0 (heapDesc h0) none :=
    ⟨rfl, rfl, ⟨fun i _ => rfl, fun i x hi => by simp [heapDesc, List.getElem?_eq_none hi], Nat.le_refl _, hp⟩⟩
  obtain ⟨d, e1, e2⟩ := key ops _ none s outs h00 h
  refine ⟨d, e1, ?_⟩
  cases s with
  | none =>
    obtain ⟨a, sl, t⟩ := d
    obtain ⟨hs1, hs2, hs3⟩ := e2
    simp only at hs1 hs2 hs3
    subst hs1 hs2
    refine ⟨hs3.theirs, fun c => ⟨?_, by simp⟩, rfl, rfl⟩
    rintro ⟨i, hi, hx⟩
    exact absurd hx (hs3.rest i c hi)
  | some c =>
    refine ⟨?_, fun c' => ?_, H.held e2, H.size e2⟩
    · obtain ⟨b, -, -, ho⟩ := e2; exact ho.theirs
    · obtain ⟨b, -, -, ho⟩ := e2
      constructor
      · rintro ⟨i, hi, hx⟩
        have := ho.rest i c' hi hx
        subst this
        rw [ho.live] at hx
        simpa using hx
      · rintro h; cases h; exact ⟨b, ho.mine, ho.live⟩

def exBlockOps : List (Op Nat) :=
  [.isAllocated, .allocate 2, .copyInto [6, 7] 0, .reallocate 3, .construct 2 5, .copyFrom 0 3, .size, .reallocate 1, .size]

example : Spec.runs Spec.block none exBlockOps =
    some (some [some 6], [.bool false, .bool true, .unit, .bool true, .unit, .vals [6, 7, 5], .nat 3, .bool true, .nat 1]) := by
  decide +kernel

/-- C95: **Violation.** A request that fails leaves the descriptor with the size asked for: nothing is held and `size()` is
`n`, whether it was a first request or a resize, and whatever `n` is. -/
theorem failed_request (d : Desc (Heap α) (Option Nat)) (k : Nat) (s : Option Nat) (r : List Bool)
    (hslot : d.slot = .stored s) (ht : d.tracked = some k) (hplan : d.a.plan = false :: r) (n : Nat) :
    (∃ d', d.allocate (heapAllocator α) n = (d', false) ∧ d'.isAllocated (heapAllocator α) = false ∧
      d'.size (heapAllocator α) = n) ∧
    (∀ d' ans, d.reallocate (heapAllocator α) n = .ok (d', ans) → ans = false ∧
      d'.isAllocated (heapAllocator α) = false ∧ d'.size (heapAllocator α) = n) := by
  obtain ⟨a, sl, t⟩ := d
  simp only at hslot ht hplan
  subst hslot ht
  constructor
  · refine ⟨⟨(a.allocate n).1, .stored none, some n⟩, ?_, rfl, rfl⟩
    simp [Desc.allocate, heapAllocator, Heap.allocate, hplan, Slot.set, Slot.get, Desc.isAllocated]
  · intro d' ans h
    cases s with
    | none =>
      simp [Desc.reallocate, heapAllocator, Heap.allocate, hplan, Slot.set, Slot.get, Res.bind] at h
      obtain ⟨rfl, rfl⟩ := h
      exact ⟨rfl, rfl, rfl⟩
    | some b =>
      simp only [Desc.reallocate, heapAllocator, Slot.get, Heap.reallocate, hplan] at h
      split at h
      · simp [Slot.set, Slot.get, Res.bind] at h
        obtain ⟨rfl, rfl⟩ := h
        exact ⟨rfl, rfl, rfl⟩
      · simp [Res.bind] at h

/-- the block `b` is out of the descriptor's reach -/
def Lost (b : Nat) (c : List (Option α)) (d : Desc (Heap α) (Option Nat)) : Prop :=
  (∃ h, d.slot = .stored h ∧ h ≠ some b) ∧ d.a.blocks[b]? = some (some c)

theorem Lost.construct {b : Nat} {c : List (Option α)} {d d' : Desc (Heap α) (Option Nat)} (h : Lost b c d) {pos : Nat}
    {v : α} (hs : d.construct (heapAllocator α) pos v = .ok d') : Lost b c d' := by
  obtain ⟨⟨h1, e1, e2⟩, e3⟩ := h
  obtain ⟨a, sl, t⟩ := d
  simp only at e1 e3
  subst e1
  simp only [Desc.construct, heapAllocator, Slot.get] at hs
  split at hs
  · simp [Res.bind] at hs
  · rename_i b'
    have hne : b' ≠ b := fun h => e2 (by rw [h])
    split at hs
    · split at hs
      · simp only [Res.bind, Res.ok.injEq] at hs
        subst hs
        refine ⟨⟨_, rfl, e2⟩, ?_⟩
        simp only
        rw [List.getElem?_set_ne hne]; exact e3
      · simp [Res.bind] at hs
    · simp [Res.bind] at hs

theorem lost_allocate {b : Nat} {c : List (Option α)} (a : Heap α) (h : a.blocks[b]? = some (some c)) (n : Nat) :
    (a.allocate n).2 ≠ some b ∧ (a.allocate n).1.blocks[b]? = some (some c) := by
  have hb : b < a.blocks.length := (List.getElem?_eq_some_iff.1 h).1
  unfold Heap.allocate
  split
  · exact ⟨by simp, h⟩
  · refine ⟨by simp; omega, ?_⟩
    simp only
    rw [List.getElem?_append_left hb]; exact h

theorem Lost.step {b : Nat} {c : List (Option α)} {d d' : Desc (Heap α) (Option Nat)} {o : Out α} (h : Lost b c d)
    (op : Op α) (hs : d.step (heapAllocator α) op = .ok (d', o)) : Lost b c d' := by
  cases op with
  | allocate n =>
    obtain ⟨⟨h1, e1, e2⟩, e3⟩ := h
    obtain ⟨a, sl, t⟩ := d
    simp only at e1 e3
    subst e1
    simp only [Desc.step, Desc.allocate, heapAllocator, Slot.set, Res.ok.injEq, Prod.mk.injEq] at hs
    obtain ⟨rfl, -⟩ := hs
    exact ⟨⟨_, rfl, (lost_allocate a e3 n).1⟩, (lost_allocate a e3 n).2⟩
  | reallocate n =>
    obtain ⟨⟨h1, e1, e2⟩, e3⟩ := h
    obtain ⟨a, sl, t⟩ := d
    simp only at e1 e3
    subst e1
    have hb : b < a.blocks.length := (List.getElem?_eq_some_iff.1 e3).1
    cases h1 with
    | none =>
      simp only [Desc.step, Desc.reallocate, heapAllocator, Slot.set, Slot.get, Res.bind, Res.ok.injEq, Prod.mk.injEq] at hs
      obtain ⟨rfl, -⟩ := hs
      exact ⟨⟨_, rfl, (lost_allocate a e3 n).1⟩, (lost_allocate a e3 n).2⟩
    | some b' =>
      have hne : b' ≠ b := fun h => e2 (by rw [h])
      simp only [Desc.step, Desc.reallocate, heapAllocator, Slot.get, Heap.reallocate] at hs
      split at hs
      · split at hs
        · simp only [Res.bind, Slot.set, Res.ok.injEq, Prod.mk.injEq] at hs
          obtain ⟨rfl, -⟩ := hs
          exact ⟨⟨_, rfl, by simp⟩, e3⟩
        · simp only [Res.bind, Slot.set, Res.ok.injEq, Prod.mk.injEq] at hs
          obtain ⟨rfl, -⟩ := hs
          refine ⟨⟨_, rfl, by simp; omega⟩, ?_⟩
          simp only
          rw [List.getElem?_append_left (by simpa using hb), List.getElem?_set_ne hne]; exact e3
      · simp [Res.bind] at hs
  | construct pos v =>
    simp only [Desc.step] at hs
    cases hc : d.construct (heapAllocator α) pos v with
    | ok d1 =>
      simp only [hc, Res.bind, Res.ok.injEq, Prod.mk.injEq] at hs
      obtain ⟨rfl, -⟩ := hs
      exact h.construct hc
    | abort => simp [hc, Res.bind] at hs
    | ub => simp [hc, Res.bind] at hs
  | copyInto src pos =>
    simp only [Desc.step] at hs
    have key : ∀ src d pos d1, Lost b c d → d.copyInto (heapAllocator α) src pos = .ok d1 → Lost b c d1 := by
      intro src
      induction src with
      | nil => intro d pos d1 hl he; simp [Desc.copyInto] at he; subst he; exact hl
      | cons v src ih =>
        intro d pos d1 hl he
        simp only [Desc.copyInto] at he
        cases hc : d.construct (heapAllocator α) pos v with
        | ok d2 => simp only [hc, Res.bind] at he; exact ih d2 (pos + 1) d1 (hl.construct hc) he
        | abort => simp [hc, Res.bind] at he
        | ub => simp [hc, Res.bind] at he
    cases hc : d.copyInto (heapAllocator α) src pos with
    | ok d1 =>
      simp only [hc, Res.bind, Res.ok.injEq, Prod.mk.injEq] at hs
      obtain ⟨rfl, -⟩ := hs
      exact key src d pos d1 h hc
    | abort => simp [hc, Res.bind] at hs
    | ub => simp [hc, Res.bind] at hs
  | read pos =>
    simp only [Desc.step] at hs
    cases hc : d.read (heapAllocator α) pos <;> simp [hc, Res.bind] at hs
    obtain ⟨rfl, -⟩ := hs
    exact h
  | copyFrom pos len =>
    simp only [Desc.step] at hs
    cases hc : d.copyFrom (heapAllocator α) pos len <;> simp [hc, Res.bind] at hs
    obtain ⟨rfl, -⟩ := hs
    exact h
  | isAllocated => simp [Desc.step] at hs; obtain ⟨rfl, -⟩ := hs; exact h
  | size => simp [Desc.step] at hs; obtain ⟨rfl, -⟩ := hs; exact h

theorem Lost.run {b : Nat} {c : List (Option α)} (ops : List (Op α)) :
    ∀ {d d' : Desc (Heap α) (Option Nat)} {outs : List (Out α)}, Lost b c d →
      d.run (heapAllocator α) ops = .ok (d', outs) → Lost b c d' := by
  induction ops with
  | nil => intro d d' outs h hr; simp [Desc.run] at hr; obtain ⟨rfl, -⟩ := hr; exact h
  | cons op ops ih =>
    intro d d' outs h hr
    simp only [Desc.run] at hr
    cases h1 : d.step (heapAllocator α) op with
    | ok r =>
      simp only [h1, Res.bind] at hr
      cases h2 : Desc.run (heapAllocator α) r.1 ops with
      | ok q =>
        simp only [h2, Res.ok.injEq, Prod.mk.injEq] at hr
        obtain ⟨rfl, -⟩ := hr
        exact ih (h.step op h1) h2
      | abort => simp [h2] at hr
      | ub => simp [h2] at hr
    | abort => simp [h1, Res.bind] at hr
    | ub => simp [h1, Res.bind] at hr

/-- C95: **Violation.** A resize that fails loses the block: the descriptor no longer has its handle, and the block is
outstanding with its contents after whatever is called on the descriptor from then on. -/
theorem failed_reallocate_lost (d : Desc (Heap α) (Option Nat)) (b k : Nat) (c : List (Option α)) (r : List Bool)
    (hslot : d.slot = .stored (some b)) (ht : d.tracked = some k) (hlive : d.a.blocks[b]? = some (some c))
    (hplan : d.a.plan = false :: r) (n : Nat) :
    ∃ d', d.reallocate (heapAllocator α) n = .ok (d', false) ∧
      ∀ ops e outs, d'.run (heapAllocator α) ops = .ok (e, outs) → e.a.blocks[b]? = some (some c) ∧
        e.slot ≠ .stored (some b) := by
  obtain ⟨a, sl, t⟩ := d
  simp only at hslot ht hlive hplan
  subst hslot ht
  refine ⟨⟨{ a with plan := r, calls := a.calls + 1 }, .stored none, some n⟩, ?_, ?_⟩
  · simp [Desc.reallocate, heapAllocator, Slot.get, Slot.set, Heap.reallocate, hlive, hplan, Res.bind]
  · intro ops e outs hr
    obtain ⟨⟨h, e1, e2⟩, e3⟩ := Lost.run ops (b := b) (c := c) ⟨⟨none, rfl, by simp⟩, hlive⟩ hr
    exact ⟨e3, by rw [e1]; simpa using e2⟩

/-- C95: **Violation.** So does asking for a block while holding one, whether or not the request succeeds. -/
theorem second_allocate_lost (d : Desc (Heap α) (Option Nat)) (b : Nat) (c : List (Option α))
    (hslot : d.slot = .stored (some b)) (hlive : d.a.blocks[b]? = some (some c)) (n : Nat) (ops : List (Op α))
    (e : Desc (Heap α) (Option Nat)) (outs : List (Out α))
    (hr : (d.allocate (heapAllocator α) n).1.run (heapAllocator α) ops = .ok (e, outs)) :
    e.a.blocks[b]? = some (some c) ∧ e.slot ≠ .stored (some b) := by
  obtain ⟨a, sl, t⟩ := d
  simp only at hslot hlive
  subst hslot
  have h0 : Lost b c (Desc.allocate (heapAllocator α) ⟨a, .stored (some b), t⟩ n).1 :=
    ⟨⟨_, rfl, (lost_allocate a hlive n).1⟩, (lost_allocate a hlive n).2⟩
  obtain ⟨⟨h, e1, e2⟩, e3⟩ := Lost.run ops h0 hr
  exact ⟨e3, by rw [e1]; simpa using e2⟩

/-- a descriptor holding a block of two, the next request failing -/
def exHolding : Desc (Heap Nat) (Option Nat) := ⟨⟨[some [some 6, some 7]], [false], 1, 0⟩, .stored (some 0), some 2⟩

example : ∃ d', exHolding.reallocate (heapAllocator Nat) 5 = .ok (d', false) ∧ d'.size (heapAllocator Nat) = 5 ∧
    d'.a.blocks = [some [some 6, some 7]] := ⟨⟨⟨[some [some 6, some 7]], [], 2, 0⟩, .stored none, some 5⟩, rfl, rfl, rfl⟩

/-- C95: **Violation.** `free()` gives the block back and the descriptor still claims to hold it, with its old size;
giving it back again, or touching it, is undefined. -/
theorem free_forgets_nothing (d : Desc (Heap α) (Option Nat)) (b k : Nat) (c : List (Option α))
    (hslot : d.slot = .stored (some b)) (ht : d.tracked = some k) (hlive : d.a.blocks[b]? = some (some c)) :
    ∃ d', d.free (heapAllocator α) = .ok d' ∧ d'.a.blocks[b]? = some none ∧
      d'.isAllocated (heapAllocator α) = true ∧ d'.size (heapAllocator α) = k ∧ d'.free (heapAllocator α) = .ub ∧
      ∀ pos v, d'.construct (heapAllocator α) pos v = .ub ∧ d'.read (heapAllocator α) pos = .ub := by
  obtain ⟨a, sl, t⟩ := d
  simp only at hslot ht hlive
  subst hslot ht
  have hb : b < a.blocks.length := (List.getElem?_eq_some_iff.1 hlive).1
  refine ⟨⟨{ a with blocks := a.blocks.set b none }, .stored (some b), some k⟩, ?_, by simp [hb], ?_, rfl, ?_, ?_⟩
  · simp [Desc.free, heapAllocator, Slot.get, heapFree, hlive, Res.bind]
  · simp [Desc.isAllocated, heapAllocator, Slot.get]
  · simp [Desc.free, heapAllocator, Slot.get, heapFree, hb, Res.bind]
  · intro pos v
    simp [Desc.construct, Desc.read, heapAllocator, Slot.get, hb, Res.bind]

end blocks

end Verif.Descriptor
