import Verif.Accessor.Model
/-!
# C71: element accessors
-/
namespace Verif.Accessor
open Verif

variable {α : Type u} [DecidableEq α]

/-! ## Specification -/

/-- the elements of the vector, and for each accessor variable the element it stands for -/
structure Spec.St (α : Type u) where
  elems : List α
  vars : List Nat
  deriving DecidableEq, Repr

/-- the element an expression stands for -/
def Spec.at_ (s : Spec.St α) : Src → Option Nat
  | .elem i => some i
  | .front => some 0
  | .back => some (s.elems.length - 1)
  | .var k => s.vars[k]?

/-- the element an assignment changes -/
def Spec.dst (s : Spec.St α) : Dst → Option Nat
  | .src e => Spec.at_ s e
  | .at_ i => some i

/-- the value of an expression -/
def Spec.get (s : Spec.St α) (e : Src) : Option α := (Spec.at_ s e).bind fun i => s.elems[i]?

/-- what a statement should do: an expression stands for an element, reading it gives that element and assigning to it —
a value or another such expression — changes that element -/
def Spec.step (s : Spec.St α) : Op α → Option (Spec.St α × Out α)
  | .bind e => (Spec.at_ s e).map fun i => (⟨s.elems, s.vars ++ [i]⟩, .none)
  | .store d x => (Spec.dst s d).map fun i => (⟨s.elems.set i x, s.vars⟩, .none)
  | .assign d e => (Spec.dst s d).bind fun i => (Spec.get s e).map fun x => (⟨s.elems.set i x, s.vars⟩, .none)
  | .load e => (Spec.get s e).map fun x => (s, .val x)
  | .eq e x => (Spec.get s e).map fun y => (s, .bool (decide (y = x)))
  | .ne e x => (Spec.get s e).map fun y => (s, .bool (decide (y ≠ x)))
  | .push x => some (⟨s.elems ++ [x], s.vars⟩, .none)
  | .pop => some (⟨s.elems.dropLast, s.vars⟩, .none)

/-- the elements a statement speaks of exist -/
def Spec.present (s : Spec.St α) (e : Src) : Prop := ∃ i, Spec.at_ s e = some i ∧ i < s.elems.length

/-- the statement is legal in a vector of the given capacity -/
def Spec.legal (cap : Nat) (s : Spec.St α) : Op α → Prop
  | .bind e | .load e | .eq e _ | .ne e _ => Spec.present s e
  | .store d _ => ∃ i, Spec.dst s d = some i ∧ i < s.elems.length
  | .assign d e => (∃ i, Spec.dst s d = some i ∧ i < s.elems.length) ∧ Spec.present s e
  | .push _ => s.elems.length < cap
  | .pop => s.elems ≠ []

/-- a program, with its results -/
def Spec.run : List (Op α) → Spec.St α → Option (Spec.St α × List (Out α))
  | [], s => some (s, [])
  | o :: ops, s =>
    match Spec.step s o with
    | none => none
    | some (s', r) => (Spec.run ops s').map fun q => (q.1, r :: q.2)

/-- a legal program -/
def Spec.Legal (cap : Nat) : List (Op α) → Spec.St α → Prop
  | [], _ => True
  | o :: ops, s => Spec.legal cap s o ∧ ∀ s' r, Spec.step s o = some (s', r) → Spec.Legal cap ops s'

/-- the statement does not assign one accessor to another -/
def Spec.plain : Op α → Prop
  | .assign (.src _) _ => False
  | _ => True

/-! ## Refinement -/

/-- the buffer holds the elements -/
def Rep (cap : Nat) (s : St α) (a : Spec.St α) : Prop :=
  s.mem.length = cap ∧ s.n ≤ cap ∧ a.elems = s.mem.take s.n ∧ a.vars = s.accs

theorem rep_ptr {cap : Nat} {s : St α} {a : Spec.St α} (h : Rep cap s a) (e : Src) (i : Nat)
    (hi : Spec.at_ a e = some i) (hl : i < a.elems.length) : e.ptr s = some i ∧ i < s.n ∧ i < s.mem.length := by
  obtain ⟨h1, h2, h3, h4⟩ := h
  have hlen : a.elems.length = s.n := by rw [h3]; simp; omega
  rw [hlen] at hl
  refine ⟨?_, hl, by omega⟩
  cases e with
  | elem j => simp only [Spec.at_, Option.some.injEq] at hi; subst hi; simp [Src.ptr, addr]; omega
  | front => simp only [Spec.at_, Option.some.injEq] at hi; subst hi; simp [Src.ptr, addr]
  | back =>
    simp only [Spec.at_, Option.some.injEq, hlen] at hi; subst hi
    unfold Src.ptr; rw [if_neg (by omega)]; simp [addr]; omega
  | var k => simpa [Spec.at_, Src.ptr, h4] using hi

theorem rep_read {cap : Nat} {s : St α} {a : Spec.St α} (h : Rep cap s a) (e : Src) (hp : Spec.present a e) :
    ∃ x, Spec.get a e = some x ∧ e.read s = some x := by
  obtain ⟨i, hi, hl⟩ := hp
  obtain ⟨e1, e2, e3⟩ := rep_ptr h e i hi hl
  refine ⟨a.elems[i], by simp [Spec.get, hi, hl], ?_⟩
  unfold Src.read; rw [e1]
  have := h.2.2.1
  simp [rd, this, e3]

theorem rep_store {cap : Nat} {s : St α} {a : Spec.St α} (h : Rep cap s a) (d : Dst) (i : Nat) (x : α)
    (hi : Spec.dst a d = some i) (hl : i < a.elems.length) :
    ∃ s', storeAt s d x = some s' ∧ Rep cap s' ⟨a.elems.set i x, a.vars⟩ := by
  have hp : d.ptr s = some i ∧ i < s.n ∧ i < s.mem.length := by
    cases d with
    | src e => exact rep_ptr h e i hi hl
    | at_ j => exact rep_ptr h (.elem j) i hi hl
  obtain ⟨e1, e2, e3⟩ := hp
  refine ⟨_, by unfold storeAt; rw [e1]; simp only [wr_lt e3, Option.map_some]; rfl, ?_⟩
  obtain ⟨h1, h2, h3, h4⟩ := h
  refine ⟨by simpa using h1, h2, ?_, h4⟩
  simp only [h3, List.take_set]

theorem rep_step {cap : Nat} {s : St α} {a : Spec.St α} (h : Rep cap s a) (o : Op α) (hl : Spec.legal cap a o)
    (hp : Spec.plain o) :
    ∃ s' a' r, o.step s = some (s', r) ∧ Spec.step a o = some (a', r) ∧ Rep cap s' a' := by
  cases o with
  | bind e =>
    obtain ⟨i, hi, hil⟩ := hl
    obtain ⟨e1, -, -⟩ := rep_ptr h e i hi hil
    exact ⟨{ s with accs := s.accs ++ [i] }, ⟨a.elems, a.vars ++ [i]⟩, .none, by simp only [Op.step, e1], by simp [Spec.step, hi],
      h.1, h.2.1, h.2.2.1, by simp [h.2.2.2]⟩
  | store d x =>
    obtain ⟨i, hi, hil⟩ := hl
    obtain ⟨s', e1, e2⟩ := rep_store h d i x hi hil
    exact ⟨s', _, _, by simp only [Op.step, e1, Option.map_some]; rfl, by simp [Spec.step, hi], e2⟩
  | assign d e =>
    obtain ⟨⟨i, hi, hil⟩, hpe⟩ := hl
    cases d with
    | src _ => exact absurd hp id
    | at_ j =>
      obtain ⟨x, g1, g2⟩ := rep_read h e hpe
      obtain ⟨s', e1, e2⟩ := rep_store h (.at_ j) i x hi hil
      exact ⟨s', _, _, by simp only [Op.step, assignFrom, g2, e1, Option.map_some]; rfl, by simp [Spec.step, hi, g1], e2⟩
  | load e =>
    obtain ⟨x, g1, g2⟩ := rep_read h e hl
    exact ⟨s, a, _, by simp only [Op.step, g2, Option.map_some]; rfl, by simp [Spec.step, g1], h⟩
  | eq e x =>
    obtain ⟨y, g1, g2⟩ := rep_read h e hl
    exact ⟨s, a, _, by simp only [Op.step, g2, Option.map_some]; rfl, by simp [Spec.step, g1], h⟩
  | ne e x =>
    obtain ⟨y, g1, g2⟩ := rep_read h e hl
    exact ⟨s, a, _, by simp only [Op.step, g2, Option.map_some]; rfl, by simp [Spec.step, g1], h⟩
  | push x =>
    obtain ⟨h1, h2, h3, h4⟩ := h
    have hlen : a.elems.length = s.n := by rw [h3]; simp; omega
    have hn : s.n < s.mem.length := by have : a.elems.length < cap := hl; omega
    refine ⟨{ s with mem := s.mem.set s.n x, n := s.n + 1 }, ⟨a.elems ++ [x], a.vars⟩, .none,
      by simp only [Op.step, wr_lt hn, Option.map_some], rfl, by simpa using h1, by simp only; omega, ?_, h4⟩
    simp only [h3]
    rw [List.take_set, List.take_succ_eq_append_getElem (by omega), List.set_append_right _ _ (by simp; omega),
      show s.n - (s.mem.take s.n).length = 0 by simp; omega]
    rfl
  | pop =>
    obtain ⟨h1, h2, h3, h4⟩ := h
    have hlen : a.elems.length = s.n := by rw [h3]; simp; omega
    have hn : s.n ≠ 0 := by
      intro h0; apply hl; rw [← List.length_eq_zero_iff]; omega
    refine ⟨{ s with n := s.n - 1 }, ⟨a.elems.dropLast, a.vars⟩, .none, by simp only [Op.step, if_neg hn], rfl, h1,
      by simp only; omega, ?_, h4⟩
    simp only [h3]
    rw [List.dropLast_eq_take, List.take_take, List.length_take]
    congr 1; omega

theorem rep_run {cap : Nat} (ops : List (Op α)) {s : St α} {a : Spec.St α} (h : Rep cap s a)
    (hl : Spec.Legal cap ops a) (hp : ∀ o ∈ ops, Spec.plain o) :
    ∃ s' a' out, run ops s = some (s', out) ∧ Spec.run ops a = some (a', out) ∧ Rep cap s' a' := by
  induction ops generalizing s a with
  | nil => exact ⟨s, a, [], rfl, rfl, h⟩
  | cons o ops ih =>
    obtain ⟨s1, a1, r, e1, e2, e3⟩ := rep_step h o hl.1 (hp o (by simp))
    obtain ⟨s', a', out, f1, f2, f3⟩ := ih e3 (hl.2 a1 r e2) (fun o ho => hp o (by simp [ho]))
    exact ⟨s', a', r :: out, by simp [run, e1, f1], by simp [Spec.run, e2, f2], f3⟩

/-- C71: over every legal program on an empty vector of any capacity that assigns no accessor to an accessor, everything
read through accessors is what the elements they stand for hold, and exactly the assigned elements change.  Missing:
assignments from accessor to accessor (next theorems). -/
theorem accessor_history_partial (buffer : List α) (ops : List (Op α))
    (hl : Spec.Legal buffer.length ops ⟨[], []⟩) (hp : ∀ o ∈ ops, Spec.plain o) :
    ∃ s a out, run ops ⟨buffer, 0, []⟩ = some (s, out) ∧ Spec.run ops ⟨[], []⟩ = some (a, out) ∧
      s.mem.take s.n = a.elems := by
  obtain ⟨s, a, out, e1, e2, e3⟩ := rep_run ops (s := ⟨buffer, 0, []⟩) (a := ⟨[], []⟩) (cap := buffer.length)
    ⟨rfl, by simp, by simp, rfl⟩ hl hp
  exact ⟨s, a, out, e1, e2, e3.2.2.1.symm⟩

/-- a program that meets the hypotheses, and what it yields -/
def sample : List (Op Nat) :=
  [.push 3, .push 4, .push 5, .bind (.elem 1), .store (.src (.var 0)) 9, .load (.elem 1), .assign (.at_ 0) .back, .load .front,
   .pop, .ne (.var 0) 9]

example : Spec.Legal 4 sample ⟨[], []⟩ := by
  simp only [sample, Spec.Legal, Spec.legal, Spec.present, Spec.at_, Spec.dst]
  simp [Spec.step, Spec.at_, Spec.dst, Spec.get]

example : run sample ⟨[0, 0, 0, 0], 0, []⟩ = some (⟨[5, 9, 5, 0], 2, [1]⟩,
    [.none, .none, .none, .none, .none, .val 9, .none, .val 5, .none, .bool false]) := by decide +kernel

/-- **Violation.**  `v[i] = v[j]`, `v.front() = v.back()` and the like change nothing at all: whatever the vector holds,
wherever the expressions point. -/
theorem accessor_assign_noop {cap : Nat} {s : St α} {a : Spec.St α} (h : Rep cap s a) (d e : Src) (hv : ∀ k, d ≠ .var k)
    (hl : Spec.legal cap a (.assign (.src d) e)) :
    (Op.assign (.src d) e).step s = some (s, .none) := by
  obtain ⟨⟨i, hi, hil⟩, ⟨j, hj, hjl⟩⟩ := hl
  obtain ⟨e1, -, -⟩ := rep_ptr h d i hi hil
  obtain ⟨e2, -, -⟩ := rep_ptr h e j hj hjl
  cases d with
  | var k => exact absurd rfl (hv k)
  | elem _ | front | back => simp [Op.step, assignFrom, e1, e2]

/-- **Violation.**  So it is wrong exactly when the two elements differ. -/
theorem accessor_assign_wrong_iff {cap : Nat} {s : St α} {a : Spec.St α} (h : Rep cap s a) (i j : Nat)
    (hi : i < a.elems.length) (hj : j < a.elems.length) :
    ∃ s' a', (Op.assign (.src (.elem i)) (.elem j)).step s = some (s', .none) ∧
      Spec.step a (.assign (.src (.elem i)) (.elem j)) = some (a', .none) ∧
      (s'.mem.take s'.n = a'.elems ↔ a.elems[i] = a.elems[j]) := by
  refine ⟨s, ⟨a.elems.set i a.elems[j], a.vars⟩, ?_, ?_, ?_⟩
  · exact accessor_assign_noop h _ _ (by simp) ⟨⟨i, rfl, hi⟩, ⟨j, rfl, hj⟩⟩
  · simp [Spec.step, Spec.dst, Spec.at_, Spec.get, hj]
  · rw [← h.2.2.1]
    constructor
    · intro he
      have := congrArg (·[i]?) he
      simpa [hi] using this
    · intro he
      rw [← he]; simp

/-- **Violation.**  Assigning to an accessor variable changes no element; it makes the variable stand for the other
element, so that a value assigned later ends up there. -/
theorem accessor_variable_rebinds {cap : Nat} {s : St α} {a : Spec.St α} (h : Rep cap s a) (k i j : Nat) (x : α)
    (hk : a.vars[k]? = some i) (hi : i < a.elems.length) (hj : j < a.elems.length) :
    ∃ s1 s2, (Op.assign (.src (.var k)) (.elem j)).step s = some (s1, .none) ∧ s1.mem = s.mem ∧
      (Op.store (.src (.var k)) x).step s1 = some (s2, .none) ∧
      s2.mem.take s2.n = a.elems.set j x ∧ (i ≠ j → s2.mem[i]? = a.elems[i]?) := by
  obtain ⟨p1, -, -⟩ := rep_ptr h (.elem j) j rfl hj
  obtain ⟨h1, h2, h3, h4⟩ := h
  have hlen : a.elems.length = s.n := by rw [h3]; simp; omega
  have hka : s.accs[k]? = some i := by rw [← h4]; exact hk
  have hkl := (List.getElem?_eq_some_iff.mp hka).1
  have hjm : j < s.mem.length := by omega
  refine ⟨{ s with accs := s.accs.set k j }, { s with mem := s.mem.set j x, accs := s.accs.set k j }, ?_, rfl, ?_, ?_, ?_⟩
  · simp [Op.step, assignFrom, p1, hka]
  · simp [Op.step, storeAt, Dst.ptr, Src.ptr, hkl, wr_lt hjm]
  · simp only [h3, List.take_set]
  · intro hij
    simp only
    rw [List.getElem?_set_ne (Ne.symm hij), h3, List.getElem?_take_of_lt (by omega)]

example : run [Op.push 1, .push 2, .assign (.src (.elem 0)) (.elem 1), .load (.elem 0)] ⟨[0, 0], 0, []⟩ =
    some (⟨[1, 2], 2, []⟩, [.none, .none, .none, .val 1]) := by decide +kernel

/-! ## Memory that moves -/

omit [DecidableEq α]

/-- the contents of the blocks, without regard to where they are -/
def contents (m : Heap α) : List (List α) := m.map (·.cells)

/-- Nothing is locked. -/
def Unlocked (m : Heap α) : Prop := ∀ b ∈ m, b.locks = 0

/-- the cell an accessor stands for -/
def Spec.cell (c : List (List α)) (a : HO) : Option α := (c[a.handle]?).bind fun b => b[a.offset]?

/-- the contents with the cell changed -/
def Spec.put (c : List (List α)) (a : HO) (x : α) : List (List α) :=
  c.modify a.handle fun b => b.set a.offset x

/-- what a statement should do to the contents -/
def Spec.hStep (c : List (List α)) (vars : List HO) : HOp α → Option ((List (List α) × List HO) × Out α)
  | .store k x => (vars[k]?).map fun a => ((Spec.put c a x, vars), .none)
  | .load k => (vars[k]?).bind fun a => (Spec.cell c a).map fun x => ((c, vars), .val x)
  | .test k p => (vars[k]?).bind fun a => (Spec.cell c a).map fun x => ((c, vars), .bool (p x))
  | .swap k j => (vars[k]?).bind fun a => (vars[j]?).bind fun b => (Spec.cell c a).bind fun x => (Spec.cell c b).map fun y =>
      ((Spec.put (Spec.put c a y) b x, vars), .none)
  | .copy k => (vars[k]?).map fun a => ((c, vars ++ [a]), .none)
  | .move k d => (vars[k]?).map fun a => ((c, vars.set k ⟨a.handle, a.offset + d⟩), .none)
  | .compact => some ((c, vars), .none)

/-- the variables a statement uses exist and, unless it only copies or moves them, stand for existing cells -/
def Spec.hLegal (c : List (List α)) (vars : List HO) : HOp α → Prop
  | .store k _ | .load k | .test k _ => ∃ a, vars[k]? = some a ∧ (Spec.cell c a).isSome
  | .swap k j => (∃ a, vars[k]? = some a ∧ (Spec.cell c a).isSome) ∧ ∃ b, vars[j]? = some b ∧ (Spec.cell c b).isSome
  | .copy k | .move k _ => (vars[k]?).isSome
  | .compact => True

/-- a program and its results -/
def Spec.hRun : List (HOp α) → List (List α) → List HO → Option ((List (List α) × List HO) × List (Out α))
  | [], c, vars => some ((c, vars), [])
  | o :: ops, c, vars =>
    match Spec.hStep c vars o with
    | none => none
    | some ((c', vars'), r) => (Spec.hRun ops c' vars').map fun q => (q.1, r :: q.2)

/-- a legal program -/
def Spec.HLegal : List (HOp α) → List (List α) → List HO → Prop
  | [], _, _ => True
  | o :: ops, c, vars => Spec.hLegal c vars o ∧ ∀ c' vars' r, Spec.hStep c vars o = some ((c', vars'), r) → Spec.HLegal ops c' vars'

theorem cell_some {m : Heap α} {a : HO} (h : (Spec.cell (contents m) a).isSome) :
    ∃ b x, m[a.handle]? = some b ∧ b.cells[a.offset]? = some x ∧ Spec.cell (contents m) a = some x := by
  unfold Spec.cell contents at *
  rw [List.getElem?_map] at *
  cases hb : m[a.handle]? with
  | none => simp [hb] at h
  | some b =>
    simp only [hb, Option.map_some, Option.bind_some] at h ⊢
    obtain ⟨x, hx⟩ := Option.isSome_iff_exists.mp h
    exact ⟨b, x, rfl, hx, hx⟩

theorem set_set_self {β : Type v} (l : List β) (i : Nat) (x y : β) : (l.set i x).set i y = l.set i y := by
  simp

theorem set_get_self {β : Type v} {l : List β} {i : Nat} {x : β} (h : l[i]? = some x) : l.set i x = l := by
  obtain ⟨hi, rfl⟩ := List.getElem?_eq_some_iff.mp h
  simp

/-- reading through an accessor: the cell's value; the memory is left exactly as it was -/
theorem hRead_eq {m : Heap α} {a : HO} {b : Block α} {x : α} (hb : m[a.handle]? = some b) (hx : b.cells[a.offset]? = some x) :
    hRead m a = some (m, x) := by
  have hl := (List.getElem?_eq_some_iff.mp hb).1
  have hself := set_get_self hb
  unfold hRead Heap.lock
  rw [hb]
  simp only [Heap.deref, List.getElem?_set_self hl, if_true, rd, hx, Heap.unlock, set_set_self]
  rw [if_neg (by omega)]
  simp [hself]

theorem hTest_eq {m : Heap α} {a : HO} {b : Block α} {x : α} (hb : m[a.handle]? = some b) (hx : b.cells[a.offset]? = some x)
    (p : α → Bool) : hTest m a p = some (m, p x) := by
  have hl := (List.getElem?_eq_some_iff.mp hb).1
  have hself := set_get_self hb
  unfold hTest Heap.lock
  rw [hb]
  simp only [Heap.deref, List.getElem?_set_self hl, if_true, rd, hx, Heap.unlock, set_set_self]
  rw [if_neg (by omega)]
  simp [hself]

theorem hStore_eq {m : Heap α} {a : HO} {b : Block α} {x : α} (hb : m[a.handle]? = some b) (hx : b.cells[a.offset]? = some x)
    (y : α) : hStore m a y = some (m.set a.handle { b with cells := b.cells.set a.offset y }) := by
  have hl := (List.getElem?_eq_some_iff.mp hb).1
  have ho := (List.getElem?_eq_some_iff.mp hx).1
  unfold hStore Heap.lock
  rw [hb]
  simp only [Heap.write, List.getElem?_set_self hl, if_true, wr_lt ho, Option.map_some, Heap.unlock, set_set_self]
  rw [if_neg (by omega)]
  simp

theorem contents_set {m : Heap α} {a : HO} {b : Block α} (hb : m[a.handle]? = some b) (y : α) :
    contents (m.set a.handle { b with cells := b.cells.set a.offset y }) = Spec.put (contents m) a y := by
  obtain ⟨hl, hb'⟩ := List.getElem?_eq_some_iff.mp hb
  unfold contents Spec.put
  apply List.ext_getElem?
  intro i
  rw [List.map_set, List.getElem?_set, List.getElem?_modify, List.getElem?_map]
  split
  · rename_i he
    subst he
    simp [hl, hb']
  · simp

theorem unlocked_set {m : Heap α} (h : Unlocked m) {i : Nat} {b : Block α} (hb : b.locks = 0) : Unlocked (m.set i b) := by
  intro c hc
  rcases List.mem_or_eq_of_mem_set hc with h1 | h1
  · exact h c h1
  · rw [h1]; exact hb

theorem compact_unlocked {m : Heap α} (h : Unlocked m) : Unlocked m.compact ∧ contents m.compact = contents m := by
  constructor
  · intro b hb
    obtain ⟨c, hc, rfl⟩ := List.mem_map.mp hb
    have := h c hc
    simp [this]
  · unfold contents Heap.compact
    rw [List.map_map]
    apply List.map_congr_left
    intro b _
    simp only [Function.comp]
    split <;> rfl

theorem lock_swap_locks {m : Heap α} {a b : HO} {p q : Block α} {x y : α} (hp : m[a.handle]? = some p)
    (hx : p.cells[a.offset]? = some x) (hq : m[b.handle]? = some q) (hy : q.cells[b.offset]? = some y) :
    hSwap m a b =
      (hStore m a y).bind fun m' => hStore m' b x := by
  have hl := (List.getElem?_eq_some_iff.mp hp).1
  have hl' := (List.getElem?_eq_some_iff.mp hq).1
  have ho := (List.getElem?_eq_some_iff.mp hx).1
  have ho' := (List.getElem?_eq_some_iff.mp hy).1
  by_cases hab : a.handle = b.handle
  · have hpq : p = q := by rw [hab, hq] at hp; exact (Option.some.inj hp).symm
    subst hpq
    rw [hStore_eq hp hx]
    simp only [Option.bind_some]
    have hgy : ∃ z, (p.cells.set a.offset y)[b.offset]? = some z := by
      refine ⟨(p.cells.set a.offset y)[b.offset]'(by simpa using ho'), by simp [ho']⟩
    obtain ⟨z, hz⟩ := hgy
    rw [hStore_eq (b := { p with cells := p.cells.set a.offset y }) (by rw [← hab, List.getElem?_set_self hl]) hz]
    rw [← hab] at hl' ⊢
    unfold hSwap
    simp only [Heap.lock, hp, ← hab, List.getElem?_set_self hl, Heap.deref, if_true, rd, hx, hy, Heap.write, wr_lt ho,
      Option.map_some, set_set_self, wr_lt (show b.offset < (p.cells.set a.offset y).length by simpa using ho'), Heap.unlock]
    simp [List.getElem?_set_self hl]
  · have hba : ¬ b.handle = a.handle := fun h => hab h.symm
    rw [hStore_eq hp hx]
    simp only [Option.bind_some]
    rw [hStore_eq (b := q) (by rw [List.getElem?_set_ne hab]; exact hq) hy]
    unfold hSwap
    simp only [Heap.lock, hp, List.getElem?_set_ne hab, hq, Heap.deref, if_true, rd, hx, hy, Heap.write, wr_lt ho,
      Option.map_some, Heap.unlock, List.getElem?_set_ne hba, List.getElem?_set_self, List.length_set, hl, hl', wr_lt ho']
    simp only [Nat.add_sub_cancel, Nat.add_eq_zero_iff, Nat.one_ne_zero, and_false, if_false, List.getElem?_set_ne hab,
      List.getElem?_set_self, List.length_set, hl', Option.some.injEq]
    apply List.ext_getElem?
    intro i
    simp only [List.getElem?_set, List.length_set]
    repeat' split
    all_goals simp_all

theorem hStep_refines {m : Heap α} {vars : List HO} (hu : Unlocked m) (o : HOp α) (hl : Spec.hLegal (contents m) vars o) :
    ∃ m' vars' r, o.step m vars = some ((m', vars'), r) ∧ Unlocked m' ∧
      Spec.hStep (contents m) vars o = some ((contents m', vars'), r) := by
  have hst : ∀ (m : Heap α) (a : HO) (x : α), Unlocked m → (Spec.cell (contents m) a).isSome →
      ∃ m', hStore m a x = some m' ∧ Unlocked m' ∧ contents m' = Spec.put (contents m) a x := by
    intro m a x hu hc
    obtain ⟨b, y, hb, hy, -⟩ := cell_some hc
    exact ⟨_, hStore_eq hb hy x, unlocked_set hu (hu b (List.mem_of_getElem? hb)), contents_set hb x⟩
  cases o with
  | store k x =>
    obtain ⟨a, ha, hc⟩ := hl
    obtain ⟨m', e1, e2, e3⟩ := hst m a x hu hc
    exact ⟨m', vars, .none, by simp [HOp.step, ha, e1], e2, by simp [Spec.hStep, ha, e3]⟩
  | load k =>
    obtain ⟨a, ha, hc⟩ := hl
    obtain ⟨b, x, hb, hx, hs⟩ := cell_some hc
    exact ⟨m, vars, .val x, by simp [HOp.step, ha, hRead_eq hb hx], hu, by simp [Spec.hStep, ha, hs]⟩
  | test k p =>
    obtain ⟨a, ha, hc⟩ := hl
    obtain ⟨b, x, hb, hx, hs⟩ := cell_some hc
    exact ⟨m, vars, .bool (p x), by simp [HOp.step, ha, hTest_eq hb hx], hu, by simp [Spec.hStep, ha, hs]⟩
  | swap k j =>
    obtain ⟨⟨a, ha, hc⟩, ⟨b, hb, hd⟩⟩ := hl
    obtain ⟨p, x, hp, hx, hs⟩ := cell_some hc
    obtain ⟨q, y, hq, hy, ht⟩ := cell_some hd
    obtain ⟨m1, e1, e2, e3⟩ := hst m a y hu hc
    have hd' : (Spec.cell (contents m1) b).isSome := by
      rw [e3]
      unfold Spec.cell Spec.put at *
      rw [List.getElem?_modify]
      cases hcc : (contents m)[b.handle]? with
      | none => simp [hcc] at hd
      | some l =>
        simp only [hcc, Option.bind_some] at hd
        split
        · simp at hd ⊢; exact hd
        · simpa using hd
    obtain ⟨m2, f1, f2, f3⟩ := hst m1 b x e2 hd'
    refine ⟨m2, vars, .none, ?_, f2, ?_⟩
    · simp only [HOp.step, ha, hb, lock_swap_locks hp hx hq hy, e1, Option.bind_some, f1, Option.map_some]
    · simp [Spec.hStep, ha, hb, hs, ht, f3, e3]
  | copy k =>
    obtain ⟨a, ha⟩ := Option.isSome_iff_exists.mp hl
    exact ⟨m, _, .none, by simp only [HOp.step, ha]; rfl, hu, by simp [Spec.hStep, ha]⟩
  | move k d =>
    obtain ⟨a, ha⟩ := Option.isSome_iff_exists.mp hl
    exact ⟨m, _, .none, by simp only [HOp.step, ha]; rfl, hu, by simp [Spec.hStep, ha]⟩
  | compact =>
    have := compact_unlocked hu
    exact ⟨_, vars, .none, rfl, this.1, by simp [Spec.hStep, this.2]⟩

/-- C71: accessors of memory that may move between statements.  Every legal program is defined, reads what was stored,
changes only the cells its accessors stand for, and leaves nothing locked — wherever the allocator compacts. -/
theorem locking_history (ops : List (HOp α)) {m : Heap α} {vars : List HO} (hu : Unlocked m)
    (hl : Spec.HLegal ops (contents m) vars) :
    ∃ m' vars' out, hRun ops m vars = some ((m', vars'), out) ∧ Unlocked m' ∧
      Spec.hRun ops (contents m) vars = some ((contents m', vars'), out) := by
  induction ops generalizing m vars with
  | nil => exact ⟨m, vars, [], rfl, hu, rfl⟩
  | cons o ops ih =>
    obtain ⟨m1, v1, r, e1, e2, e3⟩ := hStep_refines hu o hl.1
    obtain ⟨m', v', out, f1, f2, f3⟩ := ih e2 (hl.2 _ _ _ e3)
    exact ⟨m', v', r :: out, by simp [hRun, e1, f1], f2, by simp [Spec.hRun, e3, f3]⟩

example : Unlocked [⟨[1, 2, 3], 0, 0⟩, ⟨[7], 0, 4⟩] ∧
    Spec.HLegal [.store 0 9, .compact, .copy 0, .swap 1 2, .load 0] (contents [⟨[1, 2, 3], 0, 0⟩, ⟨[7], 0, 4⟩])
      [⟨0, 1⟩, ⟨1, 0⟩] := by
  refine ⟨by simp [Unlocked], ?_⟩
  simp [Spec.HLegal, Spec.hLegal, Spec.hStep, contents, Spec.cell, Spec.put]

example : (hRun [.store 0 9, .compact, .copy 0, .swap 1 2, .load 0] [⟨[1, 2, 3], 0, 0⟩, ⟨[7], 0, 4⟩] [⟨0, 1⟩, ⟨1, 0⟩]) =
    some (([⟨[1, 7, 3], 0, 1⟩, ⟨[9], 0, 5⟩], [⟨0, 1⟩, ⟨1, 0⟩, ⟨0, 1⟩]), [.none, .none, .none, .none, .val 7]) := by rfl

/-- **Violation.**  When the memory is only said to be pinned but moves, the reference an accessor converts to is dead as
soon as the allocator compacts. -/
theorem pinned_reference_dies {m : Heap α} {a : HO} (hu : Unlocked m) (hc : (Spec.cell (contents m) a).isSome) :
    ∃ r x, hPinned m a = some (m, r) ∧ m.deref r = some x ∧ Spec.cell (contents m) a = some x ∧ m.compact.deref r = none := by
  obtain ⟨b, x, hb, hx, hs⟩ := cell_some hc
  have hl := (List.getElem?_eq_some_iff.mp hb).1
  refine ⟨⟨a.handle, a.offset, b.epoch⟩, x, ?_, by simp [Heap.deref, hb, rd, hx], hs, ?_⟩
  · unfold hPinned Heap.lock
    rw [hb]
    simp only [Heap.unlock, List.getElem?_set_self hl, set_set_self]
    rw [if_neg (by omega)]
    simp [set_get_self hb]
  · unfold Heap.deref Heap.compact
    rw [List.getElem?_map, hb]
    have := hu b (List.mem_of_getElem? hb)
    simp [this]

/-- **Violation.**  A `stateful_locking_accessor` leaves the block locked once for every conversion to a reference, even after
its destruction; the block can then never move again. -/
theorem locking_accessor_leaks (a : HO) (ops : List LOp) : ∀ {m : Heap α} {b : Block α} {x : α}, m[a.handle]? = some b →
    b.cells[a.offset]? = some x →
    lockingLife a ops m = some (m.set a.handle { b with locks := b.locks + ops.count .ref }) := by
  induction ops with
  | nil =>
    intro m b x hb _
    simp [lockingLife, set_get_self hb]
  | cons o ops ih =>
    intro m b x hb hx
    have hl := (List.getElem?_eq_some_iff.mp hb).1
    cases o with
    | ref =>
      simp only [lockingLife, Heap.lock, hb]
      rw [ih (b := { b with locks := b.locks + 1 }) (List.getElem?_set_self hl) hx, set_set_self, List.count_cons_self]
      simp only [Nat.add_assoc, Nat.add_comm 1]
    | val =>
      simp only [lockingLife, hRead_eq hb hx]
      rw [ih hb hx, List.count_cons_of_ne (by decide)]

example : lockingLife ⟨0, 1⟩ [.ref, .val, .ref] [⟨[1, 2], 0, 0⟩] = some [⟨[1, 2], 2, 0⟩] := by rfl

/-! ## Offsets -/

/-- Offsets behave as numbers as long as they stay below the range of their type: moving forward and back returns to the
start, and the difference of two offsets of a type narrower than `int` is exact in both directions. -/
theorem offset_arithmetic_partial {w : Nat} (o n : BitVec w) :
    offSub (offAdd o n) n = o ∧ (o.toNat + n.toNat < 2 ^ w → (offAdd o n).toNat = o.toNat + n.toNat) ∧
      (w < 32 → (offDiff o n).toInt = (o.toNat : Int) - n.toNat) ∧
      (w ≤ 63 → n.toNat ≤ o.toNat → (offDiff o n).toInt = (o.toNat : Int) - n.toNat) := by
  refine ⟨by unfold offSub offAdd; exact BitVec.add_sub_cancel o n, fun h => by simp [offAdd, BitVec.toNat_add, Nat.mod_eq_of_lt h], ?_, ?_⟩
  · intro hw
    unfold offDiff
    rw [if_pos hw]
    have h31 : 2 ^ w ≤ 2 ^ 31 := Nat.pow_le_pow_right (by omega) (by omega)
    have h1 := o.isLt
    have h2 := n.isLt
    rw [BitVec.toInt_signExtend_of_le (by omega), BitVec.toInt_sub, BitVec.toInt_eq_toNat_cond, BitVec.toInt_eq_toNat_cond]
    simp only [BitVec.toNat_setWidth]
    have e1 : o.toNat % 2 ^ 32 = o.toNat := Nat.mod_eq_of_lt (by omega)
    have e2 : n.toNat % 2 ^ 32 = n.toNat := Nat.mod_eq_of_lt (by omega)
    rw [e1, e2, if_pos (by omega), if_pos (by omega), Int.bmod_def]
    omega
  · intro hw hle
    have h63 : 2 ^ w ≤ 2 ^ 63 := Nat.pow_le_pow_right (by omega) hw
    have h1 := o.isLt
    have h2 := n.isLt
    unfold offDiff
    split
    · rename_i hw'
      have h31 : 2 ^ w ≤ 2 ^ 31 := Nat.pow_le_pow_right (by omega) (by omega)
      rw [BitVec.toInt_signExtend_of_le (by omega), BitVec.toInt_sub, BitVec.toInt_eq_toNat_cond, BitVec.toInt_eq_toNat_cond]
      simp only [BitVec.toNat_setWidth]
      have e1 : o.toNat % 2 ^ 32 = o.toNat := Nat.mod_eq_of_lt (by omega)
      have e2 : n.toNat % 2 ^ 32 = n.toNat := Nat.mod_eq_of_lt (by omega)
      rw [e1, e2, if_pos (by omega), if_pos (by omega), Int.bmod_def]
      omega
    · have e : (o - n).toNat = o.toNat - n.toNat := by
        rw [BitVec.toNat_sub_of_le (by simpa [BitVec.le_def] using hle)]
      rw [BitVec.toInt_eq_toNat_cond, BitVec.toNat_setWidth, e, Nat.mod_eq_of_lt (by omega), if_pos (by omega)]
      omega

/-- **Violation.**  For a 32 bit `size_type` on a platform with 64 bit differences, a difference that should be negative is
instead too large by 2^32. -/
theorem offset_difference_wrong (a b : BitVec 32) (h : a.toNat < b.toNat) :
    (offDiff a b).toInt = (a.toNat : Int) - b.toNat + 2 ^ 32 := by
  have h1 := a.isLt
  have h2 := b.isLt
  unfold offDiff
  rw [if_neg (by omega), BitVec.toInt_eq_toNat_cond, BitVec.toNat_setWidth, BitVec.toNat_sub]
  have e : (2 ^ 32 - b.toNat + a.toNat) % 2 ^ 32 = 2 ^ 32 - b.toNat + a.toNat := Nat.mod_eq_of_lt (by omega)
  rw [e, Nat.mod_eq_of_lt (by omega), if_pos (by omega)]
  omega

example : (offDiff (3 : BitVec 32) 5).toInt = 4294967294 := by decide +kernel
example : (offDiff (3 : BitVec 8) 5).toInt = -2 := by decide +kernel

/-- The comparisons order offsets as numbers. -/
theorem offset_comparisons {w : Nat} (a b : BitVec w) :
    (offLt a b = true ↔ a.toNat < b.toNat) ∧ (offGt a b = true ↔ b.toNat < a.toNat) ∧
      (offGe a b = true ↔ b.toNat ≤ a.toNat) ∧ (offEq a b = true ↔ a.toNat = b.toNat) := by
  simp [offLt, offGt, offGe, offEq, BitVec.lt_def, BitVec.le_def, BitVec.toNat_inj]

/-- Handles with offsets are equal exactly when they stand for the same cell.  (`>=` looks at the offset only, so two unequal
ones can be `>=` each other.) -/
theorem handle_eq_iff (a b : HO) : (hoEq a b = true ↔ a = b) ∧
    (a.handle ≠ b.handle → a.offset = b.offset → hoGe a b = true ∧ hoGe b a = true ∧ hoEq a b = false) := by
  obtain ⟨h1, o1⟩ := a
  obtain ⟨h2, o2⟩ := b
  refine ⟨by simp [hoEq], ?_⟩
  intro hh ho
  simp only at hh ho
  subst ho
  simp [hoGe, hoEq, hh]

end Verif.Accessor
