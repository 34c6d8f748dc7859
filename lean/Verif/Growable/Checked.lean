import Verif.Growable.More
import Verif.DynArray.Options

/-!
# Growable vectors with bounds checks compiled in

`src/estd/internal/dynamic_array.h` built with `FEATURE_ESTD_DYNAMIC_ARRAY_BOUNDS_CHECK = 1` and
`FEATURE_ESTD_DYNAMIC_ARRAY_APPEND_TRUNC = 0` (internal/feature/dynamic_array.h:10-24), over an allocator that can
reallocate (see `Verif.Growable.Model` for the allocator and its simplifications).  `append` and `push_back` then
answer with `expected<size_type, size_type>`: `DynArray.Answer`.
-/
namespace Verif.Growable

open Verif.DynArray (Res Answer)

variable {α : Type} [DecidableEq α]

/-- `grow(k)`, dynamic_array.h:422-439 with 157-179: the new state, the size before and the answer.  On refusal
the increase is `size() - starting_size` in `size_type` arithmetic (modulo `M`). -/
def growC (M esz : Nat) (s : St α) (k : Nat) : Res (St α × Nat × Answer) :=
  (ensureTotalCapacity s (size s + k) (pad esz)).bind fun p =>
    if p.2 then .ok (setSize p.1 (size s + k), size s, .ok k)
    else
      let d := (size p.1 + M - size s) % M
      .ok (setSize p.1 ((size s + d) % M), size s, .error d)

/-- `append(buf, len)`, dynamic_array.h:457-485, and `push_back(const T&)`, 605-608. -/
def appendC (M esz : Nat) (s : St α) (src : List α) : Res (St α × Answer) :=
  (growC M esz s src.length).bind fun p =>
    match p.2.2 with
    | .error _ => .ok (p.1, .error 0)
    | .ok _ => (putAll p.1 p.2.1 (src.map some)).bind fun s' => .ok (s', .ok src.length)

/-- `push_back(T&&)`, dynamic_array.h:610-629: on success it returns `append_result()`, an `expected` holding a
value-initialised count (expected.h:89-91, internal/expected.h:123-124). -/
def pushMoveC (M esz : Nat) (s : St α) (v : α) : Res (St α × Answer) :=
  (growC M esz s 1).bind fun p =>
    match p.2.2 with
    | .error _ => .ok (p.1, .error 0)
    | .ok _ => (putAll p.1 p.2.1 [some v]).bind fun s' => .ok (s', .ok 0)

/-- `append(other)`, dynamic_array.h:579-583 with specializer.h:123-141: the answer of `grow` is not looked at, and
`{}` is returned.  `src` is what the other array holds. -/
def appendArrayC (M esz : Nat) (s : St α) (src : List α) : Res (St α × Answer) :=
  (growC M esz s src.length).bind fun p =>
    (putAll p.1 p.2.1 (src.map some)).bind fun s' => .ok (s', .ok 0)

/-- `emplace_back(v)`, dynamic_array.h:659-681: the answer of `grow` is not looked at. -/
def emplaceC (M esz : Nat) (s : St α) (v : α) : Res (St α) :=
  (growC M esz s 1).bind fun p => putAll p.1 p.2.1 [some v]

/-- `insert(pos, value&&)`, dynamic_array.h:693-698, 278-300: the answer of `grow` is not looked at. -/
def insertC (M esz : Nat) (s : St α) (pos : Nat) (v : α) : Res (St α) :=
  (growC M esz s 1).bind fun p =>
    (Res.ofOption (cells p.1)).bind fun c =>
      (Res.ofOption (Algorithm.copyBackward c pos p.2.1 (p.2.1 + 1))).bind fun q =>
        (Res.ofOption (wr q.1 pos (some v))).bind fun c' => .ok (store p.1 c')

/-- The edits a program makes that checks what it is told. -/
inductive COp (α : Type) where
  | pushBack (v : α)
  | append (src : List α)
  | popBack
  | truncate (n : Nat)
  | clear
  deriving DecidableEq, Repr

/-- What each does to the sequence of values. -/
def COp.spec : COp α → List α → List α
  | .pushBack v, l => l ++ [v]
  | .append src, l => l ++ src
  | .popBack, l => l.dropLast
  | .truncate n, l => l.take n
  | .clear, _ => []

/-- What each should answer (`none`: nothing). -/
def COp.answer : COp α → Option Nat
  | .pushBack _ => some 1
  | .append src => some src.length
  | _ => none

/-- The standard's preconditions. -/
def COp.Pre : COp α → List α → Prop
  | .popBack, l => l ≠ []
  | .truncate n, l => n ≤ l.length
  | _, _ => True

/-- Every operation of the history meets its precondition. -/
def CLegal (l : List α) : List (COp α) → Prop
  | [] => True
  | o :: r => o.Pre l ∧ CLegal (o.spec l) r

/-- The sequence after a history. -/
def cspecAll (l : List α) : List (COp α) → List α
  | [] => l
  | o :: r => cspecAll (o.spec l) r

/-- Running one of them: the state and what the caller was told. -/
def COp.run (M esz : Nat) (s : St α) : COp α → Res (St α × Option (Answer))
  | .pushBack v => (appendC M esz s [v]).bind fun p => .ok (p.1, some p.2)
  | .append src => (appendC M esz s src).bind fun p => .ok (p.1, some p.2)
  | .popBack => (Growable.popBack s).bind fun s' => .ok (s', none)
  | .truncate n => (resize s n).bind fun p => .ok (p.1, none)
  | .clear => (Growable.clear s).bind fun s' => .ok (s', none)

/-- A program that carries out `ops` and stops when it is told that something failed: the state, the answers it
got, and whether it got to the end. -/
def runC (M esz : Nat) (s : St α) : List (COp α) → Res (St α × List (Option (Answer)) × Bool)
  | [] => .ok (s, [], true)
  | o :: r =>
    (o.run M esz s).bind fun p =>
      match p.2 with
      | some (.error n) => .ok (p.1, [some (.error n)], false)
      | x => (runC M esz p.1 r).bind fun q => .ok (q.1, x :: q.2.1, q.2.2)

/-! ## Proofs -/

/-- The vector holds `l`, whatever its allocator will do next. -/
structure Inv (s : St α) (l : List α) : Prop where
  cs : ∃ c, cells s = some c ∧ c.length = s.vec.cap ∧ ∀ i, i < l.length → c[i]? = some l[i]?
  used : s.vec.used = l.length
  fits : l.length ≤ s.vec.cap

theorem Inv.size_eq {s : St α} {l : List α} (h : Inv s l) : size s = l.length := by
  unfold size
  split
  · rename_i hn
    obtain ⟨c, e1, e2, _⟩ := h.cs
    rw [cells_none hn] at e1
    have := h.fits
    simp only [Option.some.injEq] at e1
    subst e1
    simp only [List.length_nil] at e2
    omega
  · exact h.used

theorem Inv.holds {s : St α} {l : List α} (h : Inv s l) : Holds s l := by
  refine ⟨h.size_eq, ?_, h.fits, ?_⟩
  · simp [empty, h.used]
  · intro i hi
    obtain ⟨c, e1, e2, e3⟩ := h.cs
    have := e3 i hi
    simp only [index, e1, DynArray.Res.ofOption_some, DynArray.Res.bind_ok, rd, this]
    simp [hi]

theorem fresh_inv (h : Heap α) : Inv (fresh h) [] :=
  ⟨⟨[], by simp [fresh, cells], by simp [fresh], by simp⟩, by simp [fresh], by simp [fresh]⟩

/-- Whatever the allocator answers, `reserve` either grows the vector or loses its block. -/
theorem reserve_inv {s : St α} {l : List α} (h : Inv s l) (n : Nat) (hn : l.length ≤ n) :
    (∃ s', reserve s n = .ok (s', true) ∧ Inv s' l ∧ s'.vec.cap = n) ∨
    (∃ s', reserve s n = .ok (s', false) ∧ s'.vec.handle = none ∧ s'.vec.cap = n ∧ s'.vec.used = s.vec.used ∧
      s'.heap.blocks = s.heap.blocks) := by
  obtain ⟨c, e1, e2, e3⟩ := h.cs
  cases hh : s.vec.handle with
  | none =>
    have hl : l = [] := by
      rw [cells_none hh] at e1
      simp only [Option.some.injEq] at e1; subst e1
      simp only [List.length_nil] at e2
      have := h.fits
      exact List.length_eq_zero_iff.mp (by omega)
    subst hl
    by_cases hp : ∃ r, s.heap.plan = false :: r
    · right
      obtain ⟨r, hr⟩ := hp
      exact ⟨⟨{ s.heap with plan := r, calls := s.heap.calls + 1 }, { s.vec with cap := n, handle := none }⟩,
        by simp only [reserve, hh, Heap.allocate, hr]; rfl, rfl, rfl, rfl, rfl⟩
    · left
      have ha : s.heap.allocate n = ({ s.heap with plan := s.heap.plan.tail, calls := s.heap.calls + 1, blocks := s.heap.blocks ++ [some (List.replicate n none)] }, some s.heap.blocks.length) := by
        unfold Heap.allocate
        split
        · rename_i r hr; exact absurd ⟨r, hr⟩ hp
        · rfl
      simp only [reserve, hh, ha, Option.isSome_some]
      refine ⟨_, rfl, ⟨⟨List.replicate n none, ?_, by simp, by simp⟩, ?_, by simp⟩, rfl⟩
      · simp [cells]
      · simpa using h.used
  | some b =>
    have hb := cells_some hh e1
    by_cases hp : ∃ r, s.heap.plan = false :: r
    · right
      obtain ⟨r, hr⟩ := hp
      exact ⟨⟨{ s.heap with plan := r, calls := s.heap.calls + 1 }, { s.vec with cap := n, handle := none }⟩,
        by simp only [reserve, hh, Heap.reallocate, hb, hr]; rfl, rfl, rfl, rfl, rfl⟩
    · left
      have ha : s.heap.reallocate b n = .ok ({ s.heap with plan := s.heap.plan.tail, calls := s.heap.calls + 1, moved := s.heap.moved + min n c.length, blocks := s.heap.blocks.set b none ++ [some (c.take n ++ List.replicate (n - c.length) none)] }, some s.heap.blocks.length) := by
        unfold Heap.reallocate
        rw [hb]
        simp only
        split
        · rename_i r hr; exact absurd ⟨r, hr⟩ hp
        · rfl
      simp only [reserve, hh, ha, DynArray.Res.bind_ok, Option.isSome_some]
      refine ⟨_, rfl, ⟨⟨c.take n ++ List.replicate (n - c.length) none, ?_, by simp; omega, ?_⟩, h.used, hn⟩, rfl⟩
      · simp [cells]
      · intro i hi
        have := h.fits
        rw [List.getElem?_append_left (by simp; omega), List.getElem?_take_of_lt (by omega), e3 i hi]

theorem ensure_inv {s : St α} {l : List α} (h : Inv s l) (n k : Nat) (hn : l.length ≤ n) :
    (∃ s', ensureTotalCapacity s n k = .ok (s', true) ∧ Inv s' l ∧ n ≤ s'.vec.cap) ∨
    (s.vec.cap < n ∧ ∃ s', ensureTotalCapacity s n k = .ok (s', false) ∧ s'.vec.handle = none ∧
      s'.vec.cap = n + k ∧ s'.heap.blocks = s.heap.blocks) := by
  unfold ensureTotalCapacity
  split
  · rename_i hc
    rcases reserve_inv h (n + k) (by omega) with ⟨s', e1, e2, e3⟩ | ⟨s', e1, e2, e3, _, e4⟩
    · exact .inl ⟨s', e1, e2, by omega⟩
    · exact .inr ⟨hc, s', e1, e2, e3, e4⟩
  · exact .inl ⟨s, rfl, h, by omega⟩

theorem setSize_inv {s : St α} {l : List α} (h : Inv s l) (n : Nat) (hn : n ≤ l.length) :
    Inv (setSize s n) (l.take n) := by
  obtain ⟨c, e1, e2, e3⟩ := h.cs
  have := h.fits
  refine ⟨⟨c, e1, e2, ?_⟩, ?_, ?_⟩
  · intro i hi
    simp only [List.length_take] at hi
    rw [e3 i (by omega), List.getElem?_take_of_lt (by omega)]
  · simp [setSize]; omega
  · simp [setSize]; omega

theorem put_inv {s : St α} {l : List α} (h : Inv s l) (src : List α) (hf : l.length + src.length ≤ s.vec.cap) :
    ∃ s', putAll (setSize s (l.length + src.length)) l.length (src.map some) = .ok s' ∧ Inv s' (l ++ src) := by
  obtain ⟨c, e1, e2, e3⟩ := h.cs
  obtain ⟨c', f1, f2, f3⟩ := DynArray.writeAll_effect c l.length (src.map some) (by simp; omega)
  refine ⟨store (setSize s (l.length + src.length)) c', by simp [putAll, e1, f1], ?_⟩
  refine ⟨⟨c', cells_store (by simpa using e1) f2, ?_, ?_⟩, ?_, ?_⟩
  · rw [store_vec]; simpa [setSize] using f2.trans e2
  · intro i hi
    rw [f3]
    simp only [List.length_map]
    simp only [List.length_append] at hi
    by_cases hp : i < l.length
    · rw [if_neg (by omega), e3 i hp, List.getElem?_append_left hp]
    · rw [if_pos (by omega), List.getElem?_append_right (by omega), List.getElem?_map,
        List.getElem?_eq_getElem (show i - l.length < src.length by omega)]
      simp
  · rw [store_vec]; simp [setSize]
  · rw [store_vec]; simpa [setSize] using hf

theorem wrap_sub {M n : Nat} (h : n < M) : (n + (0 + M - n) % M) % M = 0 := by
  by_cases h0 : n = 0
  · subst h0; simp
  · rw [Nat.mod_eq_of_lt (show 0 + M - n < M by omega), show n + (0 + M - n) = M by omega, Nat.mod_self]

/-- C106: a checked append, from any state that holds `l` and whatever the allocator answers, is defined.  If it
answers with a number, that is the number of elements asked for and they have been appended.  Otherwise growth was
needed and refused; the vector is then empty (missing from the full claim: it should still hold `l`). -/
theorem checked_append_partial (M esz : Nat) {s : St α} {l : List α} (h : Inv s l) (hM : l.length < M)
    (src : List α) :
    (∃ s', appendC M esz s src = .ok (s', .ok src.length) ∧ Inv s' (l ++ src)) ∨
    (capacity s < l.length + src.length ∧
      ∃ s', appendC M esz s src = .ok (s', .error 0) ∧ size s' = 0 ∧ s'.vec.used = 0 ∧ s'.vec.handle = none ∧
        capacity s' = l.length + src.length + pad esz ∧ s'.heap.blocks = s.heap.blocks) := by
  rcases ensure_inv h (l.length + src.length) (pad esz) (by omega) with ⟨s1, e1, e2, e3⟩ | ⟨hc, s1, e1, e2, e3, e4⟩
  · left
    obtain ⟨s', f1, f2⟩ := put_inv e2 src e3
    refine ⟨s', ?_, f2⟩
    simp [appendC, growC, h.size_eq, e1, f1]
  · right
    refine ⟨hc, setSize s1 0, ?_, by simp [size, e2], rfl, e2, e3, e4⟩
    have hs1 : size s1 = 0 := by simp [size, e2]
    simp only [appendC, growC, h.size_eq, e1, DynArray.Res.bind_ok, Bool.false_eq_true, if_false, hs1, wrap_sub hM]

theorem step_inv (M esz : Nat) {s : St α} {l : List α} (h : Inv s l) (hM : l.length < M) (o : COp α)
    (hp : o.Pre l) :
    (∃ s', o.run M esz s = .ok (s', o.answer.map Answer.ok) ∧ Inv s' (o.spec l)) ∨
    (∃ s' n, o.answer = some n ∧ capacity s < l.length + n ∧ o.run M esz s = .ok (s', some (.error 0)) ∧
      size s' = 0 ∧ s'.vec.handle = none ∧ n ≤ capacity s') := by
  cases o with
  | pushBack v =>
    rcases checked_append_partial M esz h hM [v] with ⟨s', e1, e2⟩ | ⟨h0, s', e1, e2, _, e3, e4, _⟩
    · exact .inl ⟨s', by simp [COp.run, e1, COp.answer], e2⟩
    · simp only [List.length_singleton] at e4 h0
      exact .inr ⟨s', 1, rfl, h0, by simp [COp.run, e1], e2, e3, by omega⟩
  | append src =>
    rcases checked_append_partial M esz h hM src with ⟨s', e1, e2⟩ | ⟨h0, s', e1, e2, _, e3, e4, _⟩
    · exact .inl ⟨s', by simp [COp.run, e1, COp.answer], e2⟩
    · exact .inr ⟨s', src.length, rfl, h0, by simp [COp.run, e1], e2, e3, by omega⟩
  | popBack =>
    left
    have hl : l.length ≠ 0 := by intro he; exact hp (List.length_eq_zero_iff.mp he)
    refine ⟨setSize s (l.length - 1), by simp [COp.run, popBack, h.size_eq, hl, COp.answer], ?_⟩
    have := setSize_inv h (l.length - 1) (by omega)
    rwa [← List.dropLast_eq_take] at this
  | truncate n =>
    left
    have hf := h.fits
    have hp : n ≤ l.length := hp
    exact ⟨setSize s n, by simp [COp.run, COp.answer, resize, ensureTotalSize, ensureTotalCapacity,
      show ¬ s.vec.cap < n by omega], setSize_inv h n hp⟩
  | clear =>
    left
    exact ⟨setSize s 0, by simp [COp.run, COp.answer, clear, resize, ensureTotalSize, ensureTotalCapacity],
      by simpa [COp.spec] using setSize_inv h 0 (by omega)⟩

/-- How long the sequence gets at most during a history. -/
def cpeak (l : List α) : List (COp α) → Nat
  | [] => l.length
  | o :: r => max l.length (cpeak (o.spec l) r)

theorem run_inv (M esz : Nat) (ops : List (COp α)) {s : St α} {l : List α} (h : Inv s l) (hM : cpeak l ops < M)
    (hl : CLegal l ops) :
    (∃ s', runC M esz s ops = .ok (s', ops.map fun o => o.answer.map Answer.ok, true) ∧ Inv s' (cspecAll l ops)) ∨
    (∃ s' k, k < ops.length ∧ size s' = 0 ∧
      runC M esz s ops = .ok (s', ((ops.take k).map fun o => o.answer.map Answer.ok) ++ [some (.error 0)], false)) := by
  induction ops generalizing s l with
  | nil => exact .inl ⟨s, rfl, h⟩
  | cons o r ih =>
    simp only [cpeak] at hM
    rcases step_inv M esz h (by omega) o hl.1 with ⟨s1, e1, e2⟩ | ⟨s1, n, _, _, e1, e2, _, _⟩
    · have hr : ∀ q, runC M esz s1 r = .ok q → runC M esz s (o :: r) = .ok (q.1, o.answer.map Answer.ok :: q.2.1, q.2.2) := by
        intro q hq
        simp only [runC, e1, DynArray.Res.bind_ok]
        cases o.answer <;> simp [hq]
      rcases ih e2 (by omega) hl.2 with ⟨s2, f1, f2⟩ | ⟨s2, k, hk, f2, f1⟩
      · exact .inl ⟨s2, by rw [hr _ f1]; rfl, f2⟩
      · exact .inr ⟨s2, k + 1, by simpa using hk, f2, by rw [hr _ f1]; rfl⟩
    · exact .inr ⟨s1, 0, by simp, e2, by simp [runC, e1]⟩

/-- C106: a program that appends and removes elements and stops as soon as it is told that an append failed never
does anything undefined, whichever requests the allocator refuses and however long it runs.  Every number it is
told is right.  If it gets to the end the vector holds exactly what the standard operations build; if not, it was
stopped by an append that said "nothing was appended".  Missing from the full claim: after that answer the vector
should still hold what it held; it is empty. -/
theorem checked_history_partial (M esz : Nat) (h : Heap α) (ops : List (COp α)) (hl : CLegal [] ops)
    (hM : cpeak [] ops < M) :
    (∃ s, runC M esz (fresh h) ops = .ok (s, ops.map fun o => o.answer.map Answer.ok, true) ∧
      Holds s (cspecAll [] ops)) ∨
    (∃ s k, k < ops.length ∧ size s = 0 ∧
      runC M esz (fresh h) ops = .ok (s, ((ops.take k).map fun o => o.answer.map Answer.ok) ++ [some (.error 0)], false)) := by
  rcases run_inv M esz ops (fresh_inv h) hM hl with ⟨s, e1, e2⟩ | ⟨s, k, hk, e2, e1⟩
  · exact .inl ⟨s, e1, e2.holds⟩
  · exact .inr ⟨s, k, hk, e2, e1⟩

/-- Four edits and an allocator that refuses its second request. -/
def exCOps : List (COp Nat) := [.pushBack 1, .append [2, 3], .popBack, .append (List.range 40)]

example : CLegal [] exCOps ∧ cpeak [] exCOps < 2 ^ 16 := by
  refine ⟨⟨trivial, trivial, by simp [COp.Pre, COp.spec], trivial, trivial⟩, by decide +kernel⟩
example : (runC (2 ^ 16) 1 (fresh (⟨[], [true, false], 0, 0⟩ : Heap Nat)) exCOps).bind (fun p => .ok p.2)
    = .ok ([some (.ok 1), some (.ok 2), none, some (.error 0)], false) := by decide +kernel
example : (runC (2 ^ 16) 1 (fresh (⟨[], [], 0, 0⟩ : Heap Nat)) exCOps).bind (fun p => .ok (p.2, size p.1))
    = .ok (([some (.ok 1), some (.ok 2), none, some (.ok 40)], true), 42) := by decide +kernel

/-! ## Where the check does not help -/

/-- A vector that is full and whose allocator will refuse. -/
structure Stuck (s : St α) (l : List α) : Prop where
  inv : Inv s l
  full : s.vec.cap = l.length
  refuses : ∃ r, s.heap.plan = false :: r

theorem stuck_ensure {s : St α} {l : List α} (h : Stuck s l) (n k : Nat) (hn : l.length < n) :
    ∃ s', ensureTotalCapacity s n k = .ok (s', false) ∧ s'.vec.handle = none ∧ s'.vec.cap = n + k ∧
      s'.heap.blocks = s.heap.blocks := by
  obtain ⟨r, hr⟩ := h.refuses
  obtain ⟨c, e1, e2, e3⟩ := h.inv.cs
  unfold ensureTotalCapacity
  rw [if_pos (by have := h.full; omega)]
  cases hh : s.vec.handle with
  | none => exact ⟨⟨{ s.heap with plan := r, calls := s.heap.calls + 1 }, { s.vec with cap := n + k, handle := none }⟩,
      by simp only [reserve, hh, Heap.allocate, hr]; rfl, rfl, rfl, rfl⟩
  | some b =>
    have hb := cells_some hh e1
    exact ⟨⟨{ s.heap with plan := r, calls := s.heap.calls + 1 }, { s.vec with cap := n + k, handle := none }⟩,
      by simp only [reserve, hh, Heap.reallocate, hb, hr]; rfl, rfl, rfl, rfl⟩

/-- **Violation.** C106: an append that is refused answers "nothing was appended", and the elements the vector held
before are gone: it is empty and none can be read. -/
theorem refused_append_loses (M esz : Nat) {s : St α} {l : List α} (h : Stuck s l) (hM : l.length < M)
    (src : List α) (hne : src ≠ []) :
    ∃ s', appendC M esz s src = .ok (s', .error 0) ∧ size s' = 0 ∧ ∀ i, index s' i = .ub := by
  have hl : 0 < src.length := List.length_pos_iff.mpr hne
  obtain ⟨s1, e1, e2, e3, e4⟩ := stuck_ensure h (l.length + src.length) (pad esz) (by omega)
  have hs1 : size s1 = 0 := by simp [size, e2]
  refine ⟨setSize s1 0, ?_, by simp [size, e2], ?_⟩
  · simp only [appendC, growC, h.inv.size_eq, e1, DynArray.Res.bind_ok, Bool.false_eq_true, if_false, hs1,
      wrap_sub hM]
  · intro i; simp [index, cells_none e2, rd]

/-- **Violation.** C106: and trying the same append again is undefined: the vector now claims the capacity it was
refused, so the check passes. -/
theorem retried_append_ub (M esz : Nat) {s : St α} {l : List α} (h : Stuck s l) (hM : l.length < M)
    (src : List α) (hne : src ≠ []) :
    ((appendC M esz s src).bind fun p => appendC M esz p.1 src) = .ub := by
  have hl : 0 < src.length := List.length_pos_iff.mpr hne
  obtain ⟨s1, e1, e2, e3, e4⟩ := stuck_ensure h (l.length + src.length) (pad esz) (by omega)
  have hs1 : size s1 = 0 := by simp [size, e2]
  have h1 : appendC M esz s src = .ok (setSize s1 0, .error 0) := by
    simp only [appendC, growC, h.inv.size_eq, e1, DynArray.Res.bind_ok, Bool.false_eq_true, if_false, hs1,
      wrap_sub hM]
  have hs2 : size (setSize s1 0) = 0 := by simp [size, e2]
  have hc : ¬ (setSize s1 0).vec.cap < src.length := by simp only [setSize, e3]; omega
  rw [h1]
  simp only [DynArray.Res.bind_ok, appendC, growC, hs2, Nat.zero_add, ensureTotalCapacity, gt_iff_lt, hc, if_false,
    if_true, putAll, cells_setSize, cells_none e2, DynArray.Res.ofOption_some]
  rw [DynArray.writeAll_overrun [] 0 (src.map some) (by simpa using hl) (by simpa using hne)]
  rfl

/-- **Violation.** C106: `emplace_back`, single-element `insert` and appending another array do not look at the
check: when the allocator refuses they are undefined behaviour, as without it. -/
theorem unchecked_operations_ub (M esz : Nat) {s : St α} {l : List α} (h : Stuck s l) (v : α) :
    emplaceC M esz s v = .ub ∧ (∀ pos, pos ≤ l.length → insertC M esz s pos v = .ub) ∧
      ∀ src : List α, src ≠ [] → appendArrayC M esz s src = .ub := by
  obtain ⟨s1, e1, e2, e3, e4⟩ := stuck_ensure h (l.length + 1) (pad esz) (by omega)
  refine ⟨?_, ?_, ?_⟩
  · simp only [emplaceC, growC, h.inv.size_eq, e1, DynArray.Res.bind_ok, Bool.false_eq_true, if_false, putAll,
      cells_setSize, cells_none e2, DynArray.Res.ofOption_some]
    rw [DynArray.writeAll_overrun [] _ [some v] (by simp) (by simp)]
    rfl
  · intro pos hpos
    simp only [insertC, growC, h.inv.size_eq, e1, DynArray.Res.bind_ok, Bool.false_eq_true, if_false,
      cells_setSize, cells_none e2, DynArray.Res.ofOption_some]
    unfold Algorithm.copyBackward
    by_cases hq : pos = l.length
    · rw [if_pos hq]; simp [wr]
    · rw [if_neg hq]
      obtain ⟨n, hn⟩ : ∃ n, l.length = n + 1 := ⟨l.length - 1, by omega⟩
      rw [hn]
      simp [rd]
  · intro src hne
    have hl : 0 < src.length := List.length_pos_iff.mpr hne
    obtain ⟨s1, e1, e2, e3, e4⟩ := stuck_ensure h (l.length + src.length) (pad esz) (by omega)
    simp only [appendArrayC, growC, h.inv.size_eq, e1, DynArray.Res.bind_ok, Bool.false_eq_true, if_false, putAll,
      cells_setSize, cells_none e2, DynArray.Res.ofOption_some]
    rw [DynArray.writeAll_overrun [] _ (src.map some) (by simp; omega) (by simpa using hne)]
    rfl

/-- **Violation.** C106: `push_back` of an rvalue and appending another array answer "0 appended" when they have
appended everything. -/
theorem answers_zero (M esz : Nat) (hp : Heap α) (hg : Grants hp) (ops : List (Op α)) (hl : Legal [] ops)
    (v : α) (src : List α) :
    ∃ s, runAll esz (fresh hp) ops = .ok s ∧
      (∃ s', pushMoveC M esz s v = .ok (s', .ok 0) ∧ Holds s' (specAll [] ops ++ [v])) ∧
      (∃ s', appendArrayC M esz s src = .ok (s', .ok 0) ∧ Holds s' (specAll [] ops ++ src)) := by
  obtain ⟨s, e1, e2⟩ := runAll_rep esz (fresh_rep hp hg) ops hl
  have hi : Inv s (specAll [] ops) := ⟨e2.cs, e2.used, e2.fits⟩
  refine ⟨s, e1, ?_, ?_⟩
  · obtain ⟨s1, f1, f2, f3⟩ := ensure_rep e2 ((specAll [] ops).length + 1) (pad esz) (by omega)
    obtain ⟨s', g1, g2⟩ := put_inv (s := s1) ⟨f2.cs, f2.used, f2.fits⟩ [v] f3
    refine ⟨s', ?_, g2.holds⟩
    simp only [List.length_singleton, List.map_cons, List.map_nil] at g1
    simp [pushMoveC, growC, e2.size_eq, f1, g1]
  · obtain ⟨s1, f1, f2, f3⟩ := ensure_rep e2 ((specAll [] ops).length + src.length) (pad esz) (by omega)
    obtain ⟨s', g1, g2⟩ := put_inv (s := s1) ⟨f2.cs, f2.used, f2.fits⟩ src f3
    refine ⟨s', ?_, g2.holds⟩
    simp [appendArrayC, growC, e2.size_eq, f1, g1]

theorem exFull_stuck : Stuck exFull [4, 5] :=
  ⟨⟨⟨[some 4, some 5], rfl, rfl, by intro i hi; match i, hi with | 0, _ => rfl | 1, _ => rfl⟩, rfl, by decide⟩, rfl,
    [], rfl⟩

example : (appendC (2 ^ 16) 1 exFull [6]).bind (fun p => .ok (p.2, size p.1, capacity p.1)) = .ok (.error 0, 0, 36) := by
  decide +kernel
example : emplaceC (2 ^ 16) 1 exFull 6 = .ub := (unchecked_operations_ub _ _ exFull_stuck 6).1
example : ((appendC (2 ^ 16) 1 exFull [6]).bind fun p => appendC (2 ^ 16) 1 p.1 [6]) = .ub :=
  retried_append_ub _ _ exFull_stuck (by decide) [6] (by simp)
example : (pushMoveC (2 ^ 16) 1 (fresh (⟨[], [], 0, 0⟩ : Heap Nat)) 6).bind (fun p => .ok (p.2, size p.1)) = .ok (.ok 0, 1) := by
  decide +kernel

end Verif.Growable
