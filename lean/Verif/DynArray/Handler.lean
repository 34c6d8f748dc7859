import Verif.Common.Mem

/-!
# A vector between an interrupt handler and the main program (C114)

Modelled from `src/estd/internal/dynamic_array.h:157-179, 383-391, 422-439, 457-475, 586-608` and
`src/estd/internal/runtime_array.h:297-306, 344-347` for a fixed-capacity vector of trivial elements with its size in a
member.  A handler runs to its end at any point of a call of the main program.  One core; the compiler keeps the order
of the loads and stores.  That pushing into a full vector and taking from an empty one are undefined is C11.
-/
namespace Verif.DynArray.Handler
open Verif

universe u
variable {α : Type u}

/-- the elements' memory (as many cells as the capacity) and the stored size, impl/dynamic_array.h:101-155 -/
structure Vec (α : Type u) where
  cells : List α
  size : Nat
  deriving DecidableEq, Repr

/-- `push_back(x)` at one go, dynamic_array.h:605-608; without room: undefined -/
def Vec.push (v : Vec α) (x : α) : Option (Vec α) :=
  if v.size < v.cells.length then some ⟨v.cells.set v.size x, v.size + 1⟩ else none

/-- `x = back(); pop_back();` at one go, runtime_array.h:344-347 and dynamic_array.h:586-603; empty: undefined -/
def Vec.take (v : Vec α) : Option (Vec α × α) :=
  if v.size = 0 then none else (rd v.cells (v.size - 1)).map fun x => (⟨v.cells, v.size - 1⟩, x)

/-- `for (x : vec) …; vec.clear();` at one go, runtime_array.h:297-306 and dynamic_array.h:388-391 -/
def Vec.drain (v : Vec α) : Vec α × List α := (⟨v.cells, 0⟩, v.cells.take v.size)

/-- what took effect: an element came in, was taken from the end, or all were taken -/
inductive Ev (α : Type u) where
  | push (x : α)
  | take (x : α)
  | drain (xs : List α)
  deriving DecidableEq, Repr

/-- what a handler does with the vector -/
inductive HOp (α : Type u) where
  | push (x : α)
  | take
  | drain
  deriving DecidableEq, Repr

/-- one call in the handler, dynamic_array.h:586-608, 388-391 -/
def HOp.run (v : Vec α) : HOp α → Option (Vec α × Ev α)
  | .push x => (v.push x).map fun v' => (v', .push x)
  | .take => v.take.map fun (v', x) => (v', .take x)
  | .drain => some (v.drain.1, .drain v.drain.2)

/-- one run of the handler, dynamic_array.h:586-608, 388-391 -/
def irq (v : Vec α) : List (HOp α) → Option (Vec α × List (Ev α))
  | [] => some (v, [])
  | o :: os => (o.run v).bind fun (v', e) => (irq v' os).map fun (v'', es) => (v'', e :: es)

/-- where the main program is -/
inductive Pc (α : Type u) where
  | idle
  /-- about to push -/
  | push (v : α)
  /-- `starting_size` read, dynamic_array.h:162 -/
  | sized (v : α) (r : Nat)
  /-- size stored, dynamic_array.h:435, the element not yet: dynamic_array.h:475 -/
  | grown (v : α) (r : Nat)
  /-- about to loop over the elements and clear -/
  | drain
  /-- `end()` taken, runtime_array.h:297-299; elements read so far -/
  | walk (n : Nat) (acc : List α)
  /-- about to take the last -/
  | take
  /-- `back()` called, runtime_array.h:344-347: an accessor with the index -/
  | back (i : Nat)
  /-- element read, about to call `pop_back()` -/
  | pop (x : α)
  /-- `end` read, dynamic_array.h:589 -/
  | popped (x : α) (e : Nat)
  deriving DecidableEq, Repr

structure St (α : Type u) where
  vec : Vec α
  pc : Pc α
  log : List (Ev α)
  deriving DecidableEq, Repr

/-- the next load or store of the main program.  `push`: dynamic_array.h:162-175 (load, capacity), 435 (store of the size),
475 (store of the element).  `drain`: runtime_array.h:299, the loop, dynamic_array.h:388-391.  `take`:
runtime_array.h:346, the element, dynamic_array.h:589, 602. -/
def tick (s : St α) : Option (St α) :=
  match s.pc with
  | .idle => some s
  | .push v => if s.vec.size < s.vec.cells.length then some { s with pc := .sized v s.vec.size } else none
  | .sized v r => some ⟨⟨s.vec.cells, r + 1⟩, .grown v r, s.log ++ [.push v]⟩
  | .grown v r => some ⟨⟨s.vec.cells.set r v, s.vec.size⟩, .idle, s.log⟩
  | .drain => some { s with pc := .walk s.vec.size [] }
  | .walk n acc =>
    if acc.length < n then (rd s.vec.cells acc.length).map fun x => { s with pc := .walk n (acc ++ [x]) }
    else some ⟨⟨s.vec.cells, 0⟩, .idle, s.log ++ [.drain acc]⟩
  | .take => if s.vec.size = 0 then none else some { s with pc := .back (s.vec.size - 1) }
  | .back i => (rd s.vec.cells i).map fun x => { s with pc := .pop x }
  | .pop x => if s.vec.size = 0 then none else some { s with pc := .popped x (s.vec.size - 1) }
  | .popped x e => some ⟨⟨s.vec.cells, e⟩, .idle, s.log ++ [.take x]⟩

/-- what happens next: the main program begins a call or goes on, or the handler runs -/
inductive Act (α : Type u) where
  | push (v : α)
  | drain
  | take
  | tick
  | irq (ops : List (HOp α))
  deriving DecidableEq, Repr

/-- one action; a call begins only when none is in progress.  dynamic_array.h:586-608, 388-391 -/
def step (s : St α) : Act α → Option (St α)
  | .push v => match s.pc with | .idle => some { s with pc := .push v } | _ => none
  | .drain => match s.pc with | .idle => some { s with pc := .drain } | _ => none
  | .take => match s.pc with | .idle => some { s with pc := .take } | _ => none
  | .tick => tick s
  | .irq ops => (irq s.vec ops).map fun (v, es) => ⟨v, s.pc, s.log ++ es⟩

/-- a schedule -/
def run (s : St α) : List (Act α) → Option (St α)
  | [] => some s
  | a :: as => (step s a).bind fun s' => run s' as

/-- an empty vector over any memory, nothing in progress (impl/dynamic_array.h:101-155) -/
def start (cells : List α) : St α := ⟨⟨cells, 0⟩, .idle, []⟩

/-! ## Specification -/

/-- a list that elements are appended to, taken from the end of, or taken from all at once: the events lead from `l` to
`l'` -/
def Spec.Leads : List α → List (Ev α) → List α → Prop
  | l, [], l' => l' = l
  | l, .push x :: es, l' => Spec.Leads (l ++ [x]) es l'
  | l, .take x :: es, l' => ∃ m, l = m ++ [x] ∧ Spec.Leads m es l'
  | l, .drain xs :: es, l' => xs = l ∧ Spec.Leads [] es l'

/-- what came in, and what was delivered -/
def Spec.pushed : List (Ev α) → List α
  | [] => []
  | .push x :: es => x :: Spec.pushed es
  | _ :: es => Spec.pushed es

def Spec.delivered : List (Ev α) → List α
  | [] => []
  | .push _ :: es => Spec.delivered es
  | .take x :: es => x :: Spec.delivered es
  | .drain xs :: es => xs ++ Spec.delivered es

/-- the vector shows the list -/
def Spec.Shows (v : Vec α) (l : List α) : Prop := v.size = l.length ∧ v.cells.take v.size = l

/-- how many more elements than at its begin a handler leaves, when it never takes more than it has itself put there -/
def Spec.level : Nat → List (HOp α) → Option Nat
  | d, [] => some d
  | d, .push _ :: os => Spec.level (d + 1) os
  | d + 1, .take :: os => Spec.level d os
  | _, _ => none

/-- inside which calls which handlers may run: between the load of the size and its store, or while elements are being
read and removed, only handlers that take back all they put in; between the two stores of a push also such that leave
elements -/
def Spec.allowed (pc : Pc α) (ops : List (HOp α)) : Prop :=
  match pc with
  | .idle | .push _ | .drain => True
  | .take | .grown _ _ => Spec.level 0 ops ≠ none
  | _ => Spec.level 0 ops = some 0

/-- the handlers of a schedule run where they may -/
def Spec.legal (s : St α) : List (Act α) → Prop
  | [] => True
  | a :: as => (∀ ops, a = .irq ops → Spec.allowed s.pc ops) ∧ ∀ s', step s a = some s' → Spec.legal s' as

/-! ## Proofs -/

theorem leads_append {l m n : List α} : ∀ {es fs : List (Ev α)}, Spec.Leads l es m → Spec.Leads m fs n →
    Spec.Leads l (es ++ fs) n := by
  intro es
  induction es generalizing l with
  | nil => intro fs h1 h2; cases h1; exact h2
  | cons e es ih =>
    intro fs h1 h2
    cases e with
    | push x => exact ih h1 h2
    | take x => obtain ⟨k, hk, h⟩ := h1; exact ⟨k, hk, ih h h2⟩
    | drain xs => exact ⟨h1.1, ih h1.2 h2⟩

theorem shows_le {v : Vec α} {l : List α} (h : Spec.Shows v l) : v.size ≤ v.cells.length := by
  have := congrArg List.length h.2
  rw [List.length_take] at this
  have := h.1
  omega

theorem shows_get {v : Vec α} {l : List α} (h : Spec.Shows v l) {i : Nat} (hi : i < l.length) :
    rd v.cells i = some l[i] := by
  obtain ⟨h1, h2⟩ := h
  have : (v.cells.take v.size)[i]? = some l[i] := by rw [h2]; exact List.getElem?_eq_getElem hi
  rw [List.getElem?_take, if_pos (by omega)] at this
  exact this

theorem shows_shrink {v : Vec α} {l : List α} (h : Spec.Shows v l) {k : Nat} (hk : k ≤ l.length) :
    Spec.Shows ⟨v.cells, k⟩ (l.take k) := by
  have hl := shows_le h
  obtain ⟨h1, h2⟩ := h
  refine ⟨by simp only [List.length_take]; omega, ?_⟩
  simp only
  rw [← h2, List.take_take, Nat.min_eq_left (by omega)]

theorem shows_push {v v' : Vec α} {l : List α} {x : α} (h : Spec.Shows v l) (hp : v.push x = some v') :
    Spec.Shows v' (l ++ [x]) := by
  unfold Vec.push at hp
  split at hp
  · rename_i hlt
    cases hp
    obtain ⟨h1, h2⟩ := h
    refine ⟨by simp [h1], ?_⟩
    simp only
    rw [List.take_add_one, List.take_set_of_le (Nat.le_refl _), h2, List.getElem?_set_self hlt]
    rfl
  · cases hp

theorem shows_last {v : Vec α} {l : List α} (h : Spec.Shows v l) (h0 : v.size ≠ 0) :
    ∃ m x, l = m ++ [x] ∧ rd v.cells (v.size - 1) = some x ∧ v.size - 1 = m.length := by
  have h1 := h.1
  have hne : l ≠ [] := by intro e; subst e; exact h0 h1
  refine ⟨l.dropLast, l.getLast hne, (List.dropLast_concat_getLast hne).symm, ?_, ?_⟩
  · rw [h1, shows_get h (by have := List.length_pos_iff.mpr hne; omega), List.getLast_eq_getElem]
  · rw [List.length_dropLast, h1]

theorem hop_leads {v v' : Vec α} {l : List α} {o : HOp α} {e : Ev α} (h : Spec.Shows v l) (hr : o.run v = some (v', e)) :
    ∃ l', Spec.Shows v' l' ∧ Spec.Leads l [e] l' ∧ v'.cells.length = v.cells.length := by
  cases o with
  | push x =>
    simp only [HOp.run, Option.map_eq_some_iff] at hr
    obtain ⟨w, hw, he⟩ := hr
    cases he
    refine ⟨l ++ [x], shows_push h hw, rfl, ?_⟩
    unfold Vec.push at hw
    split at hw
    · cases hw; simp
    · cases hw
  | take =>
    simp only [HOp.run, Vec.take] at hr
    split at hr
    · cases hr
    · rename_i h0
      obtain ⟨m, x, rfl, hx, hm⟩ := shows_last h h0
      rw [hx] at hr
      cases hr
      refine ⟨m, ?_, ⟨m, rfl, rfl⟩, rfl⟩
      have := shows_shrink h (k := m.length) (by simp)
      rw [List.take_left] at this
      rw [hm]
      exact this
  | drain =>
    simp only [HOp.run, Vec.drain] at hr
    cases hr
    exact ⟨[], ⟨rfl, by simp⟩, ⟨h.2, rfl⟩, rfl⟩

theorem irq_leads {ops : List (HOp α)} : ∀ {v v' : Vec α} {l : List α} {es : List (Ev α)}, Spec.Shows v l →
    irq v ops = some (v', es) → ∃ l', Spec.Shows v' l' ∧ Spec.Leads l es l' ∧ v'.cells.length = v.cells.length := by
  induction ops with
  | nil => intro v v' l es h hr; cases hr; exact ⟨l, h, rfl, rfl⟩
  | cons o ops ih =>
    intro v v' l es h hr
    simp only [irq, Option.bind_eq_some_iff, Option.map_eq_some_iff] at hr
    obtain ⟨⟨w, e⟩, h1, ⟨w', fs⟩, h2, he⟩ := hr
    cases he
    obtain ⟨m, hm, lm, c1⟩ := hop_leads h h1
    obtain ⟨l', hl, ll, c2⟩ := ih hm h2
    exact ⟨l', hl, leads_append lm ll, c2.trans c1⟩

/-- a handler that takes only what it has put there keeps what was there, and its length says how much it leaves -/
theorem level_leads {b : Nat} {ops : List (HOp α)} : ∀ {d d' : Nat} {v v' : Vec α} {es : List (Ev α)} {l l' : List α},
    irq v ops = some (v', es) → Spec.level d ops = some d' → l.length = b + d → Spec.Leads l es l' →
    l'.take b = l.take b ∧ l'.length = b + d' := by
  induction ops with
  | nil =>
    intro d d' v v' es l l' hr hd hl hle
    cases hr; cases hd; cases hle
    exact ⟨rfl, hl⟩
  | cons o ops ih =>
    intro d d' v v' es l l' hr hd hl hle
    simp only [irq, Option.bind_eq_some_iff, Option.map_eq_some_iff] at hr
    obtain ⟨⟨w, e⟩, h1, ⟨w', fs⟩, h2, he⟩ := hr
    cases he
    cases o with
    | push x =>
      simp only [HOp.run, Option.map_eq_some_iff] at h1
      obtain ⟨_, _, he⟩ := h1
      cases he
      obtain ⟨e1, e2⟩ := ih h2 hd (by simp [hl, Nat.add_assoc]) hle
      exact ⟨by rw [e1, List.take_append_of_le_length (by omega)], e2⟩
    | take =>
      simp only [HOp.run, Option.map_eq_some_iff] at h1
      obtain ⟨_, _, he⟩ := h1
      cases he
      cases d with
      | zero => cases hd
      | succ d =>
        obtain ⟨m, rfl, hm⟩ := hle
        have hml : m.length = b + d := by simp at hl; omega
        obtain ⟨e1, e2⟩ := ih h2 hd hml hm
        exact ⟨by rw [e1, List.take_append_of_le_length (by omega)], e2⟩
    | drain => cases d <;> cases hd

/-- … and it does not notice what is in the cells that were there -/
theorem level_irq {r : Nat} {x : α} {ops : List (HOp α)} : ∀ {d : Nat} {v v' : Vec α} {es : List (Ev α)},
    irq v ops = some (v', es) → Spec.level d ops ≠ none → r + 1 + d = v.size →
    irq ⟨v.cells.set r x, v.size⟩ ops = some (⟨v'.cells.set r x, v'.size⟩, es) := by
  induction ops with
  | nil => intro d v v' es hr _ _; cases hr; rfl
  | cons o ops ih =>
    intro d v v' es hr hd hsz
    simp only [irq, Option.bind_eq_some_iff, Option.map_eq_some_iff] at hr
    obtain ⟨⟨w, e⟩, h1, ⟨w', fs⟩, h2, he⟩ := hr
    cases he
    cases o with
    | push y =>
      simp only [HOp.run, Option.map_eq_some_iff, Vec.push] at h1
      obtain ⟨_, h1, he⟩ := h1
      cases he
      split at h1
      · rename_i hlt
        cases h1
        have := ih h2 (d := d + 1) hd (by simp only; omega)
        simp only [irq, HOp.run, Vec.push, List.length_set, if_pos hlt, Option.map_some, Option.bind_some]
        rw [List.set_comm _ _ (by omega)]
        simp only at this
        rw [this]
        rfl
      · cases h1
    | take =>
      cases d with
      | zero => exact absurd rfl hd
      | succ d =>
        simp only [HOp.run, Vec.take] at h1
        split at h1
        · cases h1
        · rename_i h0
          rw [Option.map_map, Option.map_eq_some_iff] at h1
          obtain ⟨y, hy, he⟩ := h1
          cases he
          have := ih h2 (d := d) hd (by simp only; omega)
          have hy' : rd (v.cells.set r x) (v.size - 1) = some y := by
            unfold rd at hy ⊢
            rw [List.getElem?_set_ne (by omega)]
            exact hy
          simp only [irq, HOp.run, Vec.take, if_neg h0, hy', Option.map_some, Option.bind_some]
          simp only at this
          rw [this]
          rfl
    | drain => cases d <;> exact absurd rfl hd

/-- what holds at every point of a schedule -/
def Inv (s : St α) (l : List α) : Prop :=
  Spec.Leads [] s.log l ∧
  match s.pc with
  | .idle | .push _ | .drain | .take => Spec.Shows s.vec l
  | .sized _ r => Spec.Shows s.vec l ∧ r = l.length ∧ r < s.vec.cells.length
  | .grown v r => Spec.Shows ⟨s.vec.cells.set r v, s.vec.size⟩ l ∧ r < l.length
  | .walk n acc => Spec.Shows s.vec l ∧ n = l.length ∧ acc = l.take acc.length
  | .back i => Spec.Shows s.vec l ∧ i + 1 = l.length
  | .pop x => Spec.Shows s.vec l ∧ ∃ m, l = m ++ [x]
  | .popped x e => Spec.Shows s.vec l ∧ ∃ m, l = m ++ [x] ∧ e = m.length

theorem inv_tick {s s' : St α} {l : List α} (h : Inv s l) (ht : tick s = some s') : ∃ l', Inv s' l' := by
  obtain ⟨vec, pc, log⟩ := s
  obtain ⟨hlog, h⟩ := h
  cases pc with
  | idle => cases ht; exact ⟨l, hlog, h⟩
  | push v =>
    simp only [tick] at ht h
    split at ht
    · rename_i hlt
      cases ht
      exact ⟨l, hlog, h, h.1, hlt⟩
    · cases ht
  | sized v r =>
    simp only [tick] at ht h
    cases ht
    obtain ⟨hs, rfl, hlt⟩ := h
    refine ⟨l ++ [v], leads_append hlog rfl, ?_, by simp⟩
    have := shows_push (x := v) hs (v' := ⟨vec.cells.set vec.size v, vec.size + 1⟩)
      (by unfold Vec.push; rw [if_pos (by have := hs.1; omega)])
    rw [hs.1] at this
    exact this
  | grown v r =>
    simp only [tick] at ht h
    cases ht
    exact ⟨l, hlog, h.1⟩
  | drain =>
    simp only [tick] at ht h
    cases ht
    exact ⟨l, hlog, h, h.1, by simp⟩
  | walk n acc =>
    simp only [tick] at ht h
    obtain ⟨hs, rfl, hacc⟩ := h
    split at ht
    · rename_i hlt
      rw [shows_get hs hlt] at ht
      cases ht
      refine ⟨l, hlog, hs, rfl, ?_⟩
      rw [List.length_append, List.length_singleton, List.take_add_one, ← hacc, List.getElem?_eq_getElem hlt]
      rfl
    · rename_i hge
      cases ht
      have : acc = l := by rw [hacc, List.take_of_length_le (by omega)]
      exact ⟨[], leads_append hlog ⟨this, rfl⟩, rfl, by simp⟩
  | take =>
    simp only [tick] at ht h
    split at ht
    · cases ht
    · cases ht
      have := h.1
      exact ⟨l, hlog, h, by omega⟩
  | back i =>
    simp only [tick] at ht h
    obtain ⟨hs, hi⟩ := h
    have h0 : vec.size ≠ 0 := by have := hs.1; omega
    obtain ⟨m, x, rfl, hx, hm⟩ := shows_last hs h0
    have : vec.size - 1 = i := by have := hs.1; omega
    rw [this] at hx
    rw [hx] at ht
    cases ht
    exact ⟨m ++ [x], hlog, hs, m, rfl⟩
  | pop x =>
    simp only [tick] at ht h
    obtain ⟨hs, m, rfl⟩ := h
    split at ht
    · cases ht
    · cases ht
      refine ⟨m ++ [x], hlog, hs, m, rfl, ?_⟩
      have := hs.1
      simp at this
      omega
  | popped x e =>
    simp only [tick] at ht h
    cases ht
    obtain ⟨hs, m, rfl, rfl⟩ := h
    refine ⟨m, leads_append hlog ⟨m, rfl, rfl⟩, ?_⟩
    have := shows_shrink hs (k := m.length) (by simp)
    rwa [List.take_left] at this

theorem irq_balanced {ops : List (HOp α)} {v v' : Vec α} {es : List (Ev α)} {l : List α} (h : Spec.Shows v l)
    (hr : irq v ops = some (v', es)) (hb : Spec.level 0 ops = some 0) :
    Spec.Shows v' l ∧ Spec.Leads l es l ∧ v'.cells.length = v.cells.length := by
  obtain ⟨l', h1, h2, h3⟩ := irq_leads h hr
  obtain ⟨e1, e2⟩ := level_leads (b := l.length) hr hb rfl h2
  have : l' = l := by
    rw [List.take_of_length_le (by omega), List.take_of_length_le (Nat.le_refl _)] at e1
    exact e1
  subst this
  exact ⟨h1, h2, h3⟩

theorem inv_step {s s' : St α} {l : List α} {a : Act α} (h : Inv s l) (ha : ∀ ops, a = .irq ops → Spec.allowed s.pc ops)
    (ht : step s a = some s') : ∃ l', Inv s' l' := by
  cases a with
  | tick => exact inv_tick h ht
  | push v =>
    obtain ⟨vec, pc, log⟩ := s
    cases pc <;> cases ht
    exact ⟨l, h.1, h.2⟩
  | drain =>
    obtain ⟨vec, pc, log⟩ := s
    cases pc <;> cases ht
    exact ⟨l, h.1, h.2⟩
  | take =>
    obtain ⟨vec, pc, log⟩ := s
    cases pc <;> cases ht
    exact ⟨l, h.1, h.2⟩
  | irq ops =>
    obtain ⟨vec, pc, log⟩ := s
    have hal := ha ops rfl
    obtain ⟨hlog, h⟩ := h
    simp only [step, Option.map_eq_some_iff] at ht
    obtain ⟨⟨w, es⟩, hr, he⟩ := ht
    cases he
    cases pc with
    | idle => obtain ⟨l', h1, h2, _⟩ := irq_leads h hr; exact ⟨l', leads_append hlog h2, h1⟩
    | push v => obtain ⟨l', h1, h2, _⟩ := irq_leads h hr; exact ⟨l', leads_append hlog h2, h1⟩
    | drain => obtain ⟨l', h1, h2, _⟩ := irq_leads h hr; exact ⟨l', leads_append hlog h2, h1⟩
    | take => obtain ⟨l', h1, h2, _⟩ := irq_leads h hr; exact ⟨l', leads_append hlog h2, h1⟩
    | sized v r =>
      obtain ⟨h1, h2, h3⟩ := irq_balanced h.1 hr hal
      exact ⟨l, leads_append hlog h2, h1, h.2.1, by simp only; rw [h3]; exact h.2.2⟩
    | grown v r =>
      obtain ⟨hs, hrl⟩ := h
      simp only [Spec.allowed] at hal
      have hsz : vec.size = l.length := hs.1
      obtain ⟨d, hd⟩ : ∃ d, r + 1 + d = vec.size := ⟨vec.size - (r + 1), by omega⟩
      have hlev : ∀ (os : List (HOp α)) (k j : Nat), Spec.level k os ≠ none → Spec.level (k + j) os ≠ none := by
        intro os
        induction os with
        | nil => intro k j _ h; cases h
        | cons o os ih =>
          intro k j hk
          cases o with
          | push y => have := ih (k + 1) j hk; rwa [Nat.add_right_comm] at this
          | take =>
            cases k with
            | zero => exact absurd rfl hk
            | succ k =>
              rw [Nat.add_right_comm]
              exact ih k j hk
          | drain => cases k <;> exact absurd rfl hk
      have hal' := hlev ops 0 d hal
      rw [Nat.zero_add] at hal'
      have hr' := level_irq (x := v) hr hal' hd
      obtain ⟨l', h1, h2, _⟩ := irq_leads hs hr'
      obtain ⟨d', hd'⟩ := Option.ne_none_iff_exists'.mp hal'
      obtain ⟨_, e2⟩ := level_leads (b := r + 1) hr' hd' (by omega) h2
      exact ⟨l', leads_append hlog h2, h1, by omega⟩
    | walk n acc =>
      obtain ⟨h1, h2, _⟩ := irq_balanced h.1 hr hal
      exact ⟨l, leads_append hlog h2, h1, h.2⟩
    | back i =>
      obtain ⟨h1, h2, _⟩ := irq_balanced h.1 hr hal
      exact ⟨l, leads_append hlog h2, h1, h.2⟩
    | pop x =>
      obtain ⟨h1, h2, _⟩ := irq_balanced h.1 hr hal
      exact ⟨l, leads_append hlog h2, h1, h.2⟩
    | popped x e =>
      obtain ⟨h1, h2, _⟩ := irq_balanced h.1 hr hal
      exact ⟨l, leads_append hlog h2, h1, h.2⟩

theorem inv_run (as : List (Act α)) : ∀ {s s' : St α} {l : List α}, Inv s l → Spec.legal s as → run s as = some s' →
    ∃ l', Inv s' l' := by
  induction as with
  | nil => intro s s' l h _ hr; cases hr; exact ⟨l, h⟩
  | cons a as ih =>
    intro s s' l h hl hr
    simp only [run, Option.bind_eq_some_iff] at hr
    obtain ⟨s1, h1, h2⟩ := hr
    obtain ⟨m, hm⟩ := inv_step h hl.1 h1
    exact ih hm (hl.2 s1 h1) h2

theorem inv_start (cells : List α) : Inv (start cells) [] := ⟨rfl, rfl, by simp [start]⟩

/-- **Every schedule** in which handlers run where they may: what took effect, in the main program and in the handler, is
what happens to one list when one thing is done at a time, and between calls the vector shows that list.  Missing: handlers
anywhere (`drain_loses`, `take_loses`, `push_loses`, `push_garbage`, `push_replays`). -/
theorem shared_vector_partial (cells : List α) (as : List (Act α)) (s : St α) (hl : Spec.legal (start cells) as)
    (hr : run (start cells) as = some s) :
    ∃ l, Spec.Leads [] s.log l ∧ (s.pc = .idle → Spec.Shows s.vec l) := by
  obtain ⟨l, hlog, h⟩ := inv_run as (inv_start cells) hl hr
  refine ⟨l, hlog, fun hp => ?_⟩
  rw [hp] at h
  exact h

/-- **Each element exactly once**: in every history of the list, what was delivered and what is left is what came in. -/
theorem exactly_once {es : List (Ev α)} : ∀ {l l' : List α}, Spec.Leads l es l' →
    (Spec.delivered es ++ l').Perm (l ++ Spec.pushed es) := by
  induction es with
  | nil => intro l l' h; cases h; simp [Spec.delivered, Spec.pushed]
  | cons e es ih =>
    intro l l' h
    cases e with
    | push x =>
      have := ih h
      simpa [Spec.delivered, Spec.pushed] using this
    | take x =>
      obtain ⟨m, rfl, hm⟩ := h
      have := ih hm
      simp only [Spec.delivered, Spec.pushed, List.cons_append, List.append_assoc, List.nil_append]
      exact (this.cons x).trans List.perm_middle.symm
    | drain xs =>
      obtain ⟨rfl, hm⟩ := h
      have := ih hm
      simp only [Spec.delivered, Spec.pushed, List.append_assoc, List.nil_append] at this ⊢
      exact this.append_left _

/-- Meets the hypotheses: the handler puts an element in between the two stores of a push, and borrows a place while the
main program walks over the elements. -/
example : ∃ s : St Nat, run (start [0, 0, 0, 0])
      [.push 1, .tick, .tick, .irq [.push 2], .tick, .drain, .tick, .tick, .irq [.push 9, .take], .tick, .tick, .irq [.push 3]] =
        some s ∧ s.vec = ⟨[3, 2, 9, 0], 1⟩ ∧ s.log = [.push 1, .push 2, .push 9, .take 9, .drain [1, 2], .push 3] ∧
      Spec.allowed (.grown 1 0) [HOp.push 2] ∧ Spec.allowed (.walk 2 [1]) [HOp.push 9, HOp.take] :=
  ⟨_, rfl, rfl, rfl, nofun, rfl⟩

theorem undefined_inv {s : St α} {l : List α} (h : Inv s l) :
    tick s = none ↔ (∃ v, s.pc = .push v ∧ s.vec.cells.length ≤ s.vec.size) ∨ (s.pc = .take ∧ s.vec.size = 0) := by
  obtain ⟨vec, pc, log⟩ := s
  obtain ⟨_, h⟩ := h
  cases pc with
  | push v =>
    simp only [tick]
    split <;> simp <;> omega
  | take =>
    simp only [tick]
    split <;> simp <;> omega
  | walk n acc =>
    simp only [tick] at h ⊢
    obtain ⟨hs, rfl, _⟩ := h
    split
    · rename_i hlt; rw [shows_get hs hlt]; simp
    · simp
  | back i =>
    simp only [tick] at h ⊢
    rw [shows_get h.1 (i := i) (by have := h.2; omega)]
    simp
  | pop x =>
    simp only [tick] at h ⊢
    obtain ⟨hs, m, rfl⟩ := h
    have := hs.1
    rw [if_neg (by simp at this; omega)]
    simp
  | _ => simp [tick]

/-- **Undefined** is, at a point that a legal schedule reaches, only the next step of a push into a full vector or of a
take from an empty one. -/
theorem undefined_iff (cells : List α) (as : List (Act α)) (s : St α) (hl : Spec.legal (start cells) as)
    (hr : run (start cells) as = some s) :
    tick s = none ↔ (∃ v, s.pc = .push v ∧ s.vec.cells.length ≤ s.vec.size) ∨ (s.pc = .take ∧ s.vec.size = 0) := by
  obtain ⟨l, h⟩ := inv_run as (inv_start cells) hl hr
  exact undefined_inv h

/-- Meets the hypotheses: a full vector, about to push. -/
example : run (start [0]) [.push 5, .tick, .tick, .tick, .push 6] = some (⟨⟨[5], 1⟩, .push 6, [.push 5]⟩ : St Nat) ∧
    tick (⟨⟨[5], 1⟩, .push 6, [.push 5]⟩ : St Nat) = none := ⟨rfl, rfl⟩

/-- the loop over the elements, all of it -/
theorem walk_all {v : Vec α} {l : List α} (hs : Spec.Shows v l) (log : List (Ev α)) (n : Nat) (rest : List (Act α)) :
    ∀ (k : Nat), k ≤ l.length → l.length ≤ n →
    run ⟨v, .walk n (l.take (l.length - k)), log⟩ (List.replicate k .tick ++ rest) = run ⟨v, .walk n l, log⟩ rest := by
  intro k
  induction k with
  | zero => intro _ _; simp
  | succ k ih =>
    intro hk hn
    have hlt : (l.take (l.length - (k + 1))).length = l.length - (k + 1) := by rw [List.length_take]; omega
    have hg := shows_get hs (i := l.length - (k + 1)) (by omega)
    have he : l.take (l.length - (k + 1)) ++ [l[l.length - (k + 1)]'(by omega)] = l.take (l.length - k) := by
      rw [show l.length - k = l.length - (k + 1) + 1 from by omega, List.take_add_one,
        List.getElem?_eq_getElem (by omega)]
      rfl
    rw [List.replicate_succ, List.cons_append, run, step, tick]
    simp only [hlt]
    rw [if_pos (by omega), hg]
    simp only [Option.map_some, Option.bind_some, he]
    exact ih (by omega) hn

/-- the handler's push, as it is seen -/
theorem shows_room {v : Vec α} {l : List α} (hs : Spec.Shows v l) (hroom : l.length < v.cells.length) (y : α) :
    v.push y = some ⟨v.cells.set l.length y, l.length + 1⟩ := by
  unfold Vec.push
  rw [hs.1, if_pos hroom]

/-- **Violation.**  An element that comes in while the main program walks over the elements, before it clears, is lost:
here at the end of the walk. -/
theorem drain_loses (v : Vec α) (l : List α) (y : α) (log : List (Ev α)) (hs : Spec.Shows v l)
    (hroom : l.length < v.cells.length) :
    ∃ s, run ⟨v, .idle, log⟩ ([.drain, .tick] ++ List.replicate l.length .tick ++ [.irq [.push y], .tick]) = some s ∧
      s.pc = .idle ∧ s.log = log ++ [.push y, .drain l] ∧ Spec.Shows s.vec [] := by
  have hw := walk_all hs log l.length [.irq [.push y], .tick] l.length (Nat.le_refl _) (Nat.le_refl _)
  rw [Nat.sub_self, List.take_zero] at hw
  refine ⟨⟨⟨v.cells.set l.length y, 0⟩, .idle, log ++ [.push y, .drain l]⟩, ?_, rfl, rfl, rfl, by simp⟩
  simp only [List.cons_append, List.nil_append, List.append_assoc]
  rw [run, step, Option.bind_some, run, step, tick, Option.bind_some]
  simp only [hs.1]
  rw [hw]
  simp [run, step, irq, HOp.run, shows_room hs hroom, tick]

/-- **Violation.**  An element that comes in between `back()` and `pop_back()` is removed in place of the one that was
read, which stays and is delivered again. -/
theorem take_loses (v : Vec α) (m : List α) (x y : α) (log : List (Ev α)) (hs : Spec.Shows v (m ++ [x]))
    (hroom : m.length + 1 < v.cells.length) :
    ∃ s, run ⟨v, .idle, log⟩ [.take, .tick, .tick, .irq [.push y], .tick, .tick] = some s ∧
      s.pc = .idle ∧ s.log = log ++ [.push y, .take x] ∧ Spec.Shows s.vec (m ++ [x]) := by
  have hsz : v.size = m.length + 1 := by have := hs.1; simpa using this
  have hg : rd v.cells m.length = some x := by
    have := shows_get hs (i := m.length) (by simp)
    simpa using this
  have hp := shows_room hs (by simpa using hroom) y
  simp only [List.length_append, List.length_singleton] at hp
  refine ⟨⟨⟨v.cells.set (m.length + 1) y, m.length + 1⟩, .idle, log ++ [.push y, .take x]⟩, ?_, rfl, rfl, by simp, ?_⟩
  · simp [run, step, tick, hsz, hg, irq, HOp.run, hp]
  · simp only
    rw [List.take_set_of_le (Nat.le_refl _), ← hsz, hs.2]

/-- **Violation.**  An element that the handler puts in between the load of the size and its store, in a push of the main
program, is overwritten. -/
theorem push_loses (v : Vec α) (l : List α) (x y : α) (log : List (Ev α)) (hs : Spec.Shows v l)
    (hroom : l.length < v.cells.length) :
    ∃ s, run ⟨v, .idle, log⟩ [.push x, .tick, .irq [.push y], .tick, .tick] = some s ∧
      s.pc = .idle ∧ s.log = log ++ [.push y, .push x] ∧ Spec.Shows s.vec (l ++ [x]) := by
  have hp := shows_room hs hroom y
  have hx := shows_push hs (shows_room hs hroom x)
  refine ⟨⟨⟨v.cells.set l.length x, l.length + 1⟩, .idle, log ++ [.push y, .push x]⟩, ?_, rfl, rfl, hx⟩
  simp [run, step, tick, hs.1, hroom, irq, HOp.run, hp]

/-- **Violation.**  A handler that takes all the elements between the two stores of a push is given, for the element that
is being pushed, what the memory happens to hold; the element itself is never delivered. -/
theorem push_garbage (v : Vec α) (l : List α) (x old : α) (log : List (Ev α)) (hs : Spec.Shows v l)
    (hold : rd v.cells l.length = some old) :
    ∃ s, run ⟨v, .idle, log⟩ [.push x, .tick, .tick, .irq [.drain], .tick] = some s ∧
      s.pc = .idle ∧ s.log = log ++ [.push x, .drain (l ++ [old])] ∧ Spec.Shows s.vec [] := by
  have hroom : l.length < v.cells.length := (List.getElem?_eq_some_iff.mp hold).1
  have ht : v.cells.take (l.length + 1) = l ++ [old] := by
    have h2 := hs.2
    rw [hs.1] at h2
    unfold rd at hold
    rw [List.take_add_one, h2, hold]
    rfl
  refine ⟨⟨⟨v.cells.set l.length x, 0⟩, .idle, log ++ [.push x, .drain (l ++ [old])]⟩, ?_, rfl, rfl, rfl, by simp⟩
  simp [run, step, tick, hs.1, hroom, irq, HOp.run, Vec.drain, ht]

/-- **Violation.**  A handler that takes all the elements between the load of the size and its store does not get rid of
them: after the push they are all there again, to be delivered a second time. -/
theorem push_replays (v : Vec α) (l : List α) (x : α) (log : List (Ev α)) (hs : Spec.Shows v l)
    (hroom : l.length < v.cells.length) :
    ∃ s, run ⟨v, .idle, log⟩ [.push x, .tick, .irq [.drain], .tick, .tick] = some s ∧
      s.pc = .idle ∧ s.log = log ++ [.drain l, .push x] ∧ Spec.Shows s.vec (l ++ [x]) := by
  have hx := shows_push hs (shows_room hs hroom x)
  have h2 := hs.2
  rw [hs.1] at h2
  refine ⟨⟨⟨v.cells.set l.length x, l.length + 1⟩, .idle, log ++ [.drain l, .push x]⟩, ?_, rfl, rfl, hx⟩
  simp [run, step, tick, hs.1, hroom, irq, HOp.run, Vec.drain, h2]

/-- Meets the hypotheses of the five. -/
example : Spec.Shows (⟨[1, 2, 7, 8], 2⟩ : Vec Nat) ([1] ++ [2]) ∧ rd [1, 2, 7, 8] 2 = some 7 ∧
    run (⟨⟨[1, 2, 7, 8], 2⟩, .idle, []⟩ : St Nat) [.push 5, .tick, .tick, .irq [.drain], .tick] =
      some ⟨⟨[1, 2, 5, 8], 0⟩, .idle, [.push 5, .drain [1, 2, 7]]⟩ := ⟨⟨rfl, rfl⟩, rfl, rfl⟩

end Verif.DynArray.Handler
