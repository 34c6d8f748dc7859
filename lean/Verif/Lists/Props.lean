import Verif.Lists.Model
/-!
# Property theorems for the linked lists (C24, C25, C26)
-/
namespace Verif.Lists
open Verif

/-! ## Specification: node sequences -/

/-- Insert `n` right after `pos`. -/
def Spec.insertAfter (pos n : Nat) : List Nat → List Nat
  | [] => []
  | a :: l => if a = pos then a :: n :: l else a :: Spec.insertAfter pos n l

/-- Remove the node right after `pos`. -/
def Spec.eraseAfter (pos : Nat) : List Nat → List Nat
  | [] => []
  | a :: l => if a = pos then a :: l.tail else a :: Spec.eraseAfter pos l

/-- Insert `n` right before `pos`. -/
def Spec.insertBefore (pos n : Nat) : List Nat → List Nat
  | [] => []
  | a :: l => if a = pos then n :: a :: l else a :: Spec.insertBefore pos n l

theorem Spec.insertAfter_split {pos n : Nat} {l1 l2 : List Nat} (h : pos ∉ l1) :
    Spec.insertAfter pos n (l1 ++ pos :: l2) = l1 ++ pos :: n :: l2 := by
  induction l1 with
  | nil => simp [Spec.insertAfter]
  | cons a l1 ih => simp at h; simp [Spec.insertAfter, ih h.2, Ne.symm h.1]

theorem Spec.eraseAfter_split {pos : Nat} {l1 l2 : List Nat} (h : pos ∉ l1) :
    Spec.eraseAfter pos (l1 ++ pos :: l2) = l1 ++ pos :: l2.tail := by
  induction l1 with
  | nil => simp [Spec.eraseAfter]
  | cons a l1 ih => simp at h; simp [Spec.eraseAfter, ih h.2, Ne.symm h.1]

theorem Spec.insertBefore_split {pos n : Nat} {l1 l2 : List Nat} (h : pos ∉ l1) :
    Spec.insertBefore pos n (l1 ++ pos :: l2) = l1 ++ n :: pos :: l2 := by
  induction l1 with
  | nil => simp [Spec.insertBefore]
  | cons a l1 ih => simp at h; simp [Spec.insertBefore, ih h.2, Ne.symm h.1]

theorem split_mem {a : Nat} {l : List Nat} (h : a ∈ l) (hnd : l.Nodup) :
    ∃ l1 l2, l = l1 ++ a :: l2 ∧ a ∉ l1 ∧ a ∉ l2 := by
  obtain ⟨l1, l2, rfl⟩ := List.append_of_mem h
  have := List.nodup_append.mp hnd
  refine ⟨l1, l2, rfl, fun hm => this.2.2 a hm a (by simp) rfl, ?_⟩
  exact (List.nodup_cons.mp this.2.1).1

/-- Splicing a new node after `q`. -/
theorem seg_insert_after {nx : List (Option Nat)} {p r v : Option Nat} {l1 l2 : List Nat} {q n : Nat}
    (h : Seg nx p (l1 ++ q :: l2) r) (hq1 : q ∉ l1) (hq2 : q ∉ l2) (hn : n ∉ l1 ++ q :: l2)
    (hnl : n < nx.length) (hv : nx[q]? = some v) :
    Seg ((nx.set q (some n)).set n v) p (l1 ++ q :: n :: l2) r := by
  simp only [List.mem_append, List.mem_cons, not_or] at hn
  obtain ⟨hn1, hnq, hn2⟩ := hn
  obtain ⟨r1, h1, hr1, w, hw, h2⟩ := Seg.append_iff.mp h
  rw [hv] at hw; cases hw
  have hql : q < nx.length := (List.getElem?_eq_some_iff.mp hv).1
  refine Seg.append_iff.mpr ⟨r1, Seg.set_ne hn1 (Seg.set_ne hq1 h1), hr1, some n, ?_, rfl, v, ?_, ?_⟩
  · rw [List.getElem?_set_ne hnq]; simp [hql]
  · simp [hnl]
  · exact Seg.set_ne hn2 (Seg.set_ne hq2 h2)

/-! ## C24: forward list -/

/-- Operations of a forward-list history; nodes are named by address. -/
inductive Op where
  | pushFront (n : Nat)
  | popFront
  | insertAfter (pos n : Nat)
  | eraseAfter (pos : Nat)
  | replaceAfter (pos n : Nat)
  | clear

def step (s : FList) : Op → Option FList
  | .pushFront n => pushFront s n
  | .popFront => popFront s
  | .insertAfter pos n => insertAfter s pos n
  | .eraseAfter pos => eraseAfter s pos
  | .replaceAfter pos n => replaceAfter s pos n
  | .clear => some (clear s)

def run : List Op → FList → Option FList
  | [], s => some s
  | op :: ops, s =>
    match step s op with
    | none => none
    | some s' => run ops s'

/-- Effect of an operation on the node sequence. -/
def Spec.apply (l : List Nat) : Op → List Nat
  | .pushFront n => n :: l
  | .popFront => l.tail
  | .insertAfter pos n => Spec.insertAfter pos n l
  | .eraseAfter pos => Spec.eraseAfter pos l
  | .replaceAfter pos n => Spec.insertAfter pos n (Spec.eraseAfter pos l)
  | .clear => []

/-- Contract: a node is inserted only while not on the list, positions are on the list, something follows an
erase position.  `size` is the number of existing nodes. -/
def Spec.allowed (size : Nat) (l : List Nat) : Op → Prop
  | .pushFront n => n < size ∧ n ∉ l
  | .popFront => l ≠ []
  | .insertAfter pos n => n < size ∧ n ∉ l ∧ pos ∈ l
  | .eraseAfter pos => pos ∈ l ∧ l.getLast? ≠ some pos
  | .replaceAfter pos n => n < size ∧ n ∉ l ∧ pos ∈ l ∧ l.getLast? ≠ some pos
  | .clear => True

def Spec.run : List Op → List Nat → List Nat
  | [], l => l
  | op :: ops, l => Spec.run ops (Spec.apply l op)

def Spec.Legal (size : Nat) : List Op → List Nat → Prop
  | [], _ => True
  | op :: ops, l => Spec.allowed size l op ∧ Spec.Legal size ops (Spec.apply l op)

theorem step_insertAfter {s : FList} {l : List Nat} {pos n : Nat} (h : Chain s.nx s.front l)
    (hn : n < s.nx.length) (hnl : n ∉ l) (hp : pos ∈ l) :
    ∃ s', insertAfter s pos n = some s' ∧ s'.nx.length = s.nx.length ∧
      Chain s'.nx s'.front (Spec.insertAfter pos n l) := by
  obtain ⟨l1, l2, rfl, h1, h2⟩ := split_mem hp (Chain.nodup h)
  have hpl := Seg.lt h pos hp
  obtain ⟨v, hv⟩ : ∃ v, s.nx[pos]? = some v := ⟨_, List.getElem?_eq_getElem hpl⟩
  refine ⟨{ s with nx := (s.nx.set pos (some n)).set n v }, ?_, by simp, ?_⟩
  · have hn' : n < (s.nx.set pos (some n)).length := by simpa using hn
    simp [insertAfter, nextOf, setNext, rd, hv, wr_lt hpl, wr_lt hn']
  · rw [Spec.insertAfter_split h1]
    exact seg_insert_after h h1 h2 hnl hn hv

theorem step_eraseAfter {s : FList} {l : List Nat} {pos : Nat} (h : Chain s.nx s.front l)
    (hp : pos ∈ l) (hlast : l.getLast? ≠ some pos) :
    ∃ s', eraseAfter s pos = some s' ∧ s'.nx.length = s.nx.length ∧
      Chain s'.nx s'.front (Spec.eraseAfter pos l) := by
  have hnd := Chain.nodup h
  obtain ⟨l1, l2, rfl, h1, h2⟩ := split_mem hp hnd
  cases l2 with
  | nil => simp at hlast
  | cons x l2 =>
    have hpl := Seg.lt h pos hp
    obtain ⟨r1, g1, hr1, v, hv, hx, w, hw, g2⟩ := Seg.append_iff.mp h
    subst hx
    refine ⟨{ s with nx := s.nx.set pos w }, ?_, by simp, ?_⟩
    · simp [eraseAfter, nextOf, setNext, rd, hv, hw, wr_lt hpl]
    · rw [Spec.eraseAfter_split h1]
      simp only [List.mem_cons, not_or] at h2
      exact Seg.append_iff.mpr ⟨r1, Seg.set_ne h1 g1, hr1, w, by simp [hpl], Seg.set_ne h2.2 g2⟩

theorem Spec.eraseAfter_mem {pos a : Nat} {l : List Nat} (h : a ∈ Spec.eraseAfter pos l) : a ∈ l := by
  induction l with
  | nil => simp [Spec.eraseAfter] at h
  | cons b l ih =>
    simp only [Spec.eraseAfter] at h
    split at h
    · rcases List.mem_cons.mp h with rfl | h
      · simp
      · exact List.mem_cons_of_mem _ (List.mem_of_mem_tail h)
    · rcases List.mem_cons.mp h with rfl | h
      · simp
      · exact List.mem_cons_of_mem _ (ih h)

theorem Spec.eraseAfter_pos {pos : Nat} {l : List Nat} (h : pos ∈ l) : pos ∈ Spec.eraseAfter pos l := by
  induction l with
  | nil => simp at h
  | cons b l ih =>
    simp only [Spec.eraseAfter]
    split
    · rename_i hb; simp [hb]
    · rename_i hb
      rcases List.mem_cons.mp h with rfl | h
      · exact absurd rfl hb
      · exact List.mem_cons_of_mem _ (ih h)

theorem step_spec {s : FList} {l : List Nat} (h : Chain s.nx s.front l) (op : Op)
    (ha : Spec.allowed s.nx.length l op) :
    ∃ s', step s op = some s' ∧ s'.nx.length = s.nx.length ∧ Chain s'.nx s'.front (Spec.apply l op) := by
  cases op with
  | pushFront n =>
    obtain ⟨hn, hnl⟩ := ha
    refine ⟨⟨s.nx.set n s.front, some n⟩, by simp [step, pushFront, setNext, wr_lt hn], by simp, ?_⟩
    exact ⟨rfl, s.front, by simp [hn], Seg.set_ne hnl h⟩
  | popFront =>
    cases l with
    | nil => exact absurd rfl ha
    | cons a l =>
      obtain ⟨hp, v, hv, ht⟩ := h
      refine ⟨{ s with front := v }, by simp [step, popFront, nextOf, hp, rd, hv], rfl, ht⟩
  | insertAfter pos n => exact step_insertAfter h ha.1 ha.2.1 ha.2.2
  | eraseAfter pos => exact step_eraseAfter h ha.1 ha.2
  | replaceAfter pos n =>
    obtain ⟨s1, e1, e2, e3⟩ := step_eraseAfter h ha.2.2.1 ha.2.2.2
    obtain ⟨s2, f1, f2, f3⟩ := step_insertAfter e3 (n := n) (by rw [e2]; exact ha.1)
      (fun hm => ha.2.1 (Spec.eraseAfter_mem hm)) (Spec.eraseAfter_pos ha.2.2.1)
    exact ⟨s2, by simp [step, replaceAfter, e1, f1], by omega, f3⟩
  | clear => exact ⟨clear s, rfl, rfl, rfl⟩

/-- C24: after any legal history on an empty list over arbitrary node memory, no operation dereferenced a
null or foreign node, and following `next` from the front passes exactly the abstract node sequence and then
ends - in particular no node is lost, duplicated or on a cycle. -/
theorem forward_list_history (nx : List (Option Nat)) (ops : List Op) (hl : Spec.Legal nx.length ops []) :
    ∃ s, run ops ⟨nx, none⟩ = some s ∧ Chain s.nx s.front (Spec.run ops []) ∧ (Spec.run ops []).Nodup := by
  have key : ∀ ops (s : FList) l, Chain s.nx s.front l → Spec.Legal s.nx.length ops l →
      ∃ s', run ops s = some s' ∧ Chain s'.nx s'.front (Spec.run ops l) := by
    intro ops
    induction ops with
    | nil => intro s l h _; exact ⟨s, rfl, h⟩
    | cons op ops ih =>
      intro s l h hl
      obtain ⟨s1, e1, e2, e3⟩ := step_spec h op hl.1
      obtain ⟨s', f1, f2⟩ := ih s1 _ e3 (by rw [e2]; exact hl.2)
      exact ⟨s', by simp [run, e1, f1], f2⟩
  obtain ⟨s, e1, e2⟩ := key ops ⟨nx, none⟩ [] rfl hl
  exact ⟨s, e1, e2, Chain.nodup e2⟩

example : Spec.Legal 5 [.pushFront 1, .pushFront 3, .insertAfter 1 0, .eraseAfter 3, .replaceAfter 3 4, .popFront] [] := by
  simp [Spec.Legal, Spec.allowed, Spec.apply, Spec.insertAfter, Spec.eraseAfter]

/-- Erasing after the last node is undefined. -/
theorem erase_after_last_undefined (nx : List (Option Nat)) (p : Option Nat) (l : List Nat) (pos : Nat)
    (h : Chain nx p l) (hp : l.getLast? = some pos) : eraseAfter ⟨nx, p⟩ pos = none := by
  obtain ⟨l1, rfl⟩ : ∃ l1, l = l1 ++ [pos] := by
    rw [List.getLast?_eq_some_iff] at hp; exact hp
  obtain ⟨r, -, -, v, hv, h3⟩ := Seg.append_iff.mp h
  have : v = none := h3
  subst this
  simp [eraseAfter, nextOf, rd, hv]

example : Chain [some 1, none] (some 0) [0, 1] ∧ [0, 1].getLast? = some 1 := by
  exact ⟨⟨rfl, some 1, rfl, rfl, none, rfl, rfl⟩, rfl⟩

/-- `before_begin` of a circular list with head `h` is its last node. -/
theorem circular_before_begin (nx : List (Option Nat)) (h : Nat) (l : List Nat) (hnd : (h :: l).Nodup)
    (hs : Seg nx (some h) (h :: l) (some h)) (fuel : Nat) (hf : l.length < fuel) :
    beforeBegin nx h fuel h = (h :: l).getLast? := by
  have key : ∀ (l : List Nat) (c fuel : Nat), h ∉ l → Seg nx (some c) (c :: l) (some h) → l.length < fuel →
      beforeBegin nx h fuel c = (c :: l).getLast? := by
    intro l
    induction l with
    | nil =>
      intro c fuel _ hs hf
      obtain ⟨fuel, rfl⟩ : ∃ k, fuel = k + 1 := ⟨fuel - 1, by omega⟩
      obtain ⟨-, v, hv, he⟩ := hs
      have : v = some h := he
      subst this
      simp [beforeBegin, nextOf, rd, hv]
    | cons b l ih =>
      intro c fuel hh hs hf
      obtain ⟨fuel, rfl⟩ : ∃ k, fuel = k + 1 := ⟨fuel - 1, by omega⟩
      obtain ⟨-, v, hv, he⟩ := hs
      have hvb : v = some b := he.1
      subst hvb
      simp at hh
      have hne : b ≠ h := Ne.symm hh.1
      simp only [beforeBegin, nextOf, rd, hv, Option.some.injEq, if_neg hne]
      rw [ih b fuel hh.2 he (by simp at hf; omega)]
      simp [List.getLast?_cons_cons]
  exact key l h fuel (List.nodup_cons.mp hnd).1 hs hf

example : beforeBegin [some 2, some 0, some 1] 0 4 0 = some 1 := by decide +kernel

/-! ## C25: remove_if -/

/-- What the code's `remove_if` keeps: a match is dropped only when its predecessor was *not* dropped. -/
def Spec.keepAlt (p : Nat → Bool) : Bool → List Nat → List Nat
  | _, [] => []
  | prevDropped, a :: l =>
    if p a && !prevDropped then Spec.keepAlt p true l else a :: Spec.keepAlt p false l

/-- No two neighbours both match. -/
def Spec.NoAdjacent (p : Nat → Bool) : List Nat → Prop
  | a :: b :: l => ¬ (p a = true ∧ p b = true) ∧ Spec.NoAdjacent p (b :: l)
  | _ => True

theorem seg_set_last {nx : List (Option Nat)} {p q v : Option Nat} {l : List Nat} {a : Nat}
    (h : Seg nx p (l ++ [a]) q) (ha : a ∉ l) : Seg (nx.set a v) p (l ++ [a]) v := by
  obtain ⟨r, h1, h2, w, hw, -⟩ := Seg.append_iff.mp h
  have hal := (List.getElem?_eq_some_iff.mp hw).1
  exact Seg.append_iff.mpr ⟨r, Seg.set_ne ha h1, h2, v, by simp [hal], rfl⟩

/-- Loop invariant of `remove_if`: `kept` are the nodes passed and kept, `rest` the nodes still to visit.
If the previous node was kept, it is the last of `kept` and links on to `rest`; if it was dropped, it is off
the list and the list links on to `rest` without it. -/
theorem removeLoop_spec (p : Nat → Bool) (fuel : Nat) (s : FList) (kept rest : List Nat) (cur prev : Option Nat)
    (dropped : Bool)
    (hfuel : rest.length ≤ fuel)
    (hk : Seg s.nx s.front kept cur) (hr : Chain s.nx cur rest) (hnd : (kept ++ rest).Nodup)
    (hprev : if dropped then ∃ q, prev = some q ∧ q ∉ kept ∧ q ∉ rest ∧ q < s.nx.length
             else prev = kept.getLast?) :
    ∃ s', removeLoop p false fuel s cur prev = some s' ∧
      Chain s'.nx s'.front (kept ++ Spec.keepAlt p dropped rest) := by
  induction rest generalizing fuel s kept cur prev dropped with
  | nil =>
    have : cur = none := hr
    subst this
    refine ⟨s, by cases fuel <;> rfl, ?_⟩
    simpa [Spec.keepAlt] using hk
  | cons a rest ih =>
    obtain ⟨hc, nxt, hnx, ht⟩ := hr
    subst hc
    obtain ⟨fuel, rfl⟩ : ∃ k, fuel = k + 1 := ⟨fuel - 1, by simp at hfuel; omega⟩
    have hnd' := List.nodup_append.mp hnd
    have hak : a ∉ kept := fun hm => hnd'.2.2 a hm a (by simp) rfl
    have har : a ∉ rest := (List.nodup_cons.mp hnd'.2.1).1
    have hal : a < s.nx.length := (List.getElem?_eq_some_iff.mp hnx).1
    have hfuel' : rest.length ≤ fuel := by simp at hfuel; omega
    have hndk : (kept ++ rest).Nodup := by
      refine List.nodup_append.mpr ⟨hnd'.1, (List.nodup_cons.mp hnd'.2.1).2, ?_⟩
      intro x hx y hy; exact hnd'.2.2 x hx y (List.mem_cons_of_mem _ hy)
    have hndka : ((kept ++ [a]) ++ rest).Nodup := by simpa using hnd
    by_cases hp : p a = true
    · cases dropped with
      | true =>
        simp only [if_true] at hprev
        obtain ⟨q, rfl, hqk, hqr, hql⟩ := hprev
        simp only [List.mem_cons, not_or] at hqr
        obtain ⟨s', e1, e2⟩ := ih fuel { s with nx := s.nx.set q nxt } (kept ++ [a]) nxt (some a) false hfuel'
          (Seg.append_iff.mpr ⟨some a, Seg.set_ne hqk hk, rfl, nxt, by rw [List.getElem?_set_ne hqr.1]; exact hnx, rfl⟩)
          (Seg.set_ne hqr.2 ht) hndka (by simp)
        refine ⟨s', ?_, by simpa [Spec.keepAlt, hp] using e2⟩
        simp [removeLoop, nextOf, rd, hnx, hp, setNext, wr_lt hql, e1]
      | false =>
        simp only [Bool.false_eq_true, if_false] at hprev
        by_cases hke : kept = []
        · subst hke
          simp at hprev; subst hprev
          obtain ⟨s', e1, e2⟩ := ih fuel { s with front := nxt } [] nxt (some a) true hfuel'
            rfl ht (by simpa using hndk) (by simpa using ⟨har, hal⟩)
          refine ⟨s', ?_, by simpa [Spec.keepAlt, hp] using e2⟩
          simp [removeLoop, nextOf, rd, hnx, hp, e1]
        · obtain ⟨k', q, rfl⟩ : ∃ k' q, kept = k' ++ [q] :=
            ⟨kept.dropLast, kept.getLast hke, (List.dropLast_concat_getLast hke).symm⟩
          simp at hprev; subst hprev
          have hqk : q ∉ k' := by
            have := (List.nodup_append.mp hnd'.1).2.2
            intro hm; exact this q hm q (by simp) rfl
          have hqr : q ∉ rest := fun hm => hnd'.2.2 q (by simp) q (List.mem_cons_of_mem _ hm) rfl
          have hql : q < s.nx.length := Seg.lt hk q (by simp)
          have hseg := seg_set_last (v := nxt) hk hqk
          obtain ⟨s', e1, e2⟩ := ih fuel { s with nx := s.nx.set q nxt } (k' ++ [q]) nxt (some a) true hfuel'
            hseg (Seg.set_ne hqr ht) hndk (by
              simp only [if_true]
              exact ⟨a, rfl, hak, har, by simpa using hal⟩)
          refine ⟨s', ?_, by simpa [Spec.keepAlt, hp] using e2⟩
          simp [removeLoop, nextOf, rd, hnx, hp, setNext, wr_lt hql, e1]
    · obtain ⟨s', e1, e2⟩ := ih fuel s (kept ++ [a]) nxt (some a) false hfuel'
        (Seg.append_iff.mpr ⟨some a, hk, rfl, nxt, hnx, rfl⟩) ht hndka (by simp)
      refine ⟨s', ?_, by simpa [Spec.keepAlt, hp] using e2⟩
      simp [removeLoop, nextOf, rd, hnx, hp, e1]

theorem chain_length_le {nx : List (Option Nat)} {p : Option Nat} {l : List Nat} (h : Chain nx p l) :
    l.length ≤ nx.length := by
  exact nodup_length_le (Chain.nodup h) (Seg.lt h)

/-- C25, exact effect of the code: what `remove_if(p)` leaves on any list, for any predicate. -/
theorem remove_if_effect (p : Nat → Bool) (s : FList) (l : List Nat) (h : Chain s.nx s.front l) :
    ∃ s', removeIf p false s = some s' ∧ Chain s'.nx s'.front (Spec.keepAlt p false l) := by
  have := removeLoop_spec p (s.nx.length + 1) s [] l s.front none false
    (by have := chain_length_le h; omega) rfl h (by simpa using Chain.nodup h) (by simp)
  simpa [removeIf] using this

theorem keepAlt_filter (p : Nat → Bool) (l : List Nat) (h : Spec.NoAdjacent p l) :
    Spec.keepAlt p false l = l.filter (fun a => !p a) ∧
      (∀ a t, l = a :: t → p a = false → Spec.keepAlt p true l = l.filter (fun a => !p a)) := by
  induction l with
  | nil => simp [Spec.keepAlt]
  | cons a l ih =>
    have htail : Spec.NoAdjacent p l := by
      cases l with
      | nil => trivial
      | cons b l => exact h.2
    obtain ⟨ih1, ih2⟩ := ih htail
    constructor
    · by_cases hp : p a = true
      · cases l with
        | nil => simp [Spec.keepAlt, hp]
        | cons b l =>
          have hb : p b = false := by
            have := h.1; cases hpb : p b <;> simp_all
          have := ih2 b l rfl hb
          simp only [Spec.keepAlt, hp, Bool.not_false, Bool.and_self, if_true]
          simp only [Spec.keepAlt] at this
          rw [this]; simp [hp]
      · simp [Spec.keepAlt, hp, ih1]
    · intro a' t he hpa
      cases he
      simp [Spec.keepAlt, hpa, ih1]

/-- C25, partial: when no two neighbouring elements match, `remove_if(p)` leaves exactly the elements not
satisfying `p`, in order.  Missing: lists with adjacent matches, where the property fails
(`remove_if_adjacent_survives`). -/
theorem remove_if_partial (p : Nat → Bool) (s : FList) (l : List Nat) (h : Chain s.nx s.front l)
    (hna : Spec.NoAdjacent p l) :
    ∃ s', removeIf p false s = some s' ∧ Chain s'.nx s'.front (l.filter fun a => !p a) := by
  have := remove_if_effect p s l h
  rwa [(keepAlt_filter p l hna).1] at this

example : Spec.NoAdjacent (fun a => a == 1 || a == 3) [1, 2, 3, 4] ∧
    Chain [none, some 2, some 3, some 4, none] (some 1) [1, 2, 3, 4] := by
  refine ⟨by simp [Spec.NoAdjacent], ?_⟩
  exact ⟨rfl, _, rfl, rfl, _, rfl, rfl, _, rfl, rfl, _, rfl, rfl⟩

theorem keepAlt_clean (p : Nat → Bool) (l : List Nat) (d : Bool) (h : ∀ a ∈ Spec.keepAlt p d l, p a = false) :
    Spec.NoAdjacent p l ∧ (d = true → ∀ a t, l = a :: t → p a = false) := by
  induction l generalizing d with
  | nil => simp [Spec.NoAdjacent]
  | cons a l ih =>
    by_cases hp : p a = true
    · cases d with
      | true =>
        simp only [Spec.keepAlt, Bool.not_true, Bool.and_false, Bool.false_eq_true, if_false] at h
        have := h a (by simp)
        simp [hp] at this
      | false =>
        simp only [Spec.keepAlt, hp, Bool.not_false, Bool.and_self, if_true] at h
        obtain ⟨h1, h2⟩ := ih true h
        refine ⟨?_, by simp⟩
        cases l with
        | nil => trivial
        | cons b l =>
          refine ⟨fun hb => ?_, h1⟩
          have := h2 rfl b l rfl
          simp [hb.2] at this
    · have hpf : p a = false := by simpa using hp
      simp only [Spec.keepAlt, hpf, Bool.false_and, Bool.false_eq_true, if_false] at h
      obtain ⟨h1, _⟩ := ih false (fun x hx => h x (by simp [hx]))
      refine ⟨?_, fun _ x t he => by cases he; exact hpf⟩
      cases l with
      | nil => trivial
      | cons b l => exact ⟨fun hb => by simp [hpf] at hb, h1⟩

/-- C25 fails on *every* list with two neighbouring matches: **Violation.** an element satisfying `p` is left on the list. -/
theorem remove_if_adjacent_survives (p : Nat → Bool) (s : FList) (l : List Nat) (h : Chain s.nx s.front l)
    (ha : ¬ Spec.NoAdjacent p l) :
    ∃ s' l', removeIf p false s = some s' ∧ Chain s'.nx s'.front l' ∧ ∃ a ∈ l', p a = true := by
  obtain ⟨s', h1, h2⟩ := remove_if_effect p s l h
  refine ⟨s', _, h1, h2, ?_⟩
  apply Classical.byContradiction
  intro hc
  apply ha
  refine (keepAlt_clean p l false fun a hm => ?_).1
  cases hp : p a with
  | false => rfl
  | true => exact absurd ⟨a, hm, hp⟩ hc

/-- of two matching nodes, the second stays on the list -/
example : removeIf (fun _ => true) false ⟨[some 1, none], some 0⟩ = some ⟨[none, none], some 1⟩ := by
  decide +kernel

/-- C25: with `first_only` the first match, and only it, is removed. -/
theorem remove_if_first_only (p : Nat → Bool) (s : FList) (l : List Nat) (h : Chain s.nx s.front l) :
    ∃ s', removeIf p true s = some s' ∧ Chain s'.nx s'.front (l.eraseP p) := by
  have key : ∀ (rest : List Nat) (fuel : Nat) (kept : List Nat) (cur : Option Nat), rest.length ≤ fuel →
      Seg s.nx s.front kept cur → Chain s.nx cur rest → (kept ++ rest).Nodup →
      ∃ s', removeLoop p true fuel s cur kept.getLast? = some s' ∧
        Chain s'.nx s'.front (kept ++ rest.eraseP p) := by
    intro rest
    induction rest with
    | nil =>
      intro fuel kept cur _ hk hr _
      have : cur = none := hr
      subst this
      exact ⟨s, by cases fuel <;> rfl, by simpa using hk⟩
    | cons a rest ih =>
      intro fuel kept cur hfuel hk hr hnd
      obtain ⟨hc, nxt, hnx, ht⟩ := hr
      subst hc
      obtain ⟨fuel, rfl⟩ : ∃ k, fuel = k + 1 := ⟨fuel - 1, by simp at hfuel; omega⟩
      have hnd' := List.nodup_append.mp hnd
      by_cases hp : p a = true
      · by_cases hke : kept = []
        · subst hke
          exact ⟨{ s with front := nxt }, by simp [removeLoop, nextOf, rd, hnx, hp], by simpa [hp] using ht⟩
        · obtain ⟨k', q, rfl⟩ : ∃ k' q, kept = k' ++ [q] :=
            ⟨kept.dropLast, kept.getLast hke, (List.dropLast_concat_getLast hke).symm⟩
          have hqk : q ∉ k' := by
            have := (List.nodup_append.mp hnd'.1).2.2
            intro hm; exact this q hm q (by simp) rfl
          have hqr : q ∉ rest := fun hm => hnd'.2.2 q (by simp) q (List.mem_cons_of_mem _ hm) rfl
          have hql : q < s.nx.length := Seg.lt hk q (by simp)
          refine ⟨{ s with nx := s.nx.set q nxt }, by simp [removeLoop, nextOf, rd, hnx, hp, setNext, wr_lt hql], ?_⟩
          rw [List.eraseP_cons_of_pos hp]
          exact Seg.append_iff.mpr ⟨nxt, seg_set_last hk hqk, Seg.set_ne hqr ht⟩
      · obtain ⟨s', e1, e2⟩ := ih fuel (kept ++ [a]) nxt (by simp at hfuel; omega)
          (Seg.append_iff.mpr ⟨some a, hk, rfl, nxt, hnx, rfl⟩) ht (by simpa using hnd)
        simp at e1
        refine ⟨s', by simp [removeLoop, nextOf, rd, hnx, hp, e1], ?_⟩
        rw [List.eraseP_cons_of_neg hp]; simpa using e2
  have := key l (s.nx.length + 1) [] s.front (by have := chain_length_le h; omega) rfl h
    (by simpa using Chain.nodup h)
  simpa [removeIf] using this

/-! ## forward_list_with_back -/

/-- A list that tracks its back: pushes at either end agree with the sequence, for nodes whose `next` is
null when pushed at the back. -/
theorem with_back_push (s : BList) (l : List Nat) (n : Nat) (h : Chain s.nx s.front l)
    (hb : s.back = l.getLast?) (hn : n ∉ l) (hfresh : s.nx[n]? = some none) :
    (∃ s', bPushBack s n = some s' ∧ Chain s'.nx s'.front (l ++ [n]) ∧ s'.back = some n) ∧
    (∃ s', bPushFront s n = some s' ∧ Chain s'.nx s'.front (n :: l) ∧ s'.back = (n :: l).getLast?) := by
  have hnl : n < s.nx.length := (List.getElem?_eq_some_iff.mp hfresh).1
  constructor
  · by_cases hl : l = []
    · subst hl
      simp at hb
      exact ⟨⟨s.nx, some n, some n⟩, by simp [bPushBack, hb], ⟨rfl, none, hfresh, rfl⟩, rfl⟩
    · obtain ⟨k, q, rfl⟩ : ∃ k q, l = k ++ [q] :=
        ⟨l.dropLast, l.getLast hl, (List.dropLast_concat_getLast hl).symm⟩
      simp at hb
      have hnd := Chain.nodup h
      have hqk : q ∉ k := fun hm => (List.nodup_append.mp hnd).2.2 q hm q (by simp) rfl
      have hql : q < s.nx.length := Seg.lt h q (by simp)
      simp only [List.mem_append, List.mem_singleton, not_or] at hn
      refine ⟨⟨s.nx.set q (some n), s.front, some n⟩, by simp [bPushBack, hb, setNext, wr_lt hql], ?_, rfl⟩
      exact Seg.append_iff.mpr ⟨some n, seg_set_last h hqk, rfl, none,
        by rw [List.getElem?_set_ne (Ne.symm hn.2)]; exact hfresh, rfl⟩
  · refine ⟨⟨s.nx.set n s.front, some n, if s.back = none then some n else s.back⟩,
      by simp [bPushFront, setNext, wr_lt hnl], ⟨rfl, s.front, by simp [hnl], Seg.set_ne hn h⟩, ?_⟩
    cases l with
    | nil => simp at hb; simp [hb]
    | cons a l => simp only [hb]; rw [List.getLast?_cons_cons]; simp [List.getLast?_eq_getElem?]

example : bPushBack ⟨[none, none], some 0, some 0⟩ 1 = some ⟨[some 1, none], some 0, some 1⟩ := by decide +kernel

/-- Disagreement: `pop_front` leaves `m_back` pointing at the removed node, so an element pushed at the back
of a list emptied by `pop_front` is lost. -/
theorem with_back_pop_then_push_loses (s : BList) (x n : Nat) (h : Chain s.nx s.front [x]) (hb : s.back = some x) :
    ∃ s2 s3, bPopFront s = some s2 ∧ bPushBack s2 n = some s3 ∧ Chain s3.nx s3.front [] ∧
      s3.nx[x]? = some (some n) := by
  obtain ⟨hf, nxt, hnx, hnil⟩ := h
  have hnil' : nxt = none := hnil
  subst hnil'
  have hx : x < s.nx.length := (List.getElem?_eq_some_iff.mp hnx).1
  refine ⟨⟨s.nx, none, some x⟩, ⟨s.nx.set x (some n), none, some n⟩, ?_, ?_, rfl, by simp [hx]⟩
  · simp only [bPopFront, nextOf, hf, rd, hnx, hb]
  · simp [bPushBack, setNext, wr_lt hx]

/-- such a list is what pushing one element on an empty list makes -/
example : ∃ s : BList, bPushBack ⟨[none, none], none, none⟩ 0 = some s ∧ Chain s.nx s.front [0] ∧ s.back = some 0 :=
  ⟨⟨[none, none], some 0, some 0⟩, by decide +kernel, ⟨rfl, none, rfl, rfl⟩, rfl⟩

/-! ## C26: doubly linked list -/

inductive DOp where
  | pushBack (n : Nat)
  | pushFront (n : Nat)
  /-- `insert(pos, n)`, `pos` on the list -/
  | insert (pos n : Nat)

def dstep (s : DList) : DOp → Option DList
  | .pushBack n => dPushBack s n
  | .pushFront n => dPushFront s n
  | .insert pos n => dInsert s (some pos) n

def drun : List DOp → DList → Option DList
  | [], s => some s
  | op :: ops, s =>
    match dstep s op with
    | none => none
    | some s' => drun ops s'

def Spec.dapply (l : List Nat) : DOp → List Nat
  | .pushBack n => l ++ [n]
  | .pushFront n => n :: l
  | .insert pos n => Spec.insertBefore pos n l

/-- A node is inserted once, positions are on the list. -/
def Spec.dallowed (size : Nat) (l : List Nat) : DOp → Prop
  | .pushBack n | .pushFront n => n < size ∧ n ∉ l
  | .insert pos n => n < size ∧ n ∉ l ∧ pos ∈ l

def Spec.drun : List DOp → List Nat → List Nat
  | [], l => l
  | op :: ops, l => Spec.drun ops (Spec.dapply l op)

def Spec.DLegal (size : Nat) : List DOp → List Nat → Prop
  | [], _ => True
  | op :: ops, l => Spec.dallowed size l op ∧ Spec.DLegal size ops (Spec.dapply l op)

/-- Forward links spell `l`, backward links spell it reversed, and nodes not on the list are untouched
(null links), as a freshly constructed node is. -/
structure DRep (size : Nat) (s : DList) (l : List Nat) : Prop where
  fwd : Chain s.nx s.front l
  bwd : Chain s.pv s.back l.reverse
  nlen : s.nx.length = size
  plen : s.pv.length = size
  nfresh : ∀ a, a < size → a ∉ l → s.nx[a]? = some none
  pfresh : ∀ a, a < size → a ∉ l → s.pv[a]? = some none

theorem set_self_none {nx : List (Option Nat)} {n : Nat} (h : nx[n]? = some none) : nx.set n none = nx := by
  apply List.ext_getElem?
  intro i
  by_cases hi : n = i
  · subst hi
    have := (List.getElem?_eq_some_iff.mp h).1
    rw [List.getElem?_set_self this, h]
  · rw [List.getElem?_set_ne hi]

theorem getElem?_set_cases {nx : List (Option Nat)} {n a : Nat} {v w : Option Nat} (h : nx[a]? = some w)
    (hne : a ≠ n) : (nx.set n v)[a]? = some w := by
  rw [List.getElem?_set_ne (Ne.symm hne)]; exact h

theorem drep_pushFront {size : Nat} {s : DList} {l : List Nat} (h : DRep size s l) {n : Nat} (hn : n < size)
    (hnl : n ∉ l) : ∃ s', dPushFront s n = some s' ∧ DRep size s' (n :: l) := by
  have hnn : n < s.nx.length := by rw [h.nlen]; exact hn
  cases l with
  | nil =>
    have hf : s.front = none := h.fwd
    have hb : s.back = none := h.bwd
    refine ⟨⟨s.nx.set n none, s.pv, some n, some n⟩, ?_, ⟨rfl, none, by simp [hnn], rfl⟩,
      ⟨rfl, none, h.pfresh n hn (by simp), rfl⟩, by simpa using h.nlen, h.plen, ?_, ?_⟩
    · simp [dPushFront, hf, hb, setNext, wr_lt hnn]
    · intro a ha hal; simp at hal; exact getElem?_set_cases (h.nfresh a ha (by simp)) hal
    · intro a ha hal; exact h.pfresh a ha (by simp)
  | cons f l =>
    have hf : s.front = some f := h.fwd.1
    have hfl : f ∉ l := (List.nodup_cons.mp (Chain.nodup h.fwd)).1
    simp only [List.mem_cons, not_or] at hnl
    have hfp : f < s.pv.length := Seg.lt h.bwd f (by simp)
    have hbne : s.back ≠ none := by
      intro hb
      have := h.bwd
      rw [hb] at this
      have := Chain.unique this (show Chain s.pv none [] from rfl)
      simp at this
    have hbw := h.bwd
    rw [List.reverse_cons] at hbw
    refine ⟨⟨s.nx.set n (some f), s.pv.set f (some n), some n, s.back⟩, ?_, ?_, ?_, by simpa using h.nlen,
      by simpa using h.plen, ?_, ?_⟩
    · simp [dPushFront, hf, hbne, setNext, wr_lt hnn, wr_lt hfp]
    · refine ⟨rfl, some f, by simp [hnn], ?_⟩
      have := h.fwd
      rw [hf] at this
      exact Seg.set_ne (by simp [hnl]) this
    · simp only [List.reverse_cons]
      have hseg := seg_set_last (v := some n) hbw (by simpa using hfl)
      refine Seg.append_iff.mpr ⟨some n, hseg, rfl, none, ?_, rfl⟩
      exact getElem?_set_cases (h.pfresh n hn (by simp [hnl])) hnl.1
    · intro a ha hal; simp only [List.mem_cons, not_or] at hal
      exact getElem?_set_cases (h.nfresh a ha (by simp [hal])) hal.1
    · intro a ha hal; simp only [List.mem_cons, not_or] at hal
      exact getElem?_set_cases (h.pfresh a ha (by simp [hal])) hal.2.1

theorem drep_pushBack {size : Nat} {s : DList} {l : List Nat} (h : DRep size s l) {n : Nat} (hn : n < size)
    (hnl : n ∉ l) : ∃ s', dPushBack s n = some s' ∧ DRep size s' (l ++ [n]) := by
  have hnp : n < s.pv.length := by rw [h.plen]; exact hn
  by_cases hl : l = []
  · subst hl
    have hf : s.front = none := h.fwd
    have hb : s.back = none := h.bwd
    refine ⟨⟨s.nx, s.pv.set n none, some n, some n⟩, ?_, ⟨rfl, none, h.nfresh n hn (by simp), rfl⟩,
      ⟨rfl, none, by simp [hnp], rfl⟩, h.nlen, by simpa using h.plen, ?_, ?_⟩
    · simp [dPushBack, hf, hb, setNext, wr_lt hnp]
    · intro a ha hal; exact h.nfresh a ha (by simp)
    · intro a ha hal; simp at hal; exact getElem?_set_cases (h.pfresh a ha (by simp)) hal
  · obtain ⟨k, b, rfl⟩ : ∃ k q, l = k ++ [q] :=
      ⟨l.dropLast, l.getLast hl, (List.dropLast_concat_getLast hl).symm⟩
    have hbw := h.bwd
    simp only [List.reverse_append, List.reverse_cons, List.reverse_nil, List.nil_append,
      List.cons_append] at hbw
    have hb : s.back = some b := hbw.1
    have hbk : b ∉ k := fun hm => (List.nodup_append.mp (Chain.nodup h.fwd)).2.2 b hm b (by simp) rfl
    have hbl : b < s.nx.length := Seg.lt h.fwd b (by simp)
    have hfne : s.front ≠ none := by
      intro hf
      have := h.fwd
      rw [hf] at this
      have := Chain.unique this (show Chain s.nx none [] from rfl)
      simp at this
    simp only [List.mem_append, List.mem_singleton, not_or] at hnl
    refine ⟨⟨s.nx.set b (some n), s.pv.set n (some b), s.front, some n⟩, ?_, ?_, ?_, by simpa using h.nlen,
      by simpa using h.plen, ?_, ?_⟩
    · simp [dPushBack, hb, hfne, setNext, wr_lt hnp, wr_lt hbl]
    · have hseg := seg_set_last (v := some n) h.fwd hbk
      refine Seg.append_iff.mpr ⟨some n, hseg, rfl, none, ?_, rfl⟩
      exact getElem?_set_cases (h.nfresh n hn (by simp [hnl])) hnl.2
    · simp only [List.reverse_append, List.reverse_cons, List.reverse_nil, List.nil_append, List.cons_append]
      refine ⟨rfl, some b, by simp [hnp], ?_⟩
      rw [hb] at hbw
      exact Seg.set_ne (by simp [hnl]) hbw
    · intro a ha hal; simp only [List.mem_append, List.mem_singleton, not_or] at hal
      exact getElem?_set_cases (h.nfresh a ha (by simp [hal])) hal.1.2
    · intro a ha hal; simp only [List.mem_append, List.mem_singleton, not_or] at hal
      exact getElem?_set_cases (h.pfresh a ha (by simp [hal])) hal.2

theorem drep_insert {size : Nat} {s : DList} {l : List Nat} (h : DRep size s l) {pos n : Nat} (hn : n < size)
    (hnl : n ∉ l) (hp : pos ∈ l) :
    ∃ s', dInsert s (some pos) n = some s' ∧ DRep size s' (Spec.insertBefore pos n l) := by
  obtain ⟨l1, l2, rfl, h1, h2⟩ := split_mem hp (Chain.nodup h.fwd)
  rw [Spec.insertBefore_split h1]
  unfold dInsert
  by_cases hl1 : l1 = []
  · subst hl1
    have hf : s.front = some pos := h.fwd.1
    rw [if_pos hf.symm]
    exact drep_pushFront h hn hnl
  · obtain ⟨k, q, rfl⟩ : ∃ k q, l1 = k ++ [q] :=
      ⟨l1.dropLast, l1.getLast hl1, (List.dropLast_concat_getLast hl1).symm⟩
    have hfw := h.fwd
    have hbw := h.bwd
    have hnd := Chain.nodup hfw
    have hndb := Chain.nodup hbw
    have hne : some pos ≠ s.front := by
      intro he
      cases k with
      | nil => have := hfw.1; rw [← he] at this; simp at this; subst this; simp at h1
      | cons a k => have := hfw.1; rw [← he] at this; simp at this; subst this; simp at h1
    rw [if_neg hne]
    simp only [List.append_assoc, List.cons_append, List.nil_append] at hfw hnd hnl ⊢
    simp only [List.reverse_append, List.reverse_cons, List.reverse_nil, List.nil_append, List.append_assoc,
      List.cons_append] at hbw hndb
    simp only [List.mem_append, List.mem_cons, List.not_mem_nil, or_false, not_or] at hnl h1
    obtain ⟨hnk, hnq, hnpos, hnl2⟩ := hnl
    have hpp : pos < s.pv.length := Seg.lt hbw pos (by simp)
    have hqn : q < s.nx.length := Seg.lt hfw q (by simp)
    have hnn : n < s.nx.length := by rw [h.nlen]; exact hn
    have hnp : n < s.pv.length := by rw [h.plen]; exact hn
    -- prev(pos) = q
    have hpq : s.pv[pos]? = some (some q) := by
      obtain ⟨r, -, -, v, hv, hq⟩ := Seg.append_iff.mp hbw
      rw [hv]; rw [hq.1]
    -- next(q) = pos
    have hqp : s.nx[q]? = some (some pos) := by
      obtain ⟨r, -, -, v, hv, hq⟩ := Seg.append_iff.mp hfw
      rw [hv]; rw [hq.1]
    have hqk : q ∉ k := fun hm => (List.nodup_append.mp hnd).2.2 q hm q (by simp) rfl
    have hqr : q ∉ pos :: l2 := (List.nodup_cons.mp (List.nodup_append.mp hnd).2.1).1
    have ins1 := seg_insert_after (l1 := k) (l2 := pos :: l2) (q := q) (n := n) (v := some pos) hfw hqk hqr
      (by simp [hnk, hnq, hnpos, hnl2]) hnn hqp
    have ins2 := seg_insert_after (l1 := l2.reverse) (l2 := q :: k.reverse) (q := pos) (n := n) (v := some q)
      hbw (by simpa using h2) (by simp [h1])
      (by simp [hnk, hnq, hnpos, hnl2]) hnp hpq
    refine ⟨{ s with nx := (s.nx.set n (some pos)).set q (some n), pv := (s.pv.set n (some q)).set pos (some n) }, ?_, ?_⟩
    · have hqn' : q < (s.nx.set n (some pos)).length := by simpa using hqn
      have hpp' : pos < (s.pv.set n (some q)).length := by simpa using hpp
      have e : nextOf s.pv (some pos) = some (some q) := hpq
      simp only [e, setNext, wr_lt hnn, wr_lt hnp, wr_lt hqn', wr_lt hpp']
    · refine ⟨?_, ?_, by simpa using h.nlen, by simpa using h.plen, ?_, ?_⟩
      · rw [List.set_comm _ _ hnq]
        exact ins1
      · rw [List.set_comm _ _ hnpos]
        simpa using ins2
      · intro a ha hal
        simp only [List.mem_append, List.mem_cons, not_or] at hal
        exact getElem?_set_cases (getElem?_set_cases (h.nfresh a ha (by simp [hal])) hal.2.2.1) hal.2.1
      · intro a ha hal
        simp only [List.mem_append, List.mem_cons, not_or] at hal
        exact getElem?_set_cases (getElem?_set_cases (h.pfresh a ha (by simp [hal])) hal.2.2.1) hal.2.2.2.1

theorem drep_step {size : Nat} {s : DList} {l : List Nat} (h : DRep size s l) (op : DOp)
    (ha : Spec.dallowed size l op) : ∃ s', dstep s op = some s' ∧ DRep size s' (Spec.dapply l op) := by
  cases op with
  | pushBack n => exact drep_pushBack h ha.1 ha.2
  | pushFront n => exact drep_pushFront h ha.1 ha.2
  | insert pos n => exact drep_insert h ha.1 ha.2.1 ha.2.2

/-- C26: after any legal history on an empty list over fresh nodes, forward links spell the abstract
sequence and backward links spell it reversed; `back()` is its last node. -/
theorem list_history (size : Nat) (ops : List DOp) (hl : Spec.DLegal size ops []) :
    ∃ s, drun ops ⟨List.replicate size none, List.replicate size none, none, none⟩ = some s ∧
      Chain s.nx s.front (Spec.drun ops []) ∧ Chain s.pv s.back (Spec.drun ops []).reverse := by
  have key : ∀ ops (s : DList) l, DRep size s l → Spec.DLegal size ops l →
      ∃ s', drun ops s = some s' ∧ DRep size s' (Spec.drun ops l) := by
    intro ops
    induction ops with
    | nil => intro s l h _; exact ⟨s, rfl, h⟩
    | cons op ops ih =>
      intro s l h hl
      obtain ⟨s1, e1, e2⟩ := drep_step h op hl.1
      obtain ⟨s', f1, f2⟩ := ih s1 _ e2 hl.2
      exact ⟨s', by simp [drun, e1, f1], f2⟩
  obtain ⟨s, e1, e2⟩ := key ops
    ⟨List.replicate size none, List.replicate size none, none, none⟩ []
    ⟨rfl, rfl, by simp, by simp, by simp +contextual, by simp +contextual⟩ hl
  exact ⟨s, e1, e2.fwd, e2.bwd⟩

example : Spec.DLegal 4 [.pushBack 2, .pushFront 0, .insert 2 3, .insert 0 1] [] := by
  simp [Spec.DLegal, Spec.dallowed, Spec.dapply, Spec.insertBefore]

/-- C26: in every such list `next` and `prev` are mutually inverse. -/
theorem list_next_prev_inverse {nx pv : List (Option Nat)} {front back : Option Nat} {l : List Nat}
    (hf : Chain nx front l) (hb : Chain pv back l.reverse) (a b : Nat) (ha : a ∈ l) (hbm : b ∈ l) :
    nx[a]? = some (some b) ↔ pv[b]? = some (some a) := by
  have key : ∀ {nx pv : List (Option Nat)} {front back : Option Nat} {l : List Nat},
      Chain nx front l → Chain pv back l.reverse → ∀ a b, a ∈ l → nx[a]? = some (some b) →
      pv[b]? = some (some a) := by
    intro nx pv front back l hf hb a b ha hn
    obtain ⟨l1, l2, rfl, -, -⟩ := split_mem ha (Chain.nodup hf)
    obtain ⟨r, -, -, v, hv, h2⟩ := Seg.append_iff.mp hf
    rw [hn] at hv
    cases hv
    cases l2 with
    | nil => simp [Seg] at h2
    | cons c l2 =>
      have : b = c := by simpa using h2.1
      subst this
      simp only [List.reverse_append, List.reverse_cons, List.append_assoc, List.cons_append,
        List.nil_append] at hb
      obtain ⟨r, -, -, w, hw, h3⟩ := Seg.append_iff.mp hb
      rw [hw, h3.1]
  constructor
  · exact key hf hb a b ha
  · exact key hb (by rw [List.reverse_reverse]; exact hf) b a (by simpa using hbm)

/-- Disagreement: inserting at `end()` of a non-empty list dereferences the end handle. -/
theorem insert_at_end_undefined (s : DList) (n f : Nat) (h : s.front = some f) :
    dInsert s none n = none := by
  simp [dInsert, h, nextOf]

end Verif.Lists
