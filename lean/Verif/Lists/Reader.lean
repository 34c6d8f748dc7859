import Verif.Lists.Props

/-!
# A linked list that is walked and edited at the same time (C116)

`src/estd/internal/list/intrusive_forward.h:36-85` and `src/estd/forward_list.h:117-165` take no lock.  First the main
program edits and an interrupt handler walks the list between any two stores; then the main program walks and the handler
edits between any two steps.  One core, stores are not reordered.
-/
namespace Verif.Lists.Reader
open Verif Verif.Lists

/-! ## Model -/

/-- a store into the `next` field of a node, or into the head -/
inductive Store where
  | link (a : Nat) (v : Option Nat)
  | head (v : Option Nat)
  deriving DecidableEq, Repr

/-- the stores of each edit in the order of the source, internal/list/intrusive_forward.h: `push_front` 76-80, `pop_front`
82-85, `insert_after` 41-53, `erase_after` 56-65, `replace_after` 68-74 and `clear` 36-39; forward_list.h:117-132, 144-165
store in the same order -/
def stores (s : FList) : Op → Option (List Store)
  | .pushFront n => some [.link n s.front, .head (some n)]
  | .popFront => (nextOf s.nx s.front).map fun n => [.head n]
  | .insertAfter pos n => (nextOf s.nx (some pos)).map fun old => [.link pos (some n), .link n old]
  | .eraseAfter pos => (nextOf s.nx (some pos)).bind fun victim => (nextOf s.nx victim).map fun f => [.link pos f]
  | .replaceAfter pos n => (nextOf s.nx (some pos)).bind fun victim => (nextOf s.nx victim).map fun f =>
      [.link pos f, .link pos (some n), .link n f]
  | .clear => some [.head none]

/-- making stores, internal/list/traits.h:18-21 -/
def poke (s : FList) : List Store → Option FList
  | [] => some s
  | .link a v :: ss => (wr s.nx a v).bind fun m => poke { s with nx := m } ss
  | .head v :: ss => poke { s with front := v } ss

/-- the first `k` stores of an edit, internal/list/intrusive_forward.h:36-85 -/
def partly (s : FList) (o : Op) (k : Nat) : Option FList := (stores s o).bind fun ss => poke s (ss.take k)

/-- the first `k` nodes visited by a loop that starts at `p`, internal/list/iterator.h:36-40 with base.h:36-39, 53-56 -/
def visits (nx : List (Option Nat)) : Option Nat → Nat → Option (List Nat)
  | _, 0 => some []
  | none, _ + 1 => some []
  | some a, k + 1 => (rd nx a).bind fun q => (visits nx q k).map fun t => a :: t

/-! ## Specification -/

/-- a loop from `p` visits `l` and ends -/
def Spec.Visits (nx : List (Option Nat)) (p : Option Nat) (l : List Nat) : Prop :=
  ∀ k, visits nx p k = some (l.take k)

/-- a loop from `p` never ends -/
def Spec.Endless (nx : List (Option Nat)) (p : Option Nat) : Prop :=
  ∀ k, ∃ t, visits nx p k = some t ∧ t.length = k

/-- edits that show with their last store only: everything but insertions, where the node must already be linked to what
follows, and replacements -/
def Spec.one (s : FList) : Op → Prop
  | .insertAfter pos n => s.nx[n]? = s.nx[pos]?
  | .replaceAfter _ _ => False
  | _ => True

/-! ## The main program edits, the handler walks -/

theorem chain_visits {nx : List (Option Nat)} {l : List Nat} : ∀ {p : Option Nat}, Chain nx p l → Spec.Visits nx p l := by
  induction l with
  | nil =>
    intro p h k
    have : p = none := h
    subst this
    cases k <;> simp [visits]
  | cons a l ih =>
    intro p h k
    obtain ⟨rfl, n, hn, ht⟩ := h
    cases k with
    | zero => simp [visits]
    | succ k => simp [visits, rd, hn, ih ht k]

/-- All the stores of an edit are that edit of C24. -/
theorem whole_is_step (s : FList) (o : Op) : (stores s o).bind (poke s) = step s o := by
  cases o with
  | pushFront n =>
    simp only [stores, Option.bind_some, poke, step, pushFront, setNext]
    cases wr s.nx n s.front <;> rfl
  | popFront =>
    simp only [stores, step, popFront]
    cases nextOf s.nx s.front <;> rfl
  | insertAfter pos n =>
    simp only [stores, step, insertAfter]
    cases nextOf s.nx (some pos) with
    | none => rfl
    | some old =>
      simp only [Option.map_some, Option.bind_some, poke, setNext]
      cases wr s.nx pos (some n) with
      | none => rfl
      | some m =>
        simp only [Option.bind_some]
        cases wr m n old <;> rfl
  | eraseAfter pos =>
    simp only [stores, step, eraseAfter]
    cases nextOf s.nx (some pos) with
    | none => rfl
    | some victim =>
      simp only [Option.bind_some]
      cases nextOf s.nx victim with
      | none => rfl
      | some f =>
        simp only [Option.map_some, Option.bind_some, poke, setNext]
        cases wr s.nx pos f <;> rfl
  | replaceAfter pos n =>
    simp only [stores, step, replaceAfter, eraseAfter]
    cases nextOf s.nx (some pos) with
    | none => rfl
    | some victim =>
      simp only [Option.bind_some]
      cases nextOf s.nx victim with
      | none => rfl
      | some f =>
        simp only [Option.map_some, Option.bind_some, poke, setNext]
        by_cases hp : pos < s.nx.length
        · have h2 : pos < (s.nx.set pos f).length := by simpa using hp
          simp only [wr_lt hp, Option.bind_some, insertAfter, nextOf, rd, setNext]
          rw [List.getElem?_set_self hp]
          simp only [wr_lt h2, Option.bind_some]
          cases wr ((s.nx.set pos f).set pos (some n)) n f <;> rfl
        · simp [wr, hp]
  | clear => rfl

/-- the middle of an insertion -/
theorem insert_middle {s : FList} {pos n : Nat} (hpos : pos < s.nx.length) :
    partly s (.insertAfter pos n) 1 = some { s with nx := s.nx.set pos (some n) } := by
  simp [partly, stores, nextOf, rd, hpos, poke, wr]

/-- **What a handler sees inside an insertion**: the list up to the place, the new node, and then whatever the new node's
`next` field happens to point to. -/
theorem insert_seen (s : FList) (l1 l2 m : List Nat) (pos n : Nat) (v : Option Nat) (h : Chain s.nx s.front (l1 ++ pos :: l2))
    (hn : n ∉ l1 ++ pos :: l2) (hv : s.nx[n]? = some v) (hm : Chain (s.nx.set pos (some n)) v m) :
    ∃ s', partly s (.insertAfter pos n) 1 = some s' ∧ Spec.Visits s'.nx s'.front (l1 ++ pos :: n :: m) := by
  have hpl : pos < s.nx.length := Seg.lt h pos (by simp)
  refine ⟨_, insert_middle hpl, chain_visits ?_⟩
  have hnd := List.nodup_append.mp (Chain.nodup h)
  have hp1 : pos ∉ l1 := fun hm => hnd.2.2 pos hm pos (by simp) rfl
  have hne : pos ≠ n := fun e => hn (by simp [e])
  obtain ⟨r, g1, hr, w, hw, g2⟩ := Seg.append_iff.mp h
  exact Seg.append_iff.mpr ⟨r, Seg.set_ne hp1 g1, hr, some n, by simp [hpl], rfl, v,
    by rw [List.getElem?_set_ne hne]; exact hv, hm⟩

/-- **A handler that walks the list finds a list the program has made.**  After any history, and at any point inside an
edit that shows with one store, it visits the nodes of the list before or after that edit, and its loop ends.  Missing:
insertions of a node whose `next` field is not yet right, and replacements (`insert_hides`, `insert_endless`,
`replace_neither`). -/
theorem walk_partial (nx : List (Option Nat)) (ops : List Op) (o : Op) (k : Nat) (hl : Spec.Legal nx.length ops [])
    (ho : Spec.allowed nx.length (Spec.run ops []) o) :
    ∃ s, run ops ⟨nx, none⟩ = some s ∧ (Spec.one s o → ∃ s', partly s o k = some s' ∧
      (Spec.Visits s'.nx s'.front (Spec.run ops []) ∨ Spec.Visits s'.nx s'.front (Spec.apply (Spec.run ops []) o))) := by
  have key : ∀ ops (s : FList) l, Chain s.nx s.front l → Spec.Legal s.nx.length ops l →
      ∃ s', run ops s = some s' ∧ s'.nx.length = s.nx.length ∧ Chain s'.nx s'.front (Spec.run ops l) := by
    intro ops
    induction ops with
    | nil => intro s l h _; exact ⟨s, rfl, rfl, h⟩
    | cons op ops ih =>
      intro s l h hl
      obtain ⟨s1, e1, e2, e3⟩ := step_spec h op hl.1
      obtain ⟨s', f1, f2, f3⟩ := ih s1 _ e3 (by rw [e2]; exact hl.2)
      exact ⟨s', by simp [run, e1, f1], f2.trans e2, f3⟩
  obtain ⟨s, h1, h2, h3⟩ := key ops ⟨nx, none⟩ [] rfl hl
  refine ⟨s, h1, fun hone => ?_⟩
  generalize Spec.run ops [] = l at ho h3
  have ho' : Spec.allowed s.nx.length l o := by rw [h2]; exact ho
  obtain ⟨w, w1, w2, w3⟩ := step_spec h3 o ho'
  rw [← whole_is_step] at w1
  obtain ⟨ss, s1, s2⟩ := Option.bind_eq_some_iff.mp w1
  simp only [partly, s1, Option.bind_some]
  by_cases hk : k = 0
  · subst hk; exact ⟨s, rfl, .inl (chain_visits h3)⟩
  by_cases hall : ss.length ≤ k
  · rw [List.take_of_length_le hall, s2]; exact ⟨w, rfl, .inr (chain_visits w3)⟩
  cases o with
  | pushFront n =>
    cases s1
    have hk1 : k = 1 := by simp at hall; omega
    subst hk1
    refine ⟨{ s with nx := s.nx.set n s.front }, by simp [poke, wr_lt ho'.1], .inl (chain_visits (Seg.set_ne ho'.2 h3))⟩
  | popFront =>
    obtain ⟨x, _, hx⟩ := Option.map_eq_some_iff.mp s1
    subst hx; simp at hall; omega
  | eraseAfter pos =>
    obtain ⟨x, _, hx⟩ := Option.bind_eq_some_iff.mp s1
    obtain ⟨f, _, hf⟩ := Option.map_eq_some_iff.mp hx
    subst hf; simp at hall; omega
  | replaceAfter pos n => exact hone.elim
  | clear => cases s1; simp at hall; omega
  | insertAfter pos n =>
    obtain ⟨hn, hnl, hp⟩ := ho'
    obtain ⟨x, hx0, hx⟩ := Option.map_eq_some_iff.mp s1
    subst hx
    have hk1 : k = 1 := by simp at hall; omega
    obtain ⟨l1, l2, rfl, hp1, hp2⟩ := split_mem hp (Chain.nodup h3)
    simp only [Spec.one] at hone
    obtain ⟨r, g1, hr, v, hv, g2⟩ := Seg.append_iff.mp h3
    rw [hv] at hone
    obtain ⟨s', q1, q2⟩ := insert_seen s l1 l2 l2 pos n v h3 hnl hone (Seg.set_ne hp2 g2)
    simp only [partly, s1, Option.bind_some] at q1
    refine ⟨s', by rw [hk1]; exact q1, .inr ?_⟩
    simp only [Spec.apply, Spec.insertAfter_split hp1]
    exact q2

/-- Meets the hypotheses: a push between its two stores, and an insertion of the node that was erased there. -/
example : Spec.Legal 4 [.pushFront 1, .pushFront 3, .insertAfter 3 2, .eraseAfter 3] [] ∧
    Spec.allowed 4 [3, 1] (.insertAfter 3 2) ∧
    (run [.pushFront 1, .pushFront 3, .insertAfter 3 2, .eraseAfter 3] ⟨[none, none, some 0, none], none⟩).map
      (fun s => (s.nx[2]?, s.nx[3]?, (partly s (.insertAfter 3 2) 1).bind fun t => visits t.nx t.front 9)) =
      some (some (some 1), some (some 1), some [3, 2, 1]) := by
  refine ⟨?_, ?_, by decide⟩ <;> simp [Spec.Legal, Spec.allowed, Spec.apply, Spec.insertAfter, Spec.eraseAfter]

/-- **Violation.**  A new node's `next` field is null: inside its insertion a handler does not find what follows it. -/
theorem insert_hides (s : FList) (l1 l2 : List Nat) (pos n : Nat) (h : Chain s.nx s.front (l1 ++ pos :: l2))
    (hn : n ∉ l1 ++ pos :: l2) (hv : s.nx[n]? = some none) (hl2 : l2 ≠ []) :
    ∃ s', partly s (.insertAfter pos n) 1 = some s' ∧ Spec.Visits s'.nx s'.front (l1 ++ [pos, n]) ∧
      l1 ++ [pos, n] ≠ l1 ++ pos :: l2 ∧ l1 ++ [pos, n] ≠ l1 ++ pos :: n :: l2 := by
  obtain ⟨s', h1, h2⟩ := insert_seen s l1 l2 [] pos n none h hn hv rfl
  refine ⟨s', h1, h2, ?_, ?_⟩
  · intro e
    simp only [List.append_cancel_left_eq, List.cons.injEq, true_and] at e
    exact hn (by simp [← e])
  · intro e
    simp only [List.append_cancel_left_eq, List.cons.injEq, true_and] at e
    exact hl2 e.symm

/-- Meets the hypotheses: node 3 being inserted after the first of three. -/
example : Chain [some 1, some 2, none, none] (some 0) [0, 1, 2] ∧
    (partly ⟨[some 1, some 2, none, none], some 0⟩ (.insertAfter 0 3) 1).bind (fun s => visits s.nx s.front 9) =
      some [0, 3] :=
  ⟨⟨rfl, some 1, rfl, rfl, some 2, rfl, rfl, none, rfl, rfl⟩, by decide⟩

theorem seg_next {nx : List (Option Nat)} {b : Nat} {l : List Nat} : ∀ {p : Option Nat}, Seg nx p l (some b) →
    ∀ x ∈ l, ∃ y, nx[x]? = some (some y) ∧ (y ∈ l ∨ y = b) := by
  induction l with
  | nil => intro p _ x hx; simp at hx
  | cons a l ih =>
    intro p h x hx
    obtain ⟨hp, n, hn, ht⟩ := h
    rcases List.mem_cons.mp hx with rfl | hx
    · cases l with
      | nil => have : n = some b := ht; subst this; exact ⟨b, hn, .inr rfl⟩
      | cons c l => have := ht.1; subst this; exact ⟨c, hn, .inl (by simp)⟩
    · obtain ⟨y, h1, h2⟩ := ih ht x hx
      exact ⟨y, h1, h2.imp (List.mem_cons_of_mem _) id⟩

theorem closed_endless {nx : List (Option Nat)} {S : List Nat}
    (h : ∀ x ∈ S, ∃ y, nx[x]? = some (some y) ∧ y ∈ S) : ∀ {a : Nat}, a ∈ S → Spec.Endless nx (some a) := by
  have : ∀ k a, a ∈ S → ∃ t, visits nx (some a) k = some t ∧ t.length = k := by
    intro k
    induction k with
    | zero => intro a _; exact ⟨[], rfl, rfl⟩
    | succ k ih =>
      intro a ha
      obtain ⟨y, h1, h2⟩ := h a ha
      obtain ⟨t, t1, t2⟩ := ih y h2
      exact ⟨a :: t, by simp [visits, rd, h1, t1], by simp [t2]⟩
  intro a ha k
  exact this k a ha

/-- **Violation.**  A node that was in the list before still points into it: when it is inserted behind the node it points
to, a handler that walks the list then never comes back. -/
theorem insert_endless (s : FList) (l1 l2 : List Nat) (pos n b : Nat) (h : Chain s.nx s.front (l1 ++ pos :: l2))
    (hn : n ∉ l1 ++ pos :: l2) (hv : s.nx[n]? = some (some b)) (hb : b ∈ l1 ++ [pos]) :
    ∃ s', partly s (.insertAfter pos n) 1 = some s' ∧ Spec.Endless s'.nx s'.front := by
  have hpl : pos < s.nx.length := Seg.lt h pos (by simp)
  refine ⟨_, insert_middle hpl, ?_⟩
  have hnd := List.nodup_append.mp (Chain.nodup h)
  have hp1 : pos ∉ l1 := fun hm => hnd.2.2 pos hm pos (by simp) rfl
  have hne : pos ≠ n := fun e => hn (by simp [e])
  obtain ⟨r, g1, hr, w, hw, g2⟩ := Seg.append_iff.mp h
  have hseg : Seg (s.nx.set pos (some n)) s.front (l1 ++ [pos, n]) (some b) :=
    Seg.append_iff.mpr ⟨r, Seg.set_ne hp1 g1, hr, some n, by simp [hpl], rfl, some b,
      by rw [List.getElem?_set_ne hne]; exact hv, rfl⟩
  have hb' : b ∈ l1 ++ [pos, n] := by
    simp only [List.mem_append, List.mem_cons, List.not_mem_nil, or_false] at hb ⊢
    exact hb.imp id .inl
  have hcl : ∀ x ∈ l1 ++ [pos, n], ∃ y, (s.nx.set pos (some n))[x]? = some (some y) ∧ y ∈ l1 ++ [pos, n] := by
    intro x hx
    obtain ⟨y, y1, y2⟩ := seg_next hseg x hx
    exact ⟨y, y1, y2.elim id (fun e => e ▸ hb')⟩
  have hfront : ∃ f, s.front = some f ∧ f ∈ l1 ++ [pos, n] := by
    cases l1 with
    | nil => exact ⟨pos, hseg.1, by simp⟩
    | cons c l1 => exact ⟨c, hseg.1, by simp⟩
  obtain ⟨f, hf, hfm⟩ := hfront
  show Spec.Endless (s.nx.set pos (some n)) s.front
  rw [hf]
  exact closed_endless hcl hfm

/-- Meets the hypotheses: the first node was popped and is put back behind the second. -/
example : Chain [some 1, some 2, none] (some 1) [1, 2] ∧
    (partly ⟨[some 1, some 2, none], some 1⟩ (.insertAfter 1 0) 1).bind (fun s => visits s.nx s.front 5) =
      some [1, 0, 1, 0, 1] :=
  ⟨⟨rfl, some 2, rfl, rfl, none, rfl, rfl⟩, by decide⟩

/-- **Violation.**  Inside a replacement a handler finds a list with neither the old node nor the new one. -/
theorem replace_neither (s : FList) (l1 l2 : List Nat) (pos x n : Nat) (h : Chain s.nx s.front (l1 ++ pos :: x :: l2)) :
    ∃ s', partly s (.replaceAfter pos n) 1 = some s' ∧ Spec.Visits s'.nx s'.front (l1 ++ pos :: l2) := by
  have hpl : pos < s.nx.length := Seg.lt h pos (by simp)
  have hnd := List.nodup_append.mp (Chain.nodup h)
  have hp1 : pos ∉ l1 := fun hm => hnd.2.2 pos hm pos (by simp) rfl
  have hp2 : pos ∉ l2 := fun hm => (List.nodup_cons.mp hnd.2.1).1 (by simp [hm])
  obtain ⟨r, g1, hr, w, hw, hx, f, hf, g2⟩ := Seg.append_iff.mp h
  subst hx
  refine ⟨{ s with nx := s.nx.set pos f }, ?_, chain_visits ?_⟩
  · simp [partly, stores, nextOf, rd, hw, hf, poke, wr_lt hpl]
  · exact Seg.append_iff.mpr ⟨r, Seg.set_ne hp1 g1, hr, f, by simp [hpl], Seg.set_ne hp2 g2⟩

/-- Meets the hypotheses. -/
example : (partly ⟨[some 1, some 2, none, none], some 0⟩ (.replaceAfter 0 3) 1).bind (fun s => visits s.nx s.front 9) =
    some [0, 2] := by decide

/-! ## The main program walks, the handler edits -/

/-- a loop of the main program: the list, the node it is about to visit, and those it has visited;
internal/list/iterator.h:17, 36-40 -/
structure Walk where
  s : FList
  cur : Option Nat
  seen : List Nat
  deriving DecidableEq, Repr

/-- what happens next: the loop visits a node and steps on, or the handler edits; internal/list/iterator.h:36-40,
intrusive_forward.h:36-85 -/
inductive Act where
  | visit
  | handler (o : Op)

/-- one action, internal/list/iterator.h:36-40, intrusive_forward.h:36-85; the handler runs to its end -/
def Walk.step (w : Walk) : Act → Option Walk
  | .visit =>
    match w.cur with
    | none => some w
    | some a => (rd w.s.nx a).map fun q => { w with cur := q, seen := w.seen ++ [a] }
  | .handler o => (Lists.step w.s o).map fun s => { w with s := s }

/-- a sequence of actions, internal/list/iterator.h:36-40 -/
def Walk.run : Walk → List Act → Option Walk
  | w, [] => some w
  | w, a :: as => (w.step a).bind fun w' => Walk.run w' as

/-- the node an edit takes out of the list -/
def Spec.victim (l : List Nat) : Op → Option Nat
  | .popFront => l.head?
  | .eraseAfter pos => l.find? fun x => decide (x ∉ Spec.eraseAfter pos l)
  | _ => none

/-- the node an edit puts into the list -/
def Spec.newcomer : Op → Option Nat
  | .pushFront n => some n
  | .insertAfter _ n => some n
  | _ => none

/-- a handler that adds nodes, and takes nodes out except the one the loop is about to visit -/
def Spec.gentle (cur : Option Nat) (l : List Nat) : Op → Prop
  | .replaceAfter _ _ => False
  | .clear => False
  | o => Spec.victim l o = none ∨ Spec.victim l o ≠ cur

/-- the schedule: `l` is the list, `used` the nodes that have been in it since the loop began, which the handler does not
put in again -/
def Spec.Schedule : Walk → List Nat → List Nat → List Act → Prop
  | _, _, _, [] => True
  | w, l, used, .visit :: as => ∀ w', w.step .visit = some w' → Spec.Schedule w' l used as
  | w, l, used, .handler o :: as =>
    Spec.allowed w.s.nx.length l o ∧ Spec.gentle w.cur l o ∧ (∀ n, Spec.newcomer o = some n → n ∉ used) ∧
      ∀ w', w.step (.handler o) = some w' →
        Spec.Schedule w' (Spec.apply l o) ((Spec.newcomer o).toList ++ used) as

/-- the nodes taken out during a schedule -/
def Spec.removed : List Nat → List Act → List Nat
  | _, [] => []
  | l, .visit :: as => Spec.removed l as
  | l, .handler o :: as => (Spec.victim l o).toList ++ Spec.removed (Spec.apply l o) as

/-- the nodes put in during a schedule -/
def Spec.added : List Act → List Nat
  | [] => []
  | .visit :: as => Spec.added as
  | .handler o :: as => (Spec.newcomer o).toList ++ Spec.added as

/-- what an edit does to a list that the loop divides: the part behind it changes by the newcomer and the victim only, and
the loop's node stays where it is -/
theorem apply_split {A B : List Nat} {o : Op} {size : Nat} (hnd : (A ++ B).Nodup) (ha : Spec.allowed size (A ++ B) o)
    (hg : Spec.gentle B.head? (A ++ B) o) :
    ∃ A' B', Spec.apply (A ++ B) o = A' ++ B' ∧ B'.head? = B.head? ∧
      (∀ x ∈ A' ++ B', x ∈ A ++ B ∨ Spec.newcomer o = some x) ∧
      (B.filter (fun x => decide (Spec.victim (A ++ B) o ≠ some x))).Sublist B' ∧
      (∀ x ∈ B', x ∈ B ∨ Spec.newcomer o = some x) := by
  cases o with
  | pushFront n =>
    refine ⟨n :: A, B, rfl, rfl, ?_, List.filter_sublist, fun x hx => .inl hx⟩
    intro x hx
    simp only [List.cons_append, List.mem_cons] at hx
    rcases hx with rfl | hx
    · exact .inr rfl
    · exact .inl hx
  | popFront =>
    cases A with
    | nil =>
      cases B with
      | nil => exact absurd rfl ha
      | cons b B => simp [Spec.gentle, Spec.victim] at hg
    | cons a A =>
      exact ⟨A, B, rfl, rfl, fun x hx => .inl (List.mem_cons_of_mem _ hx), List.filter_sublist, fun x hx => .inl hx⟩
  | insertAfter pos n =>
    obtain ⟨_, hn, hp⟩ := ha
    by_cases hpA : pos ∈ A
    · obtain ⟨a1, a2, rfl, h1, h2⟩ := split_mem hpA (List.nodup_append.mp hnd).1
      refine ⟨a1 ++ pos :: n :: a2, B, ?_, rfl, ?_, List.filter_sublist, fun x hx => .inl hx⟩
      · simp only [Spec.apply, List.append_assoc, List.cons_append]
        exact Spec.insertAfter_split h1
      · intro x hx
        simp only [List.mem_append, List.mem_cons, Spec.newcomer, Option.some.injEq] at hx ⊢
        rcases hx with (h | h | h | h) | h <;> simp [h]
    · have hpB : pos ∈ B := by
        rcases List.mem_append.mp hp with h | h
        · exact absurd h hpA
        · exact h
      obtain ⟨b1, b2, rfl, h1, h2⟩ := split_mem hpB (List.nodup_append.mp hnd).2.1
      refine ⟨A, b1 ++ pos :: n :: b2, ?_, ?_, ?_, ?_, ?_⟩
      · simp only [Spec.apply]
        rw [← List.append_assoc, Spec.insertAfter_split (by simp [hpA, h1]), List.append_assoc]
      · cases b1 <;> rfl
      · intro x hx
        simp only [List.mem_append, List.mem_cons, Spec.newcomer, Option.some.injEq] at hx ⊢
        rcases hx with h | h | h | h | h <;> simp [h]
      · refine List.filter_sublist.trans ((List.Sublist.refl b1).append ?_)
        exact (List.Sublist.cons n (List.Sublist.refl b2)).cons_cons pos
      · intro x hx
        simp only [List.mem_append, List.mem_cons, Spec.newcomer, Option.some.injEq] at hx ⊢
        rcases hx with h | h | h | h <;> simp [h]
  | eraseAfter pos =>
    obtain ⟨hp, hlast⟩ := ha
    obtain ⟨l1, l2, he, h1, h2⟩ := split_mem hp hnd
    cases l2 with
    | nil => rw [he] at hlast; simp at hlast
    | cons v l2 =>
      have hnd' := hnd
      rw [he] at hnd'
      have hv1 : v ∉ l1 ++ [pos] := by
        intro hm
        have : ((l1 ++ [pos]) ++ v :: l2).Nodup := by simpa using hnd'
        exact (List.nodup_append.mp this).2.2 v hm v (by simp) rfl
      have hv2 : v ∉ l2 := by
        have : ((l1 ++ [pos]) ++ v :: l2).Nodup := by simpa using hnd'
        exact (List.nodup_cons.mp (List.nodup_append.mp this).2.1).1
      have happ : Spec.eraseAfter pos (A ++ B) = l1 ++ pos :: l2 := by
        rw [he, Spec.eraseAfter_split h1]; rfl
      have hvic : Spec.victim (A ++ B) (.eraseAfter pos) = some v := by
        simp only [Spec.victim, happ]
        rw [he, show l1 ++ pos :: v :: l2 = (l1 ++ [pos]) ++ v :: l2 from by simp, List.find?_append,
          List.find?_eq_none.mpr (by
            intro x hx
            simp only [decide_eq_true_eq, Classical.not_not]
            simp only [List.mem_append, List.mem_singleton] at hx
            rcases hx with h | h <;> simp [h])]
        simp only [Option.none_or]
        rw [List.find?_cons_of_pos]
        simp only [decide_eq_true_eq, List.mem_append, List.mem_cons, not_or]
        simp only [List.mem_append, List.mem_singleton, not_or] at hv1
        exact ⟨hv1.1, hv1.2, hv2⟩
      have hcur : some v ≠ B.head? := by
        simp only [Spec.gentle, hvic] at hg
        rcases hg with hg | hg
        · cases hg
        · exact hg
      have hmem : ∀ x ∈ l1 ++ pos :: l2, x ∈ A ++ B := by
        intro x hx
        rw [he]
        simp only [List.mem_append, List.mem_cons] at hx ⊢
        rcases hx with h | h | h <;> simp [h]
      -- where the division falls
      have he' : A ++ B = (l1 ++ [pos]) ++ (v :: l2) := by rw [he]; simp
      rcases List.append_eq_append_iff.mp he' with ⟨C, hc1, hc2⟩ | ⟨C, hc1, hc2⟩
      · -- l1 ++ [pos] = A ++ C, B = C ++ v :: l2
        cases C with
        | nil => rw [hc2] at hcur; simp at hcur
        | cons c C =>
          refine ⟨A, (c :: C) ++ l2, ?_, ?_, ?_, ?_, ?_⟩
          · simp only [Spec.apply, happ]
            rw [show l1 ++ pos :: l2 = (l1 ++ [pos]) ++ l2 from by simp, hc1, List.append_assoc]
          · rw [hc2]; rfl
          · intro x hx
            refine .inl (hmem x ?_)
            rw [show l1 ++ pos :: l2 = (l1 ++ [pos]) ++ l2 from by simp, hc1, List.append_assoc]
            exact hx
          · rw [hvic, hc2, List.filter_append]
            refine List.filter_sublist.append ?_
            rw [List.filter_cons_of_neg (by simp)]
            exact List.filter_sublist
          · intro x hx
            refine .inl ?_
            rw [hc2]
            simp only [List.mem_append, List.mem_cons] at hx ⊢
            rcases hx with (h | h) | h <;> simp [h]
      · -- A = (l1 ++ [pos]) ++ C, v :: l2 = C ++ B
        cases C with
        | nil => simp only [List.nil_append] at hc2; rw [← hc2] at hcur; simp at hcur
        | cons c C =>
          simp only [List.cons_append, List.cons.injEq] at hc2
          refine ⟨l1 ++ [pos] ++ C, B, ?_, rfl, ?_, List.filter_sublist, fun x hx => .inl hx⟩
          · simp only [Spec.apply, happ]
            rw [hc2.2]; simp
          · intro x hx
            refine .inl (hmem x ?_)
            rw [hc2.2]
            simpa using hx
  | replaceAfter pos n => exact hg.elim
  | clear => exact hg.elim

/-- **A loop sees every node that stays.**  While the main program walks the list, a handler adds new nodes and takes nodes
out, only never the one the loop is about to visit, and puts none of them in again.  Then the loop visits no node twice,
only nodes that were in the list, and when it ends it has visited every node that was there at the beginning and was not
taken out, in the order of the list. -/
theorem loop_partial (s : FList) (l : List Nat) (as : List Act) (h : Chain s.nx s.front l)
    (hs : Spec.Schedule ⟨s, s.front, []⟩ l l as) :
    ∃ w, Walk.run ⟨s, s.front, []⟩ as = some w ∧ w.seen.Nodup ∧ (∀ x ∈ w.seen, x ∈ l ∨ x ∈ Spec.added as) ∧
      (w.cur = none → (l.filter fun x => decide (x ∉ Spec.removed l as)).Sublist w.seen) := by
  have key : ∀ as (w : Walk) (A B used : List Nat), Chain w.s.nx w.s.front (A ++ B) → w.cur = B.head? →
      (w.seen ++ B).Nodup → (∀ x ∈ A ++ B, x ∈ used) → (∀ x ∈ w.seen, x ∈ used) →
      Spec.Schedule w (A ++ B) used as →
      ∃ w', Walk.run w as = some w' ∧ w'.seen.Nodup ∧ (∀ x ∈ w'.seen, x ∈ used ∨ x ∈ Spec.added as) ∧
        (w'.cur = none → ((w.seen ++ B).filter fun x => decide (x ∉ Spec.removed (A ++ B) as)).Sublist w'.seen) := by
    intro as
    induction as with
    | nil =>
      intro w A B used hc hcur hnd hu1 hu2 _
      refine ⟨w, rfl, (List.nodup_append.mp hnd).1, fun x hx => .inl (hu2 x hx), ?_⟩
      intro hnone
      rw [hcur] at hnone
      have : B = [] := List.head?_eq_none_iff.mp hnone
      subst this
      rw [List.append_nil w.seen]
      exact List.filter_sublist
    | cons a as ih =>
      intro w A B used hc hcur hnd hu1 hu2 hsch
      cases a with
      | visit =>
        cases B with
        | nil =>
          have hstep : w.step .visit = some w := by simp only [Walk.step, hcur, List.head?_nil]
          obtain ⟨w', r1, r2, r3, r4⟩ := ih w A [] used hc hcur hnd hu1 hu2 (hsch w hstep)
          exact ⟨w', by simp only [Walk.run, hstep, Option.bind_some, r1], r2, r3, r4⟩
        | cons b B =>
          obtain ⟨r, g1, hr, n, hn, g2⟩ := Seg.append_iff.mp hc
          have hstep : w.step .visit = some { w with cur := n, seen := w.seen ++ [b] } := by
            simp only [Walk.step, hcur, List.head?_cons, rd, hn, Option.map_some]
          have hnB : n = B.head? := by
            cases B with
            | nil => exact g2
            | cons c B => exact g2.1
          have hsch' := hsch _ hstep
          rw [show A ++ b :: B = (A ++ [b]) ++ B from by simp] at hc hsch'
          obtain ⟨w', r1, r2, r3, r4⟩ := ih { w with cur := n, seen := w.seen ++ [b] } (A ++ [b]) B used hc hnB
            (by simpa using hnd) (fun x hx => hu1 x (by simpa using hx)) (by
              intro x hx
              simp only [List.mem_append, List.mem_singleton] at hx
              rcases hx with hx | rfl
              · exact hu2 x hx
              · exact hu1 x (by simp)) hsch'
          refine ⟨w', by simp only [Walk.run, hstep, Option.bind_some, r1], r2, r3, ?_⟩
          intro hnone
          have := r4 hnone
          simp only [List.append_assoc, List.singleton_append] at this
          exact this
      | handler o =>
        obtain ⟨hal, hge, hfr, hsch⟩ := hsch
        obtain ⟨s', e1, e2, e3⟩ := step_spec hc o hal
        have hstep : w.step (.handler o) = some { w with s := s' } := by
          simp only [Walk.step, e1, Option.map_some]
        have hsch' := hsch _ hstep
        rw [hcur] at hge
        obtain ⟨A', B', f1, f2, f3, f4, f5⟩ := apply_split (Chain.nodup hc) hal hge
        rw [f1] at e3 hsch'
        have hnd2 := List.nodup_append.mp hnd
        have hnd' : (w.seen ++ B').Nodup := by
          refine List.nodup_append.mpr ⟨hnd2.1, (List.nodup_append.mp (Chain.nodup e3)).2.1, ?_⟩
          intro a ha b hb hab
          subst hab
          rcases f5 a hb with h | h
          · exact hnd2.2.2 a ha a h rfl
          · exact hfr a h (hu2 a ha)
        obtain ⟨w', r1, r2, r3, r4⟩ := ih { w with s := s' } A' B' ((Spec.newcomer o).toList ++ used) e3
          (hcur.trans f2.symm) hnd' (by
            intro x hx
            rcases f3 x hx with h | h
            · simp [hu1 x h]
            · simp [h]) (fun x hx => by simp [hu2 x hx]) hsch'
        refine ⟨w', by simp only [Walk.run, hstep, Option.bind_some, r1], r2, ?_, ?_⟩
        · intro x hx
          rcases r3 x hx with h | h
          · rcases List.mem_append.mp h with h | h
            · exact .inr (by simp only [Spec.added, List.mem_append]; exact .inl h)
            · exact .inl h
          · exact .inr (by simp only [Spec.added, List.mem_append]; exact .inr h)
        · intro hnone
          have hsub := r4 hnone
          refine List.Sublist.trans ?_ hsub
          have hfil : ((w.seen ++ B).filter fun x => decide (x ∉ Spec.removed (A ++ B) (.handler o :: as))) =
              (((w.seen ++ B).filter fun x => decide (Spec.victim (A ++ B) o ≠ some x))).filter
                fun x => decide (x ∉ Spec.removed (A' ++ B') as) := by
            rw [List.filter_filter]
            apply List.filter_congr
            intro x _
            simp only [Spec.removed, f1, List.mem_append, Option.mem_toList, Option.mem_def, not_or, Bool.decide_and]
            rw [Bool.and_comm]
          rw [hfil]
          apply List.Sublist.filter
          rw [List.filter_append]
          exact List.filter_sublist.append f4
  have hcur : s.front = l.head? := by
    cases l with
    | nil => exact h
    | cons a l => exact h.1
  obtain ⟨w, h1, h2, h3, h4⟩ := key as ⟨s, s.front, []⟩ [] l l h hcur (by simpa using Chain.nodup h) (by simp) (by simp) hs
  exact ⟨w, h1, h2, h3, by simpa using h4⟩

/-- Meets the hypotheses: while 0, 1, 2 are walked a node is pushed, one inserted ahead and one taken out ahead. -/
example : Chain [some 1, some 2, none, none, none] (some 0) [0, 1, 2] ∧
    Spec.Schedule ⟨⟨[some 1, some 2, none, none, none], some 0⟩, some 0, []⟩ [0, 1, 2] [0, 1, 2]
      [.visit, .handler (.pushFront 3), .handler (.insertAfter 1 4), .visit, .handler (.eraseAfter 4), .visit, .visit] := by
  refine ⟨⟨rfl, some 1, rfl, rfl, some 2, rfl, rfl, none, rfl, rfl⟩, ?_⟩
  simp [Spec.Schedule, Spec.allowed, Spec.gentle, Spec.victim, Spec.newcomer, Spec.apply, Spec.insertAfter, Spec.eraseAfter,
    Walk.step, Lists.step, pushFront, insertAfter, eraseAfter, nextOf, setNext, rd, wr]

/-- **Violation.**  The handler moves the node that the loop is about to visit to the front: the loop visits all the nodes
before it a second time. -/
theorem moved_revisits (s : FList) (A B : List Nat) (q c : Nat) (h : Chain s.nx s.front (A ++ q :: c :: B)) :
    ∃ s1 s2, Lists.step s (.eraseAfter q) = some s1 ∧ Lists.step s1 (.pushFront c) = some s2 ∧
      Spec.Visits s2.nx (some c) (c :: (A ++ q :: B)) := by
  have hnd := Chain.nodup h
  have hsplit := List.nodup_append.mp hnd
  have hq : q ∉ A := fun hm => hsplit.2.2 q hm q (by simp) rfl
  have hqc := List.nodup_cons.mp hsplit.2.1
  have hc : c ∉ A ++ q :: B := by
    have hcb := List.nodup_cons.mp hqc.2
    simp only [List.mem_append, List.mem_cons, not_or]
    exact ⟨fun hm => hsplit.2.2 c hm c (by simp) rfl, fun e => hqc.1 (by simp [e]), hcb.1⟩
  have hcl : c < s.nx.length := Seg.lt h c (by simp)
  have hlast : (A ++ q :: c :: B).getLast? ≠ some q := by
    intro he
    have hm : q ∈ c :: B := by
      have hz := List.dropLast_concat_getLast (l := c :: B) (by simp)
      rw [show A ++ q :: c :: B = (A ++ q :: (c :: B).dropLast) ++ [(c :: B).getLast (by simp)] from by
        rw [List.append_assoc, List.cons_append, hz], List.getLast?_concat] at he
      rw [← Option.some.inj he]
      exact List.getLast_mem _
    exact hqc.1 hm
  obtain ⟨s1, e1, e2, e3⟩ := step_spec h (.eraseAfter q) ⟨by simp, hlast⟩
  simp only [Spec.apply, Spec.eraseAfter_split hq, List.tail_cons] at e3
  obtain ⟨s2, f1, _, f3⟩ := step_spec e3 (.pushFront c) ⟨by omega, hc⟩
  refine ⟨s1, s2, e1, f1, chain_visits ?_⟩
  have hf : s2.front = some c := f3.1
  rw [← hf]
  exact f3

/-- Meets the hypotheses: the loop has visited 0 and 1 and is about to visit 2. -/
example : ((Lists.step ⟨[some 1, some 2, some 3, none], some 0⟩ (.eraseAfter 1)).bind fun s =>
    (Lists.step s (.pushFront 2)).bind fun s => visits s.nx (some 2) 9) = some [2, 0, 1, 3] := by decide

/-- **Violation.**  The handler takes the node that the loop is about to visit out and puts it into another list: the loop
goes on in the other list, and does not visit the rest of its own. -/
theorem moved_away (nx : List (Option Nat)) (f g : Option Nat) (A B D : List Nat) (q c : Nat)
    (h : Chain nx f (A ++ q :: c :: B)) (hD : Chain nx g D) (hdis : ∀ x ∈ D, x ∉ A ++ q :: c :: B) :
    ∃ s1 t, Lists.step ⟨nx, f⟩ (.eraseAfter q) = some s1 ∧ Lists.step ⟨s1.nx, g⟩ (.pushFront c) = some t ∧
      Spec.Visits t.nx (some c) (c :: D) := by
  have hcl : c < nx.length := Seg.lt h c (by simp)
  have hql : q < nx.length := Seg.lt h q (by simp)
  obtain ⟨r, g1, hr, w, hw, hx, v, hv, g2⟩ := Seg.append_iff.mp h
  subst hx
  have hqD : q ∉ D := fun hm => hdis q hm (by simp)
  have hcD : c ∉ D := fun hm => hdis c hm (by simp)
  refine ⟨⟨nx.set q v, f⟩, ⟨(nx.set q v).set c g, some c⟩, ?_, ?_, chain_visits ?_⟩
  · simp [Lists.step, eraseAfter, nextOf, rd, hw, hv, setNext, wr_lt hql]
  · have : c < (nx.set q v).length := by simpa using hcl
    simp [Lists.step, pushFront, setNext, wr_lt this]
  · exact ⟨rfl, g, by simp [hcl], Seg.set_ne hcD (Seg.set_ne hqD hD)⟩

/-- Meets the hypotheses: 0, 1, 2 and the other list 3. -/
example : Chain [some 1, some 2, none, none] (some 0) ([] ++ 0 :: 1 :: [2]) ∧
    Chain [some 1, some 2, none, none] (some 3) [3] ∧ (∀ x ∈ [3], x ∉ [] ++ 0 :: 1 :: [2]) :=
  ⟨⟨rfl, some 1, rfl, rfl, some 2, rfl, rfl, none, rfl, rfl⟩, ⟨rfl, none, rfl, rfl⟩, by decide⟩

end Verif.Lists.Reader
