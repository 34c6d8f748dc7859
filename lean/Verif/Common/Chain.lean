import Verif.Common.Mem
/-!
# Singly linked chains in a flat memory of `next` pointers

`nx : List (Option Nat)` is the memory of `next` fields, addresses are indices, `none` is the null pointer.
-/
namespace Verif

/-- Starting from pointer `p` and following `next`, one passes exactly the nodes `l`, in order, and then
holds pointer `q`. -/
def Seg (nx : List (Option Nat)) : Option Nat → List Nat → Option Nat → Prop
  | p, [], q => p = q
  | p, a :: l, q => p = some a ∧ ∃ n, nx[a]? = some n ∧ Seg nx n l q

/-- A null-terminated chain. -/
abbrev Chain (nx : List (Option Nat)) (p : Option Nat) (l : List Nat) : Prop := Seg nx p l none

theorem Seg.nil_iff {nx : List (Option Nat)} {p q : Option Nat} : Seg nx p [] q ↔ p = q := Iff.rfl

theorem Seg.cons_iff {nx : List (Option Nat)} {p q : Option Nat} {a : Nat} {l : List Nat} :
    Seg nx p (a :: l) q ↔ p = some a ∧ ∃ n, nx[a]? = some n ∧ Seg nx n l q := Iff.rfl

theorem Seg.lt {nx : List (Option Nat)} {p q : Option Nat} {l : List Nat} (h : Seg nx p l q) :
    ∀ a ∈ l, a < nx.length := by
  induction l generalizing p with
  | nil => simp
  | cons a l ih =>
    obtain ⟨-, n, hn, h⟩ := h
    intro b hb
    rcases List.mem_cons.mp hb with rfl | hb
    · exact (List.getElem?_eq_some_iff.mp hn).1
    · exact ih h b hb

theorem Seg.set_ne {nx : List (Option Nat)} {p q v : Option Nat} {l : List Nat} {a : Nat} (ha : a ∉ l)
    (h : Seg nx p l q) : Seg (nx.set a v) p l q := by
  induction l generalizing p with
  | nil => exact h
  | cons b l ih =>
    obtain ⟨hp, n, hn, h⟩ := h
    simp at ha
    exact ⟨hp, n, by rw [List.getElem?_set_ne ha.1]; exact hn, ih ha.2 h⟩

theorem Seg.append_iff {nx : List (Option Nat)} {p q : Option Nat} {l1 l2 : List Nat} :
    Seg nx p (l1 ++ l2) q ↔ ∃ r, Seg nx p l1 r ∧ Seg nx r l2 q := by
  induction l1 generalizing p with
  | nil => simp [Seg]
  | cons a l1 ih =>
    simp only [List.cons_append, Seg, ih]
    constructor
    · rintro ⟨hp, n, hn, r, h1, h2⟩; exact ⟨r, ⟨hp, n, hn, h1⟩, h2⟩
    · rintro ⟨r, ⟨hp, n, hn, h1⟩, h2⟩; exact ⟨hp, n, hn, r, h1, h2⟩

/-- A pointer determines the null-terminated chain that starts at it. -/
theorem Chain.unique {nx : List (Option Nat)} {p : Option Nat} {l1 l2 : List Nat}
    (h1 : Chain nx p l1) (h2 : Chain nx p l2) : l1 = l2 := by
  induction l1 generalizing p l2 with
  | nil =>
    cases l2 with
    | nil => rfl
    | cons b l2 => have e1 : p = none := h1; have e2 := h2.1; simp [e1] at e2
  | cons a l1 ih =>
    obtain ⟨hp, n, hn, h⟩ := h1
    cases l2 with
    | nil => have e2 : p = none := h2; simp [e2] at hp
    | cons b l2 =>
      obtain ⟨hp2, n2, hn2, h'⟩ := h2
      rw [hp] at hp2; cases hp2
      rw [hn] at hn2; cases hn2
      rw [ih h h']

/-- A null-terminated chain visits no node twice. -/
theorem Chain.nodup {nx : List (Option Nat)} {p : Option Nat} {l : List Nat} (h : Chain nx p l) : l.Nodup := by
  induction l generalizing p with
  | nil => simp
  | cons a l ih =>
    obtain ⟨hp, n, hn, ht⟩ := h
    rw [List.nodup_cons]
    refine ⟨?_, ih ht⟩
    intro hmem
    obtain ⟨l1, l2, rfl⟩ := List.append_of_mem hmem
    obtain ⟨r, -, h3⟩ := Seg.append_iff.mp ht
    obtain ⟨hr, n', hn', h4⟩ := h3
    rw [hn] at hn'; cases hn'
    have := Chain.unique ht h4
    have hl := congrArg List.length this
    simp at hl
    omega

/-- Distinct numbers below `n` number at most `n`. -/
theorem nodup_length_le {l : List Nat} {n : Nat} (hnd : l.Nodup) (h : ∀ a ∈ l, a < n) : l.length ≤ n := by
  induction n generalizing l with
  | zero =>
    cases l with
    | nil => simp
    | cons a l => exact absurd (h a (by simp)) (by omega)
  | succ n ih =>
    have h1 := ih (hnd.erase n) (fun a ha => by
      have := hnd.mem_erase_iff.mp ha
      have := h a this.2
      omega)
    have h2 := List.length_erase (a := n) (l := l)
    split at h2 <;> omega

end Verif
