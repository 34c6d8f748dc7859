import Verif.DynArray.History

/-!
# Fixed-capacity vectors made from an initializer list

`src/estd/internal/runtime_array.h:116-130`, `src/estd/internal/dynamic_array.h:366-369`,
`src/estd/vector.h:31-33` (`layer1::vector`).
-/
namespace Verif.DynArray

variable {α : Type u} [DecidableEq α]

/-- The constructor from an initializer list, runtime_array.h:120-129: the values are copied to the start of
the buffer of a default-constructed container, whose length is then set.  Nothing compares the length of the
list with the capacity. -/
def ofInitList (c : Cfg α) (buf l : List α) : Res (Arr α) :=
  (construct c buf).bind fun a =>
    (Res.ofOption (writeAll a.buf 0 l)).bind fun b => setSize c { a with buf := b } l.length

/-- C10: a container made from an initializer list that fits holds exactly that list. -/
theorem init_list_holds (c : Cfg α) (buf l : List α) (hM : buf.length < c.modulus)
    (hc : c.nullTerm = true → 0 < buf.length)
    (hf : l.length + (if c.nullTerm then 1 else 0) ≤ buf.length) (hz : c.nullTerm = true → c.zero ∉ l) :
    ∃ a, ofInitList c buf l = .ok a ∧ Holds c a l := by
  obtain ⟨a0, e1, e2, e3⟩ := construct_rep c buf hM hc
  have hl : l.length ≤ buf.length := by split at hf <;> omega
  obtain ⟨b, f1, f2, f3⟩ := writeAll_effect a0.buf 0 l (by omega)
  have hs := setSize_ok c { a0 with buf := b } l.length (by omega) (by
    intro hn; rw [if_pos hn] at hf; simp only; omega)
  refine ⟨resized c { a0 with buf := b } l.length, by simp [ofInitList, e1, f1, hs], ?_⟩
  refine (Rep.mk (c := c) ?_ ?_ ?_ ?_ ?_ hz).holds
  · rw [resized_length]; simp only; omega
  · rw [resized_length]; simp only; omega
  · intro i hi
    rw [resized_get_ne _ _ _ _ (by omega)]
    simp only [f3, Nat.zero_add, Nat.zero_le, true_and, Nat.sub_zero, hi, if_true]
  · intro hn; simp [resized_msize c _ _ hn]
  · intro hn
    rw [if_pos hn] at hf
    exact resized_get_term c _ _ hn (by simp only; omega)

/-- **Violation.** C11: an initializer list longer than the buffer is written past its end: undefined
behaviour, whether or not assertions are compiled in. -/
theorem init_list_overfull_ub (c : Cfg α) (buf l : List α) (hM : buf.length < c.modulus)
    (hc : c.nullTerm = true → 0 < buf.length) (hf : buf.length < l.length) :
    ofInitList c buf l = .ub := by
  obtain ⟨a0, e1, e2, e3⟩ := construct_rep c buf hM hc
  rw [ofInitList, e1]
  simp only [Res.bind_ok]
  rw [writeAll_overrun a0.buf 0 l (by omega) (by rintro rfl; simp at hf)]
  rfl

/-- **Violation.** C11: and a null-terminated one that fills the buffer exactly has its terminator written
one past the end. -/
theorem init_list_terminator_ub (c : Cfg α) (hn : c.nullTerm = true) (buf l : List α)
    (hM : buf.length < c.modulus) (hc : 0 < buf.length) (hf : l.length = buf.length) :
    ofInitList c buf l = .ub := by
  obtain ⟨a0, e1, e2, e3⟩ := construct_rep c buf hM (fun _ => hc)
  obtain ⟨b, f1, f2, f3⟩ := writeAll_effect a0.buf 0 l (by omega)
  rw [ofInitList, e1]
  simp only [Res.bind_ok, f1, Res.ofOption_some, setSize, hn, if_true]
  rw [show wr b (l.length % c.modulus) c.zero = none by
    rw [Nat.mod_eq_of_lt (by omega)]; simp [wr]; omega]
  rfl

example : ofInitList exVec [0, 0, 0] [4, 5] = .ok ⟨[4, 5, 0], 2⟩ := by decide +kernel
example : ofInitList exVec [0, 0, 0] [4, 5, 6, 7] = .ub := by decide +kernel
example : ofInitList exStr [1, 1, 1] [4, 5] = .ok ⟨[4, 5, 0], 0⟩ := by decide +kernel
example : ofInitList exStr [1, 1] [4, 5] = .ub := by decide +kernel

end Verif.DynArray
