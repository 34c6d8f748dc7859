import Verif.DynArray.Model

/-!
# A string that an interrupt handler reads while the main program edits it (C115)

Modelled from `src/estd/internal/impl/dynamic_array.h:15-96` (null termination), `src/estd/internal/dynamic_array.h:144-191,
388-391, 422-439, 457-475, 586-608` and `src/estd/internal/container/specializer.h:93-100` for a string in a fixed buffer:
the stores each edit makes, in order, and the text a handler finds between any two of them.  One core, stores are not
reordered (`copy_n` copies from the front).  Characters are numbers, 0 terminates.
-/
namespace Verif.DynArray.Reader
open Verif

/-- the stores of `copy_n(src, len, &buffer[r])`, specializer.h:93-100 -/
def cells : Nat → List Nat → List (Nat × Nat)
  | _, [] => []
  | r, x :: xs => (r, x) :: cells (r + 1) xs

inductive Op where
  | append (src : List Nat)
  | pop
  | clear
  | assign (src : List Nat)
  deriving DecidableEq, Repr

/-- the stores of an append at a size that has been found before: the terminator first (dynamic_array.h:422-439 through
impl/dynamic_array.h:85-95), then the characters (dynamic_array.h:475) -/
def appendAt (r : Nat) (src : List Nat) : List (Nat × Nat) := (r + src.length, 0) :: cells r src

/-- the stores of each edit: `append` and `push_back` dynamic_array.h:457-475, 605-608; `pop_back` 586-603 (undefined when
empty); `clear` 388-391; `assign` 186-191: the size first, then the characters -/
def stores (buf : List Nat) : Op → Option (List (Nat × Nat))
  | .append src => (strlen 0 buf).map fun r => appendAt r src
  | .pop => (strlen 0 buf).bind fun r => if r = 0 then none else some [(r - 1, 0)]
  | .clear => some [(0, 0)]
  | .assign src => some (appendAt 0 src)

/-- making stores; outside the buffer: undefined -/
def poke : List Nat → List (Nat × Nat) → Option (List Nat)
  | buf, [] => some buf
  | buf, (i, x) :: ss => (wr buf i x).bind fun b => poke b ss

/-- the first `k` stores of an edit -/
def partly (buf : List Nat) (o : Op) (k : Nat) : Option (List Nat) := (stores buf o).bind fun ss => poke buf (ss.take k)

/-- a whole edit -/
def whole (buf : List Nat) (o : Op) : Option (List Nat) := (stores buf o).bind (poke buf)

/-- edits one after the other -/
def history : List Nat → List Op → Option (List Nat)
  | buf, [] => some buf
  | buf, o :: os => (whole buf o).bind fun b => history b os

/-- what a reader finds: the characters before the first terminator (impl/dynamic_array.h:60-69); none: undefined -/
def shown (buf : List Nat) : Option (List Nat) := (strlen 0 buf).map fun n => buf.take n

/-! ## Specification -/

/-- the text an edit makes of a text; `none` is an edit the caller must not make in a buffer of `cap` cells -/
def Spec.edit (cap : Nat) (l : List Nat) : Op → Option (List Nat)
  | .append src => if 0 ∉ src ∧ l.length + src.length < cap then some (l ++ src) else none
  | .pop => if l = [] then none else some l.dropLast
  | .clear => some []
  | .assign src => if 0 ∉ src ∧ src.length < cap then some src else none

def Spec.edits (cap : Nat) : List Nat → List Op → Option (List Nat)
  | l, [] => some l
  | l, o :: os => (Spec.edit cap l o).bind fun m => Spec.edits cap m os

/-- a buffer with a text in it -/
def Spec.Holds (buf l : List Nat) : Prop := 0 ∉ l ∧ ∃ rest, buf = l ++ 0 :: rest

/-- edits by at most one character -/
def Spec.single : Op → Prop
  | .append src => src.length ≤ 1
  | .assign src => src = []
  | _ => True

/-! ## Proofs -/

theorem strlen_holds {l rest : List Nat} (h : 0 ∉ l) : strlen 0 (l ++ 0 :: rest) = some l.length := by
  induction l with
  | nil => simp [strlen]
  | cons x l ih =>
    have hx : x ≠ 0 := fun e => h (by simp [e])
    have := ih (fun hm => h (by simp [hm]))
    simp [strlen, hx, this]

theorem shown_holds {buf l : List Nat} (h : Spec.Holds buf l) : shown buf = some l ∧ strlen 0 buf = some l.length := by
  obtain ⟨h0, rest, rfl⟩ := h
  simp [shown, strlen_holds h0]

theorem poke_append {ss ts : List (Nat × Nat)} : ∀ {buf : List Nat}, poke buf (ss ++ ts) = (poke buf ss).bind (poke · ts) := by
  induction ss with
  | nil => intro buf; rfl
  | cons p ss ih =>
    intro buf
    obtain ⟨i, x⟩ := p
    simp only [List.cons_append, poke]
    cases wr buf i x with
    | none => rfl
    | some b => exact ih

theorem cells_take {src : List Nat} : ∀ {r j : Nat}, (cells r src).take j = cells r (src.take j) := by
  induction src with
  | nil => intro r j; simp [cells]
  | cons x xs ih =>
    intro r j
    cases j with
    | zero => rfl
    | succ j => simp [cells, ih]

theorem poke_cells {src : List Nat} : ∀ {pre mid post : List Nat}, mid.length = src.length →
    poke (pre ++ mid ++ post) (cells pre.length src) = some (pre ++ src ++ post) := by
  induction src with
  | nil => intro pre mid post h; simp at h; simp [h, cells, poke]
  | cons x xs ih =>
    intro pre mid post h
    cases mid with
    | nil => simp at h
    | cons y ys =>
      have hw : wr (pre ++ (y :: ys) ++ post) pre.length x = some ((pre ++ [x]) ++ ys ++ post) := by
        simp [wr]
      simp only [cells, poke, hw, Option.bind_some]
      have := ih (pre := pre ++ [x]) (mid := ys) (post := post) (by simpa using h)
      rw [List.length_append, List.length_singleton] at this
      rw [this]
      simp

/-- cutting a buffer at the places an append uses -/
theorem cut {buf : List Nat} {r n j : Nat} (hr : r + n < buf.length) (hj : j ≤ n) :
    ∃ x, buf = (buf.take r ++ (buf.drop r).take j ++ (buf.drop (r + j)).take (n - j)) ++ x :: buf.drop (r + n + 1) := by
  refine ⟨buf[r + n], ?_⟩
  have h1 : buf.drop r = (buf.drop r).take j ++ buf.drop (r + j) := by
    rw [← List.drop_drop, List.take_append_drop]
  have h2 : buf.drop (r + j) = (buf.drop (r + j)).take (n - j) ++ buf.drop (r + n) := by
    rw [show buf.drop (r + n) = (buf.drop (r + j)).drop (n - j) from by rw [List.drop_drop]; congr 1; omega,
      List.take_append_drop]
  rw [← List.drop_eq_getElem_cons, List.append_assoc, ← h2, List.append_assoc, ← h1, List.take_append_drop]

/-- the buffer after the terminator and `j` characters of an append at `r` have been stored -/
theorem appendAt_partly {buf src : List Nat} {r j : Nat} (hr : r + src.length < buf.length) (hj : j ≤ src.length) :
    poke buf ((appendAt r src).take (j + 1)) =
      some (buf.take r ++ src.take j ++ (buf.drop (r + j)).take (src.length - j) ++ 0 :: buf.drop (r + src.length + 1)) := by
  obtain ⟨x, hx⟩ := cut hr hj
  have hl : (buf.take r ++ (buf.drop r).take j ++ (buf.drop (r + j)).take (src.length - j)).length = r + src.length := by
    simp only [List.length_append, List.length_take, List.length_drop]; omega
  have hw : wr buf (r + src.length) 0 = some ((buf.take r ++ (buf.drop r).take j ++
      (buf.drop (r + j)).take (src.length - j)) ++ 0 :: buf.drop (r + src.length + 1)) := by
    have hgen : ∀ (A B : List Nat) (n : Nat), A.length = n → wr (A ++ x :: B) n 0 = some (A ++ 0 :: B) := by
      intro A B n hn; subst hn; simp [wr]
    have := hgen _ (buf.drop (r + src.length + 1)) _ hl
    rw [← hx] at this
    exact this
  rw [appendAt, List.take_succ_cons, poke, hw, Option.bind_some, cells_take]
  have := poke_cells (src := src.take j) (pre := buf.take r) (mid := (buf.drop r).take j)
    (post := (buf.drop (r + j)).take (src.length - j) ++ 0 :: buf.drop (r + src.length + 1))
    (by simp only [List.length_take, List.length_drop]; omega)
  rw [show (buf.take r).length = r from by rw [List.length_take]; omega] at this
  simp only [List.append_assoc] at this ⊢
  exact this

theorem shown_take {X rest : List Nat} : ∀ {A : List Nat}, 0 ∉ A →
    shown (A ++ X ++ 0 :: rest) = some (A ++ X.takeWhile (· ≠ 0)) := by
  have hX : ∀ (X : List Nat), ∃ Y, X ++ 0 :: rest = X.takeWhile (· ≠ 0) ++ 0 :: Y ∧ 0 ∉ X.takeWhile (· ≠ 0) := by
    intro X
    induction X with
    | nil => exact ⟨rest, rfl, by simp⟩
    | cons x X ih =>
      by_cases hx : x = 0
      · subst hx; exact ⟨X ++ 0 :: rest, by simp, by simp⟩
      · obtain ⟨Y, h1, h2⟩ := ih
        refine ⟨Y, ?_, ?_⟩
        · simp [hx, h1]
        · simp only [List.takeWhile_cons, hx, ne_eq, not_false_eq_true, decide_true, if_true, List.mem_cons, not_or]
          exact ⟨fun e => hx e.symm, h2⟩
  intro A hA
  obtain ⟨Y, h1, h2⟩ := hX X
  have hh : Spec.Holds (A ++ X ++ 0 :: rest) (A ++ X.takeWhile (· ≠ 0)) :=
    ⟨by simp only [List.mem_append, not_or]; exact ⟨hA, h2⟩, Y, by rw [List.append_assoc, h1, List.append_assoc]⟩
  exact (shown_holds hh).1

theorem takeWhile_self {X : List Nat} (h : ∀ x ∈ X, x ≠ 0) : X.takeWhile (· ≠ 0) = X := by
  induction X with
  | nil => rfl
  | cons x X ih =>
    rw [List.takeWhile_cons, if_pos (by simpa using h x (by simp)), ih (fun y hy => h y (by simp [hy]))]

/-- **What a handler sees inside an append**, after the terminator and `j` characters: the old text, the `j` characters,
and then whatever the memory behind the old text happens to hold up to a zero, at most as many characters as are still to
come.  (`j = 0` is before the first character, `j = src.length` after the last; before the first store the text is the
old one.) -/
theorem append_seen (buf l src : List Nat) (j : Nat) (h : Spec.Holds buf l) (hs : 0 ∉ src)
    (hroom : l.length + src.length < buf.length) (hj : j ≤ src.length) :
    (partly buf (.append src) (j + 1)).bind shown =
      some (l ++ src.take j ++ ((buf.drop (l.length + j)).take (src.length - j)).takeWhile (· ≠ 0)) := by
  have ht : buf.take l.length = l := by obtain ⟨_, rest, rfl⟩ := h; simp
  simp only [partly, stores, (shown_holds h).2, Option.map_some, Option.bind_some]
  rw [appendAt_partly hroom hj, ht, Option.bind_some]
  exact shown_take (by
    simp only [List.mem_append, not_or]
    exact ⟨h.1, fun hm => hs (List.mem_of_mem_take hm)⟩)

/-- Meets the hypotheses: "a" in a buffer with stale characters, "xyz" appended, after one character. -/
example : Spec.Holds [97, 0, 55, 56, 57, 0] [97] ∧
    (partly [97, 0, 55, 56, 57, 0] (.append [120, 121, 122]) 2).bind shown = some [97, 120, 55, 56] :=
  ⟨⟨by decide, [55, 56, 57, 0], rfl⟩, by decide⟩

theorem whole_holds {buf l m : List Nat} {o : Op} (h : Spec.Holds buf l) (he : Spec.edit buf.length l o = some m) :
    ∃ b, whole buf o = some b ∧ Spec.Holds b m ∧ b.length = buf.length := by
  have ht : buf.take l.length = l := by obtain ⟨_, rest, rfl⟩ := h; simp
  have hfill : ∀ (r : Nat) (src : List Nat), r + src.length < buf.length →
      poke buf (appendAt r src) = some (buf.take r ++ src ++ 0 :: buf.drop (r + src.length + 1)) := by
    intro r src hr
    have hc : ∀ (xs : List Nat) (k : Nat), (cells k xs).length = xs.length := by
      intro xs
      induction xs with
      | nil => intro k; rfl
      | cons x xs ih => intro k; simp [cells, ih]
    have := appendAt_partly hr (Nat.le_refl _)
    rw [List.take_of_length_le (by simp [appendAt, hc])] at this
    simpa using this
  cases o with
  | append src =>
    simp only [Spec.edit] at he
    split at he
    · rename_i hc
      cases he
      refine ⟨_, by simp only [whole, stores, (shown_holds h).2, Option.map_some, Option.bind_some]; exact hfill _ _ hc.2, ?_, ?_⟩
      · rw [ht]; exact ⟨by simp only [List.mem_append, not_or]; exact ⟨h.1, hc.1⟩, _, rfl⟩
      · simp only [List.length_append, List.length_take, List.length_cons, List.length_drop]; omega
    · cases he
  | pop =>
    simp only [Spec.edit] at he
    split at he
    · cases he
    · rename_i hne
      cases he
      have hpos := List.length_pos_iff.mpr hne
      obtain ⟨h0, rest, rfl⟩ := h
      have hl : l = l.dropLast ++ [l.getLast hne] := (List.dropLast_concat_getLast hne).symm
      refine ⟨l.dropLast ++ 0 :: (0 :: rest), ?_, ⟨fun hm => h0 (List.dropLast_subset _ hm), _, rfl⟩, ?_⟩
      · simp only [whole, stores, strlen_holds h0, Option.bind_some]
        rw [if_neg (by omega)]
        simp only [Option.bind_some, poke]
        have hgen : ∀ (A B : List Nat) (x n : Nat), A.length = n → wr (A ++ x :: B) n 0 = some (A ++ 0 :: B) := by
          intro A B x n hn; subst hn; simp [wr]
        have := hgen l.dropLast (0 :: rest) (l.getLast hne) (l.length - 1) (by simp)
        rw [show l.dropLast ++ l.getLast hne :: 0 :: rest = l ++ 0 :: rest from by
          rw [show l ++ 0 :: rest = (l.dropLast ++ [l.getLast hne]) ++ 0 :: rest from by rw [← hl]]
          simp] at this
        rw [this]
        rfl
      · simp only [List.length_append, List.length_cons, List.length_dropLast]; omega
  | clear =>
    cases he
    obtain ⟨h0, rest, rfl⟩ := h
    cases l with
    | nil => exact ⟨0 :: rest, rfl, ⟨by simp, rest, rfl⟩, rfl⟩
    | cons x l => exact ⟨0 :: (l ++ 0 :: rest), rfl, ⟨by simp, _, rfl⟩, by simp⟩
  | assign src =>
    simp only [Spec.edit] at he
    split at he
    · rename_i hc
      cases he
      have := hfill 0 m (by omega)
      rw [List.take_zero, List.nil_append] at this
      refine ⟨_, by simp only [whole, stores, Option.bind_some]; exact this, ⟨hc.1, _, rfl⟩, ?_⟩
      simp only [List.length_append, List.length_cons, List.length_drop]; omega
    · cases he

theorem history_holds {os : List Op} : ∀ {buf l m : List Nat}, Spec.Holds buf l → Spec.edits buf.length l os = some m →
    ∃ b, history buf os = some b ∧ Spec.Holds b m ∧ b.length = buf.length := by
  induction os with
  | nil => intro buf l m h he; cases he; exact ⟨buf, rfl, h, rfl⟩
  | cons o os ih =>
    intro buf l m h he
    simp only [Spec.edits, Option.bind_eq_some_iff] at he
    obtain ⟨k, h1, h2⟩ := he
    obtain ⟨b, w1, w2, w3⟩ := whole_holds h h1
    rw [← w3] at h2
    obtain ⟨b', v1, v2, v3⟩ := ih w2 h2
    exact ⟨b', by simp only [history, w1, Option.bind_some, v1], v2, v3.trans w3⟩

/-- **A reader always finds a text the program has made.**  After any edits, and at any point inside a next edit that adds
at most one character, removes the last or clears, a handler finds the text before that edit or the one after it.
Missing: inside longer appends and assignments (`append_garbles`, `assign_mixes`). -/
theorem reader_partial (buf l m n : List Nat) (os : List Op) (o : Op) (k : Nat) (h : Spec.Holds buf l)
    (he : Spec.edits buf.length l os = some m) (ho : Spec.edit buf.length m o = some n) (hsingle : Spec.single o) :
    ∃ b, history buf os = some b ∧
      ((partly b o k).bind shown = some m ∨ (partly b o k).bind shown = some n) := by
  obtain ⟨b, h1, h2, h3⟩ := history_holds h he
  refine ⟨b, h1, ?_⟩
  rw [← h3] at ho
  obtain ⟨w, w1, w2, _⟩ := whole_holds h2 ho
  simp only [whole, Option.bind_eq_some_iff] at w1
  obtain ⟨ss, s1, s2⟩ := w1
  simp only [partly, s1, Option.bind_some]
  by_cases hk : k = 0
  · left; subst hk; simp only [List.take_zero, poke, Option.bind_some]; exact (shown_holds h2).1
  by_cases hall : ss.length ≤ k
  · right; rw [List.take_of_length_le hall, s2, Option.bind_some]; exact (shown_holds w2).1
  -- only a push has a point in between
  left
  cases o with
  | append src =>
    simp only [stores, (shown_holds h2).2, Option.map_some, Option.some.injEq] at s1
    subst s1
    cases src with
    | nil => simp [appendAt, cells] at hall; omega
    | cons x xs =>
      cases xs with
      | cons _ _ => simp [Spec.single] at hsingle
      | nil =>
        have hk1 : k = 0 + 1 := by simp [appendAt, cells] at hall; omega
        simp only [Spec.edit] at ho
        split at ho
        · rename_i hc
          have := append_seen b m [x] 0 h2 hc.1 hc.2 (by simp)
          simp only [partly, stores, (shown_holds h2).2, Option.map_some, Option.bind_some] at this
          rw [hk1, this]
          obtain ⟨_, rest, rfl⟩ := h2
          simp
        · cases ho
  | pop =>
    simp only [stores, (shown_holds h2).2, Option.bind_some] at s1
    split at s1
    · cases s1
    · cases s1; simp at hall; omega
  | clear => cases s1; simp at hall; omega
  | assign src =>
    simp only [Spec.single] at hsingle
    subst hsingle
    cases s1
    simp [appendAt, cells] at hall
    omega

/-- Meets the hypotheses: "ab", a character removed, another one being added. -/
example : Spec.Holds [97, 98, 0, 55] [97, 98] ∧ Spec.edits 4 [97, 98] [.pop] = some [97] ∧
    Spec.edit 4 [97] (.append [99]) = some [97, 99] ∧ Spec.single (.append [99]) ∧
    (history [97, 98, 0, 55] [.pop]).bind (fun b => (partly b (.append [99]) 1).bind shown) = some [97] :=
  ⟨⟨by decide, [55], rfl⟩, by decide, by decide, by simp [Spec.single], by decide⟩

/-- The same edits, at one go, are those of C10. -/
theorem whole_is_append (c : Cfg Nat) (hc : c.nullTerm = true) (hz : c.zero = 0) (a : Arr Nat) (l src : List Nat)
    (h : Spec.Holds a.buf l) (hroom : l.length + src.length < a.buf.length) (hm : a.buf.length ≤ c.modulus) :
    (append c a src) = Res.ofOption ((whole a.buf (.append src)).map fun b => { a with buf := b }) := by
  have hpoke : ∀ (xs : List Nat) (b : List Nat) (r : Nat), poke b (cells r xs) = writeAll b r xs := by
    intro xs
    induction xs with
    | nil => intro b r; rfl
    | cons x xs ih =>
      intro b r
      simp only [cells, poke, writeAll]
      cases wr b r x with
      | none => rfl
      | some b' => exact ih b' (r + 1)
  have h1 : src.length % c.modulus = src.length := Nat.mod_eq_of_lt (by omega)
  have h2 : l.length % c.modulus = l.length := Nat.mod_eq_of_lt (by omega)
  have h3 : (l.length + src.length) % c.modulus = l.length + src.length := Nat.mod_eq_of_lt (by omega)
  simp only [append, grow, size, hc, if_true, hz, (shown_holds h).2, Res.ofOption_some, Res.bind_ok, h1, h2,
    ensureTotalCapacity, h3, setSize]
  rw [if_neg (by unfold Arr.capacity; omega)]
  simp only [Res.bind_ok, whole, stores, (shown_holds h).2, Option.map_some, Option.bind_some, appendAt, poke]
  cases wr a.buf (l.length + src.length) 0 with
  | none => rfl
  | some b =>
    simp only [Res.ofOption_some, Res.bind_ok, Option.bind_some, hpoke]
    rw [List.take_of_length_le (Nat.le_refl _)]
    cases writeAll b l.length src with
    | none => rfl
    | some b' => rfl

/-- Meets the hypotheses. -/
example : append ⟨256, true, 0, false⟩ ⟨[97, 0, 0, 0], 0⟩ [98, 99] = .ok ⟨[97, 98, 99, 0], 0⟩ := by decide

/-- **Violation.**  Inside an append of several characters a handler finds characters that are in neither text: when the
memory behind the old text holds a character, it stands there for the one to come. -/
theorem append_garbles (buf l src : List Nat) (j x : Nat) (h : Spec.Holds buf l) (hs : 0 ∉ src)
    (hroom : l.length + src.length < buf.length) (h0 : 0 < j) (hj : j < src.length) (hx : buf[l.length + j]? = some x)
    (hx0 : x ≠ 0) (hne : src[j]? ≠ some x) :
    ∃ t, (partly buf (.append src) (j + 1)).bind shown = some t ∧ t ≠ l ∧ ¬ t <+: l ++ src := by
  refine ⟨_, append_seen buf l src j h hs hroom (Nat.le_of_lt hj), ?_, ?_⟩
  · intro he
    have := congrArg List.length he
    simp only [List.length_append, List.length_take] at this
    omega
  · intro hp
    obtain ⟨hlt, hxe⟩ := List.getElem?_eq_some_iff.mp hx
    obtain ⟨d, hd⟩ : ∃ d, src.length - j = d + 1 := ⟨src.length - j - 1, by omega⟩
    have hX : (buf.drop (l.length + j)).take (src.length - j) = x :: (buf.drop (l.length + j + 1)).take d := by
      rw [List.drop_eq_getElem_cons hlt, hxe, hd, List.take_succ_cons]
    rw [hX, List.takeWhile_cons, if_pos (by simpa using hx0)] at hp
    have hg : (l ++ src.take j ++ x :: ((buf.drop (l.length + j + 1)).take d).takeWhile (· ≠ 0))[l.length + j]? = some x := by
      rw [List.getElem?_append_right (by simp only [List.length_append, List.length_take]; omega)]
      rw [show l.length + j - (l ++ src.take j).length = 0 from by
        simp only [List.length_append, List.length_take]; omega]
      rfl
    obtain ⟨t, ht⟩ := hp
    have h2 : (l ++ src)[l.length + j]? = some x := by
      rw [← ht, List.getElem?_append_left, hg]
      exact (List.getElem?_eq_some_iff.mp hg).1
    rw [List.getElem?_append_right (by omega), Nat.add_sub_cancel_left] at h2
    exact hne h2

/-- Meets the hypotheses: "12345" was cleared, "abc" is being appended: after "ab" a handler finds "ab3". -/
example : Spec.Holds [0, 50, 51, 52, 53, 0] [] ∧ ([0, 50, 51, 52, 53, 0] : List Nat)[0 + 2]? = some 51 ∧
    (partly [0, 50, 51, 52, 53, 0] (.append [97, 98, 99]) 3).bind shown = some [97, 98, 51] :=
  ⟨⟨by decide, _, rfl⟩, rfl, by decide⟩

/-- **Violation.**  Inside an assignment a handler finds the beginning of the new text and then the old one, cut to the
length of the new one: here for a new text that is not longer than the old one. -/
theorem assign_mixes (buf l src : List Nat) (j : Nat) (h : Spec.Holds buf l) (hs : 0 ∉ src) (hlen : src.length ≤ l.length)
    (hj : j ≤ src.length) :
    (partly buf (.assign src) (j + 1)).bind shown = some (src.take j ++ (l.drop j).take (src.length - j)) := by
  obtain ⟨h0, rest, rfl⟩ := h
  have hroom : 0 + src.length < (l ++ 0 :: rest).length := by simp; omega
  simp only [partly, stores, Option.bind_some]
  rw [appendAt_partly hroom hj, Option.bind_some, List.take_zero, List.nil_append, Nat.zero_add,
    List.drop_append_of_le_length (by omega), List.take_append_of_le_length (by rw [List.length_drop]; omega),
    shown_take (fun hm => hs (List.mem_of_mem_take hm))]
  rw [takeWhile_self]
  intro x hx
  have : x ∈ l := List.mem_of_mem_drop (List.mem_of_mem_take hx)
  intro e
  exact h0 (e ▸ this)

/-- Meets the hypotheses: "on " for "off" shows "onf" and, before anything else, "off" is only cut. -/
example : (partly [111, 102, 102, 0] (.assign [111, 110]) 1).bind shown = some [111, 102] ∧
    (partly [97, 98, 99, 0] (.assign [120, 121, 122]) 3).bind shown = some [120, 121, 99] := by decide

/-- **Violation.**  A handler that appends a text itself, between the moment a push has found the size and its stores,
loses all of it. -/
theorem handler_text_lost (buf l t : List Nat) (x : Nat) (h : Spec.Holds buf l) (ht : 0 ∉ t) (hx : x ≠ 0) (ht0 : t ≠ [])
    (hroom : l.length + t.length < buf.length) :
    ∃ b, whole buf (.append t) = some b ∧ shown b = some (l ++ t) ∧
      (poke b (appendAt l.length [x])).bind shown = some (l ++ [x]) := by
  have he : Spec.edit buf.length l (.append t) = some (l ++ t) := by
    simp only [Spec.edit]; rw [if_pos ⟨ht, hroom⟩]
  obtain ⟨b, w1, w2, w3⟩ := whole_holds h he
  have htl := List.length_pos_iff.mpr ht0
  refine ⟨b, w1, (shown_holds w2).1, ?_⟩
  have := appendAt_partly (buf := b) (src := [x]) (r := l.length) (j := 1) (by simp only [List.length_singleton]; omega) (by simp)
  rw [List.take_of_length_le (by simp [appendAt, cells])] at this
  rw [this, Option.bind_some]
  have hb : b.take l.length = l := by obtain ⟨_, rest, rfl⟩ := w2; simp
  rw [hb]
  have hh : Spec.Holds (l ++ [x] ++ 0 :: b.drop (l.length + 1 + 1)) (l ++ [x]) :=
    ⟨by simp only [List.mem_append, List.mem_singleton, not_or]; exact ⟨h.1, fun e => hx e.symm⟩, _, rfl⟩
  have := (shown_holds hh).1
  simpa using this

/-- Meets the hypotheses: "x" being added to "a" when the handler adds "12": "ax". -/
example : ((whole [97, 0, 0, 0, 0] (.append [49, 50])).bind fun b => (poke b (appendAt 1 [120])).bind shown) =
    some [97, 120] := by decide

/-- **Violation.**  … and between the two stores of the push, its first character. -/
theorem handler_text_spoilt (buf l t : List Nat) (x y : Nat) (h : Spec.Holds buf l) (ht : 0 ∉ y :: t) (hx : x ≠ 0)
    (hroom : l.length + (t.length + 1) < buf.length) :
    ∃ b1 b2 b3, poke buf ((appendAt l.length [x]).take 1) = some b1 ∧ whole b1 (.append (y :: t)) = some b2 ∧
      poke b2 ((appendAt l.length [x]).drop 1) = some b3 ∧ shown b3 = some (l ++ x :: t) := by
  have hb : buf.take l.length = l := by obtain ⟨_, rest, rfl⟩ := h; simp
  have h1 := appendAt_partly (buf := buf) (src := [x]) (r := l.length) (j := 0) (by simp only [List.length_singleton]; omega)
    (by simp)
  have hd0 : (buf.drop (l.length + 0)).take ([x].length - 0) = [0] := by obtain ⟨_, rest, rfl⟩ := h; simp
  rw [hb, hd0] at h1
  generalize hb1 : l ++ [x].take 0 ++ [0] ++ 0 :: buf.drop (l.length + [x].length + 1) = b1 at h1
  have hl1 : b1.length = buf.length := by
    rw [← hb1]; simp only [List.length_append, List.length_cons, List.length_drop, List.take_zero, List.length_nil]; omega
  have hh1 : Spec.Holds b1 l := ⟨h.1, 0 :: buf.drop (l.length + [x].length + 1), by rw [← hb1]; simp⟩
  have he : Spec.edit b1.length l (.append (y :: t)) = some (l ++ y :: t) := by
    simp only [Spec.edit]; rw [if_pos ⟨ht, by rw [hl1]; simpa using hroom⟩]
  obtain ⟨b2, w1, w2, _⟩ := whole_holds hh1 he
  obtain ⟨_, rest, rfl⟩ := w2
  refine ⟨b1, _, l ++ x :: t ++ 0 :: rest, h1, w1, ?_, ?_⟩
  · simp [appendAt, cells, poke, wr]
  · have hh : Spec.Holds (l ++ x :: t ++ 0 :: rest) (l ++ x :: t) := by
      refine ⟨?_, rest, rfl⟩
      simp only [List.mem_append, List.mem_cons, not_or] at ht ⊢
      exact ⟨h.1, fun e => hx e.symm, ht.2⟩
    exact (shown_holds hh).1

/-- Meets the hypotheses: "x" being added to "a" when the handler adds "12": "ax2". -/
example : ((poke [97, 0, 0, 0, 0] [(2, 0)]).bind fun b => (whole b (.append [49, 50])).bind fun b =>
    (poke b [(1, 120)]).bind shown) = some [97, 120, 50] := by decide

end Verif.DynArray.Reader
