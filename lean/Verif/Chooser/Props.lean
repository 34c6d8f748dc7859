import Verif.Common.Mem
/-!
# The name chooser (C45)
-/
namespace Verif.Chooser
open Verif

/-! ## Model -/

/-- `chosen_` (`none` for -1) and `i`, internal/chooser.h:12-13. -/
structure St where
  chosen : Option Nat
  i : Nat
deriving DecidableEq, Repr

/-- The scan for a first match, internal/chooser.h:47-56.  Names are stored null terminated; indexing past the
terminator is undefined. -/
def scan (names : List (List Nat)) (i c : Nat) : Nat → Option (Option Nat)
  | j =>
    match names with
    | [] => some none
    | name :: rest =>
      match rd (name ++ [0]) i with
      | none => none
      | some x => if x = c then some (some j) else scan rest i c (j + 1)

/-- `process`, internal/chooser.h:41-83. -/
def process (names : List (List Nat)) (s : St) (c : Nat) : Option (St × Bool) :=
  match s.chosen with
  | none =>
    match scan names s.i c 0 with
    | none => none
    | some r => some (⟨r, s.i + 1⟩, false)
  | some k =>
    match names[k]? with
    | none => none
    | some name =>
      match rd (name ++ [0]) s.i with
      | none => none
      | some x =>
        if x ≠ c then some (⟨none, s.i⟩, true)
        else if s.i + 1 = name.length then some (s, true)
        else some (⟨s.chosen, s.i + 1⟩, false)

/-- Loop of `choose`, internal/chooser.h:85-99: final state and number of characters consumed. -/
def chooseLoop (names : List (List Nat)) : St → Nat → List Nat → Option (St × Nat)
  | s, n, [] => some (⟨none, s.i⟩, n)
  | s, n, c :: cs =>
    match process names s c with
    | none => none
    | some (s', true) => some (s', n + 1)
    | some (s', false) => chooseLoop names s' (n + 1) cs

/-- The static `choose(containers, in, end)`, internal/chooser.h:101-107: the chosen index (`none` for -1)
and the position reached. -/
def choose (names : List (List Nat)) (txt : List Nat) : Option (Option Nat × Nat) :=
  (chooseLoop names ⟨none, 0⟩ 0 txt).map fun r => (r.1.chosen, r.2)

/-! ## Properties -/

/-- Name `k` is the first listed name beginning with `c`, and all names are non-empty. -/
structure Spec.FirstWith (names : List (List Nat)) (c k : Nat) : Prop where
  isFirst : ∃ t, names[k]? = some (c :: t)
  before : ∀ j < k, ∀ n, names[j]? = some n → n.head? ≠ some c
  nonempty : ∀ n ∈ names, n ≠ []

theorem scan_spec (names : List (List Nat)) (c k j : Nat) (h : Spec.FirstWith names c k) :
    scan names 0 c j = some (some (j + k)) := by
  induction names generalizing k j with
  | nil => obtain ⟨t, ht⟩ := h.isFirst; simp at ht
  | cons n names ih =>
    obtain ⟨x, n', rfl⟩ : ∃ x n', n = x :: n' := by
      cases n with
      | nil => exact absurd rfl (h.nonempty [] (by simp))
      | cons x n' => exact ⟨x, n', rfl⟩
    unfold scan
    simp only [rd, List.cons_append, List.getElem?_cons_zero]
    cases k with
    | zero =>
      obtain ⟨t, ht⟩ := h.isFirst
      simp at ht
      simp [ht.1]
    | succ k =>
      have hx : x ≠ c := by
        have := h.before 0 (by omega) (x :: n') rfl
        simpa using this
      rw [if_neg hx, ih k (j + 1)]
      · congr 2; omega
      · obtain ⟨t, ht⟩ := h.isFirst
        exact ⟨⟨t, by simpa using ht⟩, fun j hj n hn => h.before (j + 1) (by omega) n (by simpa using hn),
          fun n hn => h.nonempty n (by simp [hn])⟩

theorem chosen_loop (names : List (List Nat)) (name : List Nat) (k : Nat) (hk : names[k]? = some name)
    (rest : List Nat) (txt : List Nat) (i n : Nat) (hrest : name.drop i = rest) (hne : rest ≠ []) :
    (rest <+: txt → chooseLoop names ⟨some k, i⟩ n txt = some (⟨some k, name.length - 1⟩, n + rest.length)) ∧
    (¬ rest <+: txt → ∃ j m, chooseLoop names ⟨some k, i⟩ n txt = some (⟨none, j⟩, m)) := by
  induction txt generalizing rest i n with
  | nil =>
    have : ¬ rest <+: [] := by simpa using hne
    simp [chooseLoop, this]
  | cons c txt ih =>
    obtain ⟨x, rest', rfl⟩ : ∃ x r, rest = x :: r := by
      cases rest with
      | nil => exact absurd rfl hne
      | cons x r => exact ⟨x, r, rfl⟩
    have hx : name[i]? = some x := by
      have := congrArg List.head? hrest
      simpa [List.head?_drop] using this
    have hi : i < name.length := (List.getElem?_eq_some_iff.mp hx).1
    have hrest' : name.drop (i + 1) = rest' := by
      have := congrArg List.tail hrest
      simpa [List.tail_drop] using this
    have hlen : rest'.length = name.length - (i + 1) := by rw [← hrest']; simp
    have hrd : rd (name ++ [0]) i = some x := by
      rw [rd, List.getElem?_append_left hi]; exact hx
    by_cases hxc : x = c
    · subst hxc
      by_cases hlast : i + 1 = name.length
      · have hr' : rest' = [] := List.length_eq_zero_iff.mp (by omega)
        subst hr'
        have hp : process names ⟨some k, i⟩ x = some (⟨some k, i⟩, true) := by
          simp [process, hk, hrd, hlast]
        simp only [chooseLoop, hp]
        have : [x] <+: x :: txt := ⟨txt, rfl⟩
        simp; omega
      · have hr' : rest' ≠ [] := by
          intro h0; rw [h0] at hlen; simp at hlen; omega
        have hp : process names ⟨some k, i⟩ x = some (⟨some k, i + 1⟩, false) := by
          simp [process, hk, hrd, hlast]
        simp only [chooseLoop, hp]
        obtain ⟨e1, e2⟩ := ih rest' (i + 1) (n + 1) hrest' hr'
        have hiff : x :: rest' <+: x :: txt ↔ rest' <+: txt := by simp [List.cons_prefix_cons]
        rw [hiff]
        refine ⟨fun h => ?_, e2⟩
        rw [e1 h]; simp; omega
    · have hp : process names ⟨some k, i⟩ c = some (⟨none, i⟩, true) := by
        simp [process, hk, hrd, hxc]
      have hnp : ¬ (x :: rest' <+: c :: txt) := by simp [List.cons_prefix_cons, hxc]
      simp [chooseLoop, hp, hnp]

/-- C45, partial: if the input's first character begins some registered name, let `k` be the first such name
(of two or more characters): the chooser selects `k`, having consumed exactly that name, when the input
begins with it, and rejects the input otherwise.  Missing: names sharing a first letter (only the first is
considered, `choose_shared_prefix`), names of one character (`choose_one_letter`) and inputs whose first
character begins no name (`choose_skips_unmatched`). -/
theorem choose_partial (names : List (List Nat)) (c : Nat) (txt name : List Nat) (k : Nat)
    (hk : Spec.FirstWith names c k) (hname : names[k]? = some name) (h2 : 2 ≤ name.length) :
    (name <+: c :: txt → choose names (c :: txt) = some (some k, name.length)) ∧
    (¬ name <+: c :: txt → ∃ n, choose names (c :: txt) = some (none, n)) := by
  obtain ⟨t, ht⟩ := hk.isFirst
  rw [hname] at ht
  cases ht
  have hp : process names ⟨none, 0⟩ c = some (⟨some k, 1⟩, false) := by
    have := scan_spec names c k 0 hk
    simp [process, this]
  have hne : t ≠ [] := by intro h0; subst h0; simp at h2
  obtain ⟨e1, e2⟩ := chosen_loop names (c :: t) k hname t txt 1 1 rfl hne
  have hiff : c :: t <+: c :: txt ↔ t <+: txt := by simp [List.cons_prefix_cons]
  have hch : choose names (c :: txt) = (chooseLoop names ⟨some k, 1⟩ 1 txt).map fun r => (r.1.chosen, r.2) := by
    simp [choose, chooseLoop, hp]
  rw [hiff, hch]
  refine ⟨fun h => ?_, fun h => ?_⟩
  · rw [e1 h]; simp; omega
  · obtain ⟨j, m, e⟩ := e2 h
    exact ⟨m, by simp [e]⟩

/-- The classic `true`/`false` names meet the hypotheses. -/
example : Spec.FirstWith [[116, 114, 117, 101], [102, 97, 108, 115, 101]] 102 1 :=
  ⟨⟨_, rfl⟩, by intro j hj n hn; have : j = 0 := by omega
                subst this; simp at hn; subst hn; simp, by simp⟩

/-- Every name has a character at index 1, and name `k` is the first whose character there is `c`. -/
structure Spec.SecondWith (names : List (List Nat)) (c k : Nat) : Prop where
  isFirst : ∃ a t, names[k]? = some (a :: c :: t)
  before : ∀ j < k, ∀ n, names[j]? = some n → n[1]? ≠ some c
  long : ∀ n ∈ names, 2 ≤ n.length

theorem scan_second (names : List (List Nat)) (c k j : Nat) (h : Spec.SecondWith names c k) :
    scan names 1 c j = some (some (j + k)) := by
  induction names generalizing k j with
  | nil => obtain ⟨a, t, ht⟩ := h.isFirst; simp at ht
  | cons n names ih =>
    obtain ⟨w, x, n', rfl⟩ : ∃ w x n', n = w :: x :: n' := by
      have := h.long n (by simp)
      match n, this with
      | w :: x :: n', _ => exact ⟨w, x, n', rfl⟩
    unfold scan
    simp only [rd, List.cons_append, List.getElem?_cons_zero, List.getElem?_cons_succ]
    cases k with
    | zero =>
      obtain ⟨a, t, ht⟩ := h.isFirst
      simp at ht
      simp [ht.2.1]
    | succ k =>
      have hx : x ≠ c := by
        have := h.before 0 (by omega) (w :: x :: n') rfl
        simpa using this
      rw [if_neg hx, ih k (j + 1)]
      · congr 2; omega
      · obtain ⟨a, t, ht⟩ := h.isFirst
        exact ⟨⟨a, t, by simpa using ht⟩, fun j hj n hn => h.before (j + 1) (by omega) n (by simpa using hn),
          fun n hn => h.long n (by simp [hn])⟩

theorem scan_cons (n : List Nat) (names : List (List Nat)) (i c j : Nat) :
    scan (n :: names) i c j = match rd (n ++ [0]) i with
      | none => none
      | some x => if x = c then some (some j) else scan names i c (j + 1) := by
  rw [scan]

theorem scan_nowhere (names : List (List Nat)) (c i j : Nat) (hc : c ≠ 0) (h : ∀ n ∈ names, n[i]? ≠ some c)
    (hl : ∀ n ∈ names, i ≤ n.length) : scan names i c j = some none := by
  induction names generalizing j with
  | nil => unfold scan; rfl
  | cons n names ih =>
    rw [scan_cons]
    have hi := hl n (by simp)
    have h0 := h n (by simp)
    have hr : ∃ x, rd (n ++ [0]) i = some x ∧ x ≠ c := by
      by_cases hin : i < n.length
      · refine ⟨n[i], by rw [rd, List.getElem?_append_left hin]; simp [hin], fun e => h0 ?_⟩
        rw [← e]; simp [hin]
      · have : i = n.length := by omega
        subst this
        exact ⟨0, by simp [rd], fun e => hc e.symm⟩
    obtain ⟨x, hx, hxc⟩ := hr
    rw [hx]
    simp only
    rw [if_neg hxc]
    exact ih (j + 1) (fun n hn => h n (by simp [hn])) (fun n hn => hl n (by simp [hn]))

/-- C45 fails: **Violation.** a character that begins no name is skipped *and* advances the index, so any such character in
place of the first letter of a name selects it: `"xrue"` selects `true`. -/
theorem choose_skips_unmatched (names : List (List Nat)) (x c a : Nat) (t rest : List Nat) (k : Nat) (hx : x ≠ 0)
    (hno : ∀ n ∈ names, n.head? ≠ some x) (hk : Spec.SecondWith names c k) (hname : names[k]? = some (a :: c :: t))
    (ht : t ≠ []) : choose names (x :: c :: (t ++ rest)) = some (some k, t.length + 2) ∧ a ≠ x := by
  have h0 : scan names 0 x 0 = some none :=
    scan_nowhere names x 0 0 hx (fun n hn h => hno n hn (by rw [List.head?_eq_getElem?]; exact h)) (fun n _ => Nat.zero_le _)
  have h1 := scan_second names c k 0 hk
  have hp0 : process names ⟨none, 0⟩ x = some (⟨none, 1⟩, false) := by simp [process, h0]
  have hp1 : process names ⟨none, 1⟩ c = some (⟨some k, 2⟩, false) := by simp [process, h1]
  obtain ⟨e1, _⟩ := chosen_loop names (a :: c :: t) k hname t (t ++ rest) 2 2 rfl ht
  refine ⟨?_, ?_⟩
  · simp only [choose, chooseLoop, hp0, hp1, e1 (List.prefix_append t rest)]
    simp; omega
  · rintro rfl
    have hm : (a :: c :: t) ∈ names := List.mem_of_getElem? hname
    exact hno _ hm rfl

example : Spec.SecondWith [[116, 114, 117, 101], [102, 97, 108, 115, 101]] 114 0 :=
  ⟨⟨116, [117, 101], rfl⟩, by intro j hj; omega, by simp⟩
example : choose [[116, 114, 117, 101], [102, 97, 108, 115, 101]] [120, 114, 117, 101] = some (some 0, 4) := by
  decide +kernel

/-- C45 fails: **Violation.** of two names with the same first letter the later can never be selected by its own text. -/
theorem choose_shared_prefix (names : List (List Nat)) (c : Nat) (t t' : List Nat) (k : Nat)
    (hk : Spec.FirstWith names c k) (hname : names[k]? = some (c :: t)) (h2 : t ≠ []) (hother : c :: t' ∈ names)
    (hp : ¬ t <+: t') : ∃ n, choose names (c :: t') = some (none, n) := by
  have := hother
  refine (choose_partial names c t' (c :: t) k hk hname ?_).2 (by simpa [List.cons_prefix_cons] using hp)
  have := List.length_pos_iff.2 h2
  simp; omega

example : Spec.FirstWith [[97, 98], [97, 99]] 97 0 :=
  ⟨⟨_, rfl⟩, by intro j hj; omega, by simp⟩
example : choose [[97, 98], [97, 99]] [97, 99] = some (none, 2) := by decide +kernel

/-- C45 fails: **Violation.** a one-character name is never selected, whatever the input; and neither is any other name when the
input begins with its character. -/
theorem choose_one_letter (names : List (List Nat)) (c : Nat) (txt : List Nat) (k : Nat)
    (hk : Spec.FirstWith names c k) (hname : names[k]? = some [c]) :
    choose names (c :: txt) = none ∨ ∃ n, choose names (c :: txt) = some (none, n) := by
  have hp : process names ⟨none, 0⟩ c = some (⟨some k, 1⟩, false) := by
    have := scan_spec names c k 0 hk
    simp [process, this]
  cases txt with
  | nil => right; exact ⟨1, by simp [choose, chooseLoop, hp]⟩
  | cons d txt =>
    by_cases hd : d = 0
    · subst hd
      have hp1 : process names ⟨some k, 1⟩ 0 = some (⟨some k, 2⟩, false) := by simp [process, hname, rd]
      cases txt with
      | nil => right; exact ⟨2, by simp [choose, chooseLoop, hp, hp1]⟩
      | cons d' txt =>
        left
        have hp2 : process names ⟨some k, 2⟩ d' = none := by simp [process, hname, rd]
        simp [choose, chooseLoop, hp, hp1, hp2]
    · right
      have hp1 : process names ⟨some k, 1⟩ d = some (⟨none, 1⟩, true) := by
        simp [process, hname, rd]; exact fun h => hd h.symm
      exact ⟨2, by simp [choose, chooseLoop, hp, hp1]⟩

example : choose [[97]] [97] = some (none, 1) := by decide +kernel

/-- **Violation.** With enough characters that occur in no name the chooser reads beyond a name's terminator. -/
theorem choose_reads_past_end (names : List (List Nat)) (name txt : List Nat) (hm : name ∈ names)
    (hno : ∀ c ∈ txt, c ≠ 0 ∧ ∀ n ∈ names, c ∉ n) (hlen : name.length + 2 ≤ txt.length) : choose names txt = none := by
  have hscan : ∀ c i j, i = name.length + 1 → c ≠ 0 → (∀ n ∈ names, c ∉ n) → scan names i c j = none := by
    intro c i j hi hc hn
    clear hno hlen
    induction names generalizing j with
    | nil => cases hm
    | cons n names ih =>
      rw [scan_cons]
      rcases List.mem_cons.mp hm with rfl | hm'
      · simp [rd, hi]
      · cases hr : rd (n ++ [0]) i with
        | none => rfl
        | some x =>
          have hx : x ≠ c := by
            rintro rfl
            have := List.mem_of_getElem? hr
            rcases List.mem_append.mp this with h | h
            · exact hn n (by simp) h
            · simp at h; exact hc h
          simp only
          rw [if_neg hx]
          exact ih hm' (j + 1) (fun n h => hn n (by simp [h]))
  have hany : ∀ c i j, c ≠ 0 → (∀ n ∈ names, c ∉ n) → scan names i c j = none ∨ scan names i c j = some none := by
    intro c i j hc hn
    clear hm hno hlen hscan
    induction names generalizing j with
    | nil => right; unfold scan; rfl
    | cons n names ih =>
      rw [scan_cons]
      cases hr : rd (n ++ [0]) i with
      | none => exact Or.inl rfl
      | some x =>
        have hx : x ≠ c := by
          rintro rfl
          have := List.mem_of_getElem? hr
          rcases List.mem_append.mp this with h | h
          · exact hn n (by simp) h
          · simp at h; exact hc h
        simp only
        rw [if_neg hx]
        exact ih (j + 1) (fun n h => hn n (by simp [h]))
  have key : ∀ (txt : List Nat) (i n : Nat), (∀ c ∈ txt, c ≠ 0 ∧ ∀ n ∈ names, c ∉ n) → i ≤ name.length + 1 →
      name.length + 2 ≤ i + txt.length → chooseLoop names ⟨none, i⟩ n txt = none := by
    intro txt
    induction txt with
    | nil => intro i n _ h1 h2; simp at h2; omega
    | cons c txt ih =>
      intro i n hc h1 h2
      obtain ⟨hc0, hcn⟩ := hc c (by simp)
      rcases hany c i 0 hc0 hcn with h | h
      · simp [chooseLoop, process, h]
      · have hi : i ≠ name.length + 1 := by
          intro hi
          rw [hscan c i 0 hi hc0 hcn] at h
          cases h
        have hp : process names ⟨none, i⟩ c = some (⟨none, i + 1⟩, false) := by simp [process, h]
        simp only [chooseLoop, hp]
        exact ih (i + 1) (n + 1) (fun x hx => hc x (by simp [hx])) (by omega) (by simp at h2; omega)
  unfold choose
  rw [key txt 0 0 hno (by omega) (by omega)]
  rfl

example : choose [[97, 98]] [120, 120, 120, 120] = none := by decide +kernel

end Verif.Chooser
