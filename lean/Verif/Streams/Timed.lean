import Verif.Common.Mem

/-!
# Writing with a time limit (C112)

Modelled from `src/estd/internal/ostream.h:30-86, 162-167` and `src/estd/internal/ios.h:25-40`, with
`FEATURE_ESTD_OSTREAM_TIMEOUT` (off by default) and a policy that has the tag, over a device that takes as much as it
happens to have room for.

The device and the clock are the environment: for every attempt, how much the device would take and how long the attempt
lasts.  All theorems are for all environments.
-/
namespace Verif.Streams.Timed
open Verif

/-- one attempt: the device has room for `room` characters, and `lasts` milliseconds go by besides the sleep -/
structure Attempt where
  room : Nat
  lasts : Nat
  deriving DecidableEq, Repr

/-- `timeout_in_ms()` and `sleep_in_ms()`, ios.h:37, 39 -/
structure Policy where
  timeout : Nat
  sleep : Nat
  deriving DecidableEq, Repr

/-- `ios_policy`, ios.h:25-40 -/
def iosPolicy : Policy := ⟨1000, 1000⟩

/-- what the device received, in order; when `write` has returned, or that it is still trying when the environment ends;
the error state of the stream -/
structure Result where
  out : List Nat
  returned : Bool
  elapsed : Nat
  failbit : Bool
  deriving DecidableEq, Repr

/-- the characters from address `s` on, as `sputn(s, k)` reads them; `none` where there is no memory -/
def fetch (mem : List Nat) (s : Nat) : Nat → Option (List Nat)
  | 0 => some []
  | k + 1 => (rd mem s).bind fun c => (fetch mem (s + 1) k).map (c :: ·)

/-- the sleep between two attempts, ostream.h:54-61 -/
def pause (pol : Policy) (remaining : Int) : Nat := if remaining > 0 ∧ pol.sleep > 0 then pol.sleep else 0

/-- the loop, ostream.h:47-74.  `n` is the length passed to `write`: every `sputn` gets it (line 49), although `s` has
moved on.  `streamsize` is signed. -/
def loop (mem : List Nat) (pol : Policy) (n : Nat) : Nat → Int → Nat → List Nat → List Attempt → Option Result
  | _, _, elapsed, out, [] => some ⟨out, false, elapsed, false⟩
  | s, remaining, elapsed, out, a :: env =>
    let written := min a.room n
    (fetch mem s written).bind fun cs =>
      let remaining := remaining - written
      let elapsed := elapsed + a.lasts + pause pol remaining
      if remaining > 0 ∧ elapsed < pol.timeout then loop mem pol n (s + written) remaining elapsed (out ++ cs) env
      else some ⟨out ++ cs, true, elapsed, false⟩

/-- `write(s, n)` with the time limit, ostream.h:35-75, 162-167 -/
def write (mem : List Nat) (pol : Policy) (s n : Nat) (env : List Attempt) : Option Result :=
  loop mem pol n s n 0 [] env

/-- `write(s, n)` without it, ostream.h:80-86: one attempt -/
def writePlain (mem : List Nat) (s n : Nat) (a : Attempt) : Option Result :=
  let written := min a.room n
  (fetch mem s written).map fun cs => ⟨cs, true, a.lasts, decide (written ≠ n)⟩

/-! ## Specification -/

/-- the text at an address -/
def Spec.textAt (mem : List Nat) (s : Nat) (text : List Nat) : Prop := ∃ pre post, mem = pre ++ text ++ post ∧ pre.length = s

/-- what is left after the first `done` characters never fits the device with room to spare: no attempt has room for more
than is left then -/
def Spec.modest (left : Nat) : List Attempt → Prop
  | [] => True
  | a :: env => a.room ≤ left ∧ Spec.modest (left - a.room) env

/-- the room of the first attempts -/
def Spec.taken (env : List Attempt) : Nat := (env.map Attempt.room).sum

/-! ## Proofs -/

theorem textAt_append {mem : List Nat} {s : Nat} {as bs : List Nat} (h : Spec.textAt mem s (as ++ bs)) :
    Spec.textAt mem s as ∧ Spec.textAt mem (s + as.length) bs := by
  obtain ⟨pre, post, rfl, rfl⟩ := h
  exact ⟨⟨pre, bs ++ post, by simp, rfl⟩, ⟨pre ++ as, post, by simp, by simp⟩⟩

theorem fetch_textAt {mem : List Nat} {text : List Nat} : ∀ {s : Nat}, Spec.textAt mem s text →
    fetch mem s text.length = some text := by
  induction text with
  | nil => intro s _; rfl
  | cons c text ih =>
    intro s h
    obtain ⟨pre, post, rfl, rfl⟩ := h
    have h2 : Spec.textAt (pre ++ (c :: text) ++ post) (pre.length + 1) text := ⟨pre ++ [c], post, by simp, by simp⟩
    have h1 : rd (pre ++ (c :: text) ++ post) pre.length = some c := by simp [rd]
    simp only [fetch, List.length_cons, h1, Option.bind_some, ih h2, Option.map_some]

theorem fetch_prefix {mem : List Nat} {s k : Nat} {text : List Nat} (h : Spec.textAt mem s text) (hk : k ≤ text.length) :
    fetch mem s k = some (text.take k) ∧ Spec.textAt mem (s + k) (text.drop k) := by
  rw [show text = text.take k ++ text.drop k from (List.take_append_drop _ _).symm] at h
  obtain ⟨h1, h2⟩ := textAt_append h
  have hl : (text.take k).length = k := by rw [List.length_take]; omega
  rw [hl] at h2
  have := fetch_textAt h1
  rw [hl] at this
  exact ⟨this, h2⟩

theorem fetch_none {mem : List Nat} : ∀ {k s : Nat}, mem.length < s + k → 0 < k → fetch mem s k = none := by
  intro k
  induction k with
  | zero => intro s _ h; omega
  | succ k ih =>
    intro s h _
    simp only [fetch]
    cases hr : rd mem s with
    | none => rfl
    | some b =>
      have hp : s < mem.length := (List.getElem?_eq_some_iff.mp hr).1
      simp [ih (s := s + 1) (by omega) (by omega)]

theorem pause_le (pol : Policy) (rem : Int) : pause pol rem ≤ pol.sleep := by unfold pause; split <;> omega

theorem pause_eq {pol : Policy} {rem : Int} (h : rem > 0) : pause pol rem = pol.sleep := by unfold pause; split <;> omega

theorem pause_done {pol : Policy} {rem : Int} (h : rem ≤ 0) : pause pol rem = 0 := by unfold pause; split <;> omega

theorem loop_modest {mem : List Nat} {pol : Policy} {n : Nat} : ∀ (env : List Attempt) {s elapsed : Nat}
    {out text : List Nat}, Spec.textAt mem s text → text.length ≤ n → Spec.modest text.length env →
    ∃ r k, loop mem pol n s text.length elapsed out env = some r ∧ r.out = out ++ text.take k ∧ r.failbit = false ∧
      elapsed ≤ r.elapsed ∧
      (r.returned = true → text.length ≤ k ∨ pol.timeout ≤ r.elapsed) ∧
      (r.returned = false → k = Spec.taken env) := by
  intro env
  induction env with
  | nil =>
    intro s elapsed out text _ _ _
    exact ⟨_, 0, rfl, by simp, rfl, Nat.le_refl _, by simp, by simp [Spec.taken]⟩
  | cons a env ih =>
    intro s elapsed out text ht hn hm
    obtain ⟨hroom, hm'⟩ := hm
    have hw : min a.room n = a.room := by omega
    obtain ⟨hf, hrest⟩ := fetch_prefix ht hroom
    have hlen : (text.drop a.room).length = text.length - a.room := List.length_drop
    have hcast : ((text.length : Int) - (a.room : Nat)) = ((text.drop a.room).length : Int) := by omega
    simp only [loop, hw, hf, Option.bind_some, hcast]
    split
    · rename_i hgo
      obtain ⟨r, k, e1, e2, e3, e4, e5, e6⟩ := ih (s := s + a.room)
        (elapsed := elapsed + a.lasts + pause pol (text.drop a.room).length)
        (out := out ++ text.take a.room) hrest (by omega) (by rw [hlen]; exact hm')
      refine ⟨r, a.room + k, e1, ?_, e3, by omega, fun h => ?_, fun h => ?_⟩
      · rw [e2, List.append_assoc, List.take_add]
      · rcases e5 h with h | h
        · left; omega
        · exact .inr h
      · rw [e6 h]; simp [Spec.taken]
    · rename_i hstop
      refine ⟨_, a.room, rfl, rfl, rfl, ?_, fun _ => ?_, by simp⟩
      · show elapsed ≤ elapsed + a.lasts + _
        omega
      · by_cases h0 : ((text.drop a.room).length : Int) > 0
        · right
          show pol.timeout ≤ elapsed + a.lasts + _
          have := fun h => hstop ⟨h0, h⟩
          omega
        · left; omega

/-- **A device that never has room for more than is left** receives a beginning of the text, in order and each character
once; `write` returns early only with all of it delivered, and when it is still trying the device has received all it had
room for.  Missing: devices with room to spare (`overrun`), and telling that the time is up (`timeout_silent`). -/
theorem timed_write_partial (mem : List Nat) (pol : Policy) (s : Nat) (text : List Nat) (env : List Attempt)
    (ht : Spec.textAt mem s text) (hm : Spec.modest text.length env) :
    ∃ r k, write mem pol s text.length env = some r ∧ r.out = text.take k ∧
      (r.returned = true → r.out = text ∨ pol.timeout ≤ r.elapsed) ∧
      (r.returned = false → k = Spec.taken env) := by
  obtain ⟨r, k, e1, e2, _, _, e5, e6⟩ := loop_modest (pol := pol) (n := text.length) env (elapsed := 0) (out := [])
    ht (Nat.le_refl _) hm
  refine ⟨r, k, e1, by simpa using e2, fun h => ?_, e6⟩
  rcases e5 h with h | h
  · left; rw [e2, List.nil_append, List.take_of_length_le h]
  · exact .inr h

/-- Meets the hypotheses: five characters, taken two, none, and three at a time. -/
example : Spec.modest 5 [⟨2, 1⟩, ⟨0, 1⟩, ⟨3, 1⟩] ∧
    write [9, 1, 2, 3, 4, 5, 9] ⟨100, 10⟩ 1 5 [⟨2, 1⟩, ⟨0, 1⟩, ⟨3, 1⟩] = some ⟨[1, 2, 3, 4, 5], true, 23, false⟩ :=
  ⟨by simp [Spec.modest], by decide⟩

/-- **A device that takes everything at once** gets exactly the text, whatever the limit, and even a limit of zero allows
one attempt. -/
theorem one_attempt (mem : List Nat) (pol : Policy) (s : Nat) (text : List Nat) (a : Attempt) (env : List Attempt)
    (ht : Spec.textAt mem s text) (ha : text.length ≤ a.room) :
    write mem pol s text.length (a :: env) = some ⟨text, true, a.lasts, false⟩ := by
  have hw : min a.room text.length = text.length := by omega
  simp [write, loop, hw, fetch_textAt ht, pause_done]

/-- Meets the hypotheses, with a limit of zero. -/
example : write [9, 1, 2, 3, 9] ⟨0, 5⟩ 1 3 [⟨7, 4⟩] = some ⟨[1, 2, 3], true, 4, false⟩ := by decide

theorem loop_out_none_or (mem : List Nat) (pol : Policy) (n : Nat) (hs : 0 < pol.sleep) : ∀ (env : List Attempt)
    (s : Nat) (rem : Int) (elapsed : Nat) (out : List Nat) (r : Result),
    loop mem pol n s rem elapsed out env = some r → pol.timeout ≤ elapsed + env.length * pol.sleep → env ≠ [] →
    r.returned = true := by
  intro env
  induction env with
  | nil => intro s rem el out r _ _ h; exact absurd rfl h
  | cons a env ih =>
    intro s rem el out r h hlen _
    simp only [loop] at h
    cases hf : fetch mem s (min a.room n) with
    | none => rw [hf] at h; cases h
    | some cs =>
      rw [hf] at h
      simp only [Option.bind_some] at h
      split at h
      · rename_i hgo
        rw [pause_eq hgo.1] at h hgo
        refine ih _ _ _ _ _ h ?_ ?_
        · rw [List.length_cons, Nat.add_mul] at hlen; omega
        · intro he
          subst he
          simp at hlen
          omega
      · cases h; rfl

/-- **`write` returns** when the time is up: with a pause between the attempts, after no more attempts than pauses fit in
the limit, whatever the device does. -/
theorem write_returns (mem : List Nat) (pol : Policy) (s n : Nat) (env : List Attempt) (r : Result) (hs : 0 < pol.sleep)
    (h : write mem pol s n env = some r) (hlen : pol.timeout ≤ env.length * pol.sleep) (h0 : env ≠ []) :
    r.returned = true :=
  loop_out_none_or mem pol n hs env s n 0 [] r h (by omega) h0

/-- Meets the hypotheses: a device that never has room; the limit of 25 allows three pauses of 10. -/
example : write [1, 2] ⟨25, 10⟩ 0 2 [⟨0, 0⟩, ⟨0, 0⟩, ⟨0, 0⟩] = some ⟨[], true, 30, false⟩ ∧ 25 ≤ 3 * 10 := by decide

/-- **Violation.**  Without a pause nothing bounds the attempts but the clock: while it stands still, a `write` to a device
with no room never returns. -/
theorem no_pause_spins (mem : List Nat) (t s n k : Nat) (hn : 0 < n) (ht : 0 < t) :
    write mem ⟨t, 0⟩ s n (List.replicate k ⟨0, 0⟩) = some ⟨[], false, 0, false⟩ := by
  unfold write
  induction k with
  | zero => rfl
  | succ k ih =>
    have hp : pause ⟨t, 0⟩ (n : Int) = 0 := Nat.le_zero.mp (pause_le ⟨t, 0⟩ n)
    simpa [List.replicate_succ, loop, fetch, hn, ht, hp] using ih

/-- **Violation.**  When the device has room for more than is left, `write` sends what follows the text in memory as well:
here after a first part of `j` characters. -/
theorem overrun (mem : List Nat) (pol : Policy) (s : Nat) (text more : List Nat) (j : Nat) (a b : Attempt)
    (env : List Attempt) (ht : Spec.textAt mem s (text ++ more)) (hj : a.room = j) (h0 : 0 < j) (hjn : j < text.length)
    (hb : text.length - j < b.room) (hm : j ≤ more.length) (hgo : a.lasts + pol.sleep < pol.timeout) :
    ∃ r extra, write mem pol s text.length (a :: b :: env) = some r ∧ r.out = text ++ extra ∧ extra ≠ [] ∧
      extra <+: more ∧ extra.length = min b.room text.length - (text.length - j) := by
  have hw : min a.room text.length = j := by omega
  obtain ⟨f1, h1⟩ := fetch_prefix ht (k := j) (by simp; omega)
  obtain ⟨f2, _⟩ := fetch_prefix h1 (k := min b.room text.length) (by simp; omega)
  have hp := pause_le pol ((text.length : Int) - (j : Nat))
  have hrun : ∃ t, write mem pol s text.length (a :: b :: env) =
      some ⟨(text ++ more).take j ++ ((text ++ more).drop j).take (min b.room text.length), true, t, false⟩ := by
    simp only [write, loop, hw, f1, f2, Option.bind_some, List.nil_append]
    rw [if_pos ⟨by omega, by omega⟩, if_neg (by omega)]
    exact ⟨_, rfl⟩
  obtain ⟨t, hrun⟩ := hrun
  refine ⟨_, more.take (min b.room text.length - (text.length - j)), hrun, ?_, ?_, List.take_prefix _ _, ?_⟩
  · show (text ++ more).take j ++ ((text ++ more).drop j).take (min b.room text.length) = _
    rw [List.drop_append_of_le_length (by omega), List.take_append_of_le_length (by omega), List.take_append,
      List.length_drop, List.take_of_length_le (i := min b.room text.length) (by rw [List.length_drop]; omega),
      ← List.append_assoc, List.take_append_drop]
  · intro he
    have := congrArg List.length he
    simp only [List.length_take, List.length_nil] at this
    omega
  · rw [List.length_take]; omega

/-- **Violation.**  … and where memory ends, that is undefined. -/
theorem overrun_undefined (mem : List Nat) (pol : Policy) (s : Nat) (text : List Nat) (j : Nat) (a b : Attempt)
    (env : List Attempt) (ht : Spec.textAt mem s text) (hj : a.room = j) (hjn : j < text.length)
    (hb : mem.length < s + j + min b.room text.length) (hb0 : 0 < b.room)
    (hgo : a.lasts + pol.sleep < pol.timeout) :
    write mem pol s text.length (a :: b :: env) = none := by
  have hw : min a.room text.length = j := by omega
  obtain ⟨f1, _⟩ := fetch_prefix ht (k := j) (by omega)
  have f2 := fetch_none (mem := mem) (s := s + j) (k := min b.room text.length) hb (by omega)
  have hp := pause_le pol ((text.length : Int) - (j : Nat))
  simp only [write, loop, hw, f1, f2, Option.bind_some, Option.bind_none]
  rw [if_pos ⟨by omega, by omega⟩]

/-- Meets the hypotheses: "abc" followed by "XY": one character, then room for all: "abcX". -/
example : write [97, 98, 99, 88, 89] ⟨100, 10⟩ 0 3 [⟨1, 0⟩, ⟨9, 0⟩] = some ⟨[97, 98, 99, 88], true, 10, false⟩ ∧
    write [97, 98, 99] ⟨100, 10⟩ 0 3 [⟨1, 0⟩, ⟨9, 0⟩] = none := by decide

theorem loop_failbit (mem : List Nat) (pol : Policy) (n : Nat) : ∀ (env : List Attempt) (s : Nat) (rem : Int)
    (elapsed : Nat) (out : List Nat) (r : Result), loop mem pol n s rem elapsed out env = some r → r.failbit = false := by
  intro env
  induction env with
  | nil => intro s rem el out r h; cases h; rfl
  | cons a env ih =>
    intro s rem el out r h
    simp only [loop] at h
    cases hf : fetch mem s (min a.room n) with
    | none => rw [hf] at h; cases h
    | some cs =>
      rw [hf] at h
      simp only [Option.bind_some] at h
      split at h
      · exact ih _ _ _ _ _ h
      · cases h; rfl

/-- **Violation.**  That the time was up is not told: whatever was lost, `write` leaves the stream without an error. -/
theorem timeout_silent (mem : List Nat) (pol : Policy) (s n : Nat) (env : List Attempt) (r : Result)
    (h : write mem pol s n env = some r) : r.failbit = false :=
  loop_failbit mem pol n env s n 0 [] r h

/-- … while without the time limit `write` tells exactly when something was lost. -/
theorem plain_write (mem : List Nat) (s : Nat) (text : List Nat) (a : Attempt) (ht : Spec.textAt mem s text) :
    ∃ r, writePlain mem s text.length a = some r ∧ r.out = text.take a.room ∧ (r.failbit = true ↔ r.out ≠ text) := by
  obtain ⟨f, _⟩ := fetch_prefix ht (k := min a.room text.length) (by omega)
  have e : text.take (min a.room text.length) = text.take a.room := by rw [List.take_eq_take_iff]; omega
  refine ⟨⟨text.take (min a.room text.length), true, a.lasts, decide (min a.room text.length ≠ text.length)⟩,
    by simp only [writePlain, f, Option.map_some], e, ?_⟩
  simp only [decide_eq_true_eq, e]
  constructor
  · intro h he
    have := congrArg List.length he
    rw [List.length_take] at this
    exact h this
  · intro h he
    exact h (List.take_of_length_le (by omega))

/-- Meets the hypotheses. -/
example : writePlain [9, 1, 2, 3] 1 3 ⟨2, 0⟩ = some ⟨[1, 2], true, 0, true⟩ ∧
    writePlain [9, 1, 2, 3] 1 3 ⟨5, 0⟩ = some ⟨[1, 2, 3], true, 0, false⟩ := by decide

/-- **Violation.**  With the settings that `ios_policy` has, there is no second attempt at all: the pause is as long as
the limit. -/
theorem default_never_retries (mem : List Nat) (s : Nat) (text : List Nat) (a : Attempt) (env : List Attempt)
    (ht : Spec.textAt mem s text) :
    ∃ t, write mem iosPolicy s text.length (a :: env) = some ⟨text.take a.room, true, t, false⟩ := by
  obtain ⟨f, _⟩ := fetch_prefix ht (k := min a.room text.length) (by omega)
  have e : text.take (min a.room text.length) = text.take a.room := by rw [List.take_eq_take_iff]; omega
  have hstop : ¬ (((text.length : Int) - (min a.room text.length : Nat)) > 0 ∧
      0 + a.lasts + pause iosPolicy ((text.length : Int) - (min a.room text.length : Nat)) < iosPolicy.timeout) := by
    intro ⟨h1, h2⟩
    rw [pause_eq h1] at h2
    simp only [iosPolicy] at h2
    omega
  refine ⟨0 + a.lasts + pause iosPolicy ((text.length : Int) - (min a.room text.length : Nat)), ?_⟩
  simp only [write, loop, f, Option.bind_some, List.nil_append]
  rw [if_neg hstop, e]

/-- Meets the hypotheses: three of five characters are lost without a sign. -/
example : write [1, 2, 3, 4, 5] iosPolicy 0 5 [⟨2, 0⟩, ⟨5, 0⟩] = some ⟨[1, 2], true, 1000, false⟩ := by decide

end Verif.Streams.Timed
