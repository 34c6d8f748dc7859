import Mathlib.Data.List.Induction
/-!
# C100: log lines on a host

Off the target, `ESP_LOGE`, `ESP_LOGW`, … are written by `esp_log_write`, piece by piece, through a
`vprintf`-like function that `esp_log_set_vprintf` exchanges.  Texts are lists of character codes.  Undefined
behaviour is `none`.
-/
namespace Verif.Log

/-! ## The model -/

/-- The C library's `vprintf` (utility.cpp:22, the functions in esp_log.h:33), as far as it is used: `%%` writes a
percent sign, `%c` for another character `c` takes the next argument and writes it as `conv` says (`none` if `c` is no
conversion for it); taking an argument that is not there is undefined.  Simplified: flags, widths and conversions of
more than one character are not modelled. -/
def vprintf {α : Type} (conv : Nat → α → Option (List Nat)) : List Nat → List α → Option (List Nat)
  | [], _ => some []
  | [c], _ => if c = 37 then none else some [c]
  | c :: d :: t, args =>
    if c = 37 then
      if d = 37 then (vprintf conv t args).map (37 :: ·)
      else match args with
        | [] => none
        | a :: as => match conv d a with
          | none => none
          | some x => (vprintf conv t as).map (x ++ ·)
    else (vprintf conv (d :: t) args).map (c :: ·)

/-- `esp_log_level_t`, port/esp-idf/fake/esp_log.h:13-21 -/
inductive Level where | none | error | warn | info | debug | verbose
deriving DecidableEq, Repr

/-- the number of a level, port/esp-idf/fake/esp_log.h:13-21 -/
def Level.num : Level → Nat
  | .none => 0 | .error => 1 | .warn => 2 | .info => 3 | .debug => 4 | .verbose => 5

/-- the variable `esp_log_writer` (internal/utility.cpp:22; 0 stands for `vprintf`), and what has been written through
each function -/
structure St where
  writer : Nat
  out : Nat → List Nat

/-- at the start, internal/utility.cpp:22 -/
def St.init : St := ⟨0, fun _ => []⟩

/-- one call `esp_log_writer(format, args)`, e.g. internal/utility.cpp:41: every installed function formats as
`vprintf` does and adds to its own output -/
def put {α : Type} (conv : Nat → α → Option (List Nat)) (s : St) (fmt : List Nat) (args : List α) : Option St :=
  (vprintf conv fmt args).map fun x => { s with out := fun w => if w = s.writer then s.out w ++ x else s.out w }

/-- `esp_log_set_vprintf(func)`, internal/utility.cpp:25-31: the state and the function returned -/
def setVprintf (s : St) (func : Nat) : St × Nat := ({ s with writer := func }, s.writer)

/-- the `switch` of `esp_log_write_header`, internal/utility.cpp:39-47 -/
def letter : Level → List Nat
  | .error => [69, 32] | .warn => [87, 32] | .info => [73, 32] | .debug => [68, 32] | .verbose => [86, 32] | .none => []

/-- `esp_log_write_header`, internal/utility.cpp:35-51: the tag is passed as a format, with an empty list of
arguments -/
def header {α : Type} (conv : Nat → α → Option (List Nat)) (s : St) (level : Level) (tag : List Nat) : Option St :=
  let s1 := if letter level = [] then some s else put conv s (letter level) []
  s1.bind fun s1 => (put conv s1 tag []).bind fun s2 => put conv s2 [58, 32] []

/-- `LOG_LOCAL_LEVEL`, port/esp-idf/fake/esp_log.h:23 -/
def localLevel : Nat := Level.num .info

/-- `esp_log_write(level, tag, format, …)`, internal/utility.cpp:53-66 -/
def write {α : Type} (conv : Nat → α → Option (List Nat)) (s : St) (level : Level) (tag fmt : List Nat) (args : List α) : Option St :=
  if level.num ≤ localLevel then
    (header conv s level tag).bind fun s1 => (put conv s1 fmt args).bind fun s2 => put conv s2 [10] []
  else some s

/-- what a program does with the log -/
inductive Op (α : Type) where
  | set (func : Nat)
  | log (level : Level) (tag fmt : List Nat) (args : List α)

/-- one step; a `set` also returns the function that was installed (internal/utility.cpp:25-31, 53-66) -/
def step {α : Type} (conv : Nat → α → Option (List Nat)) (s : St) : Op α → Option (St × List Nat)
  | .set f => let (s', p) := setVprintf s f; some (s', [p])
  | .log l t f a => (write conv s l t f a).map fun s' => (s', [])

/-- a history: the final state and the functions the `set`s returned (internal/utility.cpp:25-31, 53-66) -/
def run {α : Type} (conv : Nat → α → Option (List Nat)) (s : St) : List (Op α) → Option (St × List Nat)
  | [] => some (s, [])
  | op :: ops =>
    match step conv s op with
    | none => none
    | some (s', r) => (run conv s' ops).map fun (s'', rs) => (s'', r ++ rs)

/-! ## Specification -/

/-- the letter a line begins with -/
def Spec.letter : Level → List Nat
  | .error => [69] | .warn => [87] | .info => [73] | .debug => [68] | .verbose => [86] | .none => []

/-- errors, warnings and information are shown, debugging output is not -/
def Spec.Shown (l : Level) : Prop := l ≠ .debug ∧ l ≠ .verbose

instance (l : Level) : Decidable (Spec.Shown l) := inferInstanceAs (Decidable (_ ∧ _))

/-- `E tag: message` and a new line -/
def Spec.line (l : Level) (tag msg : List Nat) : List Nat :=
  (if Spec.letter l = [] then [] else Spec.letter l ++ [32]) ++ tag ++ [58, 32] ++ msg ++ [10]

/-- the function installed after some operations: the last one set, or `vprintf` -/
def Spec.current {α : Type} (ops : List (Op α)) : Nat :=
  ((ops.filterMap fun | .set f => some f | .log .. => none).getLast?).getD 0

/-- what operation `i` writes through function `w` -/
def Spec.shows {α : Type} (conv : Nat → α → Option (List Nat)) (ops : List (Op α)) (w i : Nat) : List Nat :=
  match ops[i]? with
  | some (.log l tag fmt args) =>
    if Spec.Shown l ∧ Spec.current (ops.take i) = w then Spec.line l tag ((vprintf conv fmt args).getD []) else []
  | _ => []

/-- what operation `i` returns: an exchange, the function installed before it -/
def Spec.returned {α : Type} (ops : List (Op α)) (i : Nat) : Option Nat :=
  match ops[i]? with
  | some (.set _) => some (Spec.current (ops.take i))
  | _ => none

/-- Every tag is free of percent signs, and every message has the arguments its format asks for. -/
def Spec.Legal {α : Type} (conv : Nat → α → Option (List Nat)) (ops : List (Op α)) : Prop :=
  ∀ l tag fmt args, Op.log l tag fmt args ∈ ops → 37 ∉ tag ∧ (vprintf conv fmt args).isSome

/-! ## Lemmas -/

variable {α : Type} (conv : Nat → α → Option (List Nat))

theorem vprintf_cons (c : Nat) (t : List Nat) (args : List α) (hc : c ≠ 37) :
    vprintf conv (c :: t) args = (vprintf conv t args).map (c :: ·) := by
  cases t with
  | nil => simp [vprintf, hc]
  | cons d t => rw [vprintf.eq_def]; simp [hc]

theorem vprintf_plain (fmt : List Nat) (args : List α) (h : 37 ∉ fmt) : vprintf conv fmt args = some fmt := by
  induction fmt with
  | nil => rfl
  | cons c t ih =>
    rw [vprintf_cons conv c t args (fun e => h (by simp [e])), ih (fun e => h (by simp [e]))]
    rfl

theorem put_some (s : St) (fmt : List Nat) (args : List α) (x : List Nat) (h : vprintf conv fmt args = some x) :
    put conv s fmt args = some { s with out := fun w => if w = s.writer then s.out w ++ x else s.out w } := by
  rw [put, h]; rfl

theorem letter_eq (l : Level) : letter l = if Spec.letter l = [] then [] else Spec.letter l ++ [32] := by cases l <;> rfl

theorem shown_iff (l : Level) : Spec.Shown l ↔ l.num ≤ localLevel := by cases l <;> decide

theorem write_spec (s : St) (l : Level) (tag fmt : List Nat) (args : List α) (msg : List Nat) (ht : 37 ∉ tag)
    (hm : vprintf conv fmt args = some msg) :
    write conv s l tag fmt args = some ⟨s.writer, fun w => s.out w ++ if Spec.Shown l ∧ s.writer = w then Spec.line l tag msg else []⟩ := by
  by_cases hs : Spec.Shown l
  · rw [write, if_pos ((shown_iff l).1 hs)]
    have h1 : (if letter l = [] then some s else put conv s (letter l) []) =
        some ⟨s.writer, fun w => if w = s.writer then s.out w ++ letter l else s.out w⟩ := by
      by_cases hl : letter l = []
      · rw [if_pos hl, hl]
        simp
      · rw [if_neg hl, put_some conv s _ [] (letter l) (vprintf_plain conv _ _ (by cases l <;> simp [letter]))]
    rw [header, h1]
    simp only [Option.bind_some]
    rw [put_some conv _ tag [] tag (vprintf_plain conv _ _ ht)]
    simp only [Option.bind_some]
    rw [put_some conv _ [58, 32] [] [58, 32] (vprintf_plain conv _ _ (by simp))]
    simp only [Option.bind_some]
    rw [put_some conv _ fmt args msg hm]
    simp only [Option.bind_some]
    rw [put_some conv _ [10] [] [10] (vprintf_plain conv _ _ (by simp))]
    congr 2
    funext w
    by_cases hw : w = s.writer
    · subst hw
      simp only [if_true, hs, true_and, Spec.line, letter_eq, List.append_assoc]
    · have : ¬ (Spec.Shown l ∧ s.writer = w) := fun h => hw h.2.symm
      simp [hw, this]
  · rw [write, if_neg (fun h => hs ((shown_iff l).2 h))]
    simp [hs]

theorem current_append_set (ops : List (Op α)) (f : Nat) : Spec.current (ops ++ [.set f]) = f := by
  simp [Spec.current, List.filterMap_append]

theorem current_append_log (ops : List (Op α)) (l t f a) : Spec.current (ops ++ [Op.log l t f a]) = Spec.current ops := by
  simp [Spec.current, List.filterMap_append]

theorem run_append (s : St) (ops : List (Op α)) (op : Op α) (s' : St) (rs : List Nat) (h : run conv s ops = some (s', rs)) :
    run conv s (ops ++ [op]) = (step conv s' op).map fun (s'', r) => (s'', rs ++ r) := by
  induction ops generalizing s rs with
  | nil =>
    simp only [run, Option.some.injEq, Prod.mk.injEq] at h
    obtain ⟨rfl, rfl⟩ := h
    simp only [List.nil_append, run]
    cases step conv s op with
    | none => rfl
    | some p => obtain ⟨a, b⟩ := p; simp
  | cons o ops ih =>
    simp only [List.cons_append, run] at h ⊢
    cases ho : step conv s o with
    | none => rw [ho] at h; simp at h
    | some p =>
      obtain ⟨s1, r1⟩ := p
      rw [ho] at h
      simp only [Option.map_eq_some_iff] at h
      obtain ⟨⟨s2, rs2⟩, h1, h2⟩ := h
      simp only [Prod.mk.injEq] at h2
      obtain ⟨rfl, rfl⟩ := h2
      simp only [ih s1 rs2 h1]
      cases step conv s2 op with
      | none => rfl
      | some q => obtain ⟨a, b⟩ := q; simp

theorem shows_append (ops : List (Op α)) (op : Op α) (w i : Nat) (hi : i < ops.length) :
    Spec.shows conv (ops ++ [op]) w i = Spec.shows conv ops w i := by
  unfold Spec.shows
  rw [List.getElem?_append_left hi, List.take_append_of_le_length (by omega)]

theorem flatMap_same {β γ : Type} {l : List β} {f g : β → List γ} (h : ∀ x ∈ l, f x = g x) : l.flatMap f = l.flatMap g := by
  rw [List.flatMap_def, List.flatMap_def, List.map_congr_left h]

theorem filterMap_same {β γ : Type} {l : List β} {f g : β → Option γ} (h : ∀ x ∈ l, f x = g x) : l.filterMap f = l.filterMap g := by
  induction l with
  | nil => rfl
  | cons a l ih =>
    rw [List.filterMap_cons, List.filterMap_cons, h a (by simp), ih (fun x hx => h x (by simp [hx]))]

/-! ## The properties -/

/-- C100: after any history without percent signs in tags, each function has been given exactly the lines logged
while it was the one installed, whole and in order, `E tag: message` and a new line each; errors, warnings and
information are shown, debugging output is not; and every exchange returned the function that was installed before
it.  (Missing: `tag_percent_undefined`, `tag_percent_lost`.) -/
theorem log_lines_partial (ops : List (Op α)) (h : Spec.Legal conv ops) :
    ∃ s rs, run conv St.init ops = some (s, rs) ∧
      (∀ w, s.out w = (List.range ops.length).flatMap (Spec.shows conv ops w)) ∧
      s.writer = Spec.current ops ∧
      rs = (List.range ops.length).filterMap (Spec.returned ops) := by
  induction ops using List.reverseRecOn with
  | nil => exact ⟨St.init, [], rfl, fun w => rfl, rfl, rfl⟩
  | append_singleton ops op ih =>
    obtain ⟨s, rs, h1, h2, h3, h4⟩ := ih (fun l t f a hm => h l t f a (by simp [hm]))
    have hout : ∀ w, (List.range (ops ++ [op]).length).flatMap (Spec.shows conv (ops ++ [op]) w) =
        s.out w ++ Spec.shows conv (ops ++ [op]) w ops.length := by
      intro w
      rw [h2 w, List.length_append, List.length_singleton, List.range_succ, List.flatMap_append, List.flatMap_singleton]
      congr 1
      apply flatMap_same
      intro i hi
      exact shows_append conv ops op w i (List.mem_range.1 hi)
    have hrs : (List.range (ops ++ [op]).length).filterMap (Spec.returned (ops ++ [op])) =
        rs ++ (Spec.returned (ops ++ [op]) ops.length).toList := by
      rw [h4, List.length_append, List.length_singleton, List.range_succ, List.filterMap_append]
      congr 1
      apply filterMap_same
      intro i hi
      have hi := List.mem_range.1 hi
      unfold Spec.returned
      rw [List.getElem?_append_left hi, List.take_append_of_le_length (by omega)]
    rw [hrs]
    simp only [hout]
    rw [run_append conv _ ops op s rs h1]
    cases op with
    | set f =>
      refine ⟨_, _, rfl, fun w => ?_, ?_, ?_⟩
      · simp [Spec.shows, setVprintf]
      · rw [current_append_set]
      · simp [setVprintf, Spec.returned, h3]
    | log l t f a =>
      obtain ⟨ht, hm⟩ := h l t f a (by simp)
      obtain ⟨msg, hm⟩ := Option.isSome_iff_exists.1 hm
      refine ⟨_, _, by rw [step, write_spec conv s l t f a msg ht hm]; rfl, fun w => ?_, ?_, ?_⟩
      · simp only [Spec.shows, List.getElem?_concat_length, List.take_left', h3, hm, Option.getD_some]
      · rw [current_append_log]; exact h3
      · simp [Spec.returned]

/-- C100: putting back the function an exchange returned restores the state of the log, whatever was set. -/
theorem set_restores (s : St) (f : Nat) : (setVprintf (setVprintf s f).1 (setVprintf s f).2).1 = s := rfl

theorem vprintf_head (t : List Nat) (d : Nat) (rest : List Nat) (h : 37 ∉ t) (hd : d ≠ 37) :
    vprintf conv (t ++ 37 :: d :: rest) [] = none := by
  induction t with
  | nil => simp [vprintf, hd]
  | cons c t ih =>
    rw [List.cons_append, vprintf_cons conv c _ _ (fun e => h (by simp [e])), ih (fun e => h (by simp [e]))]
    rfl

/-- **Violation.**  The tag is used as a format: a percent sign in it, followed by anything but another one, makes
every line that is shown undefined, whatever its message. -/
theorem tag_percent_undefined (s : St) (l : Level) (hl : Spec.Shown l) (pre : List Nat) (d : Nat) (rest fmt : List Nat) (args : List α)
    (h : 37 ∉ pre) (hd : d ≠ 37) : write conv s l (pre ++ 37 :: d :: rest) fmt args = none := by
  rw [write, if_pos ((shown_iff l).1 hl), header]
  have hv := vprintf_head conv pre d rest h hd
  cases hs : (if letter l = [] then some s else put conv s (letter l) []) with
  | none => rfl
  | some s1 =>
    simp only [Option.bind_some]
    rw [put, hv]
    rfl

/-- **Violation.**  Two percent signs in a tag come out as one: the line written is the line of another tag. -/
theorem tag_percent_lost (s : St) (l : Level) (pre rest fmt : List Nat) (args : List α) (msg : List Nat)
    (h1 : 37 ∉ pre) (h2 : 37 ∉ rest) (hm : vprintf conv fmt args = some msg) (hl : Spec.Shown l) :
    write conv s l (pre ++ 37 :: 37 :: rest) fmt args =
      some ⟨s.writer, fun w => s.out w ++ if s.writer = w then Spec.line l (pre ++ 37 :: rest) msg else []⟩ := by
  have hv : vprintf conv (pre ++ 37 :: 37 :: rest) [] = some (pre ++ 37 :: rest) := by
    induction pre with
    | nil => rw [List.nil_append, vprintf, if_pos rfl, if_pos rfl, vprintf_plain conv rest [] h2]; rfl
    | cons c t ih =>
      rw [List.cons_append, vprintf_cons conv c _ _ (fun e => h1 (by simp [e])), ih (fun e => h1 (by simp [e]))]
      rfl
  rw [write, if_pos ((shown_iff l).1 hl)]
  have hl1 : (if letter l = [] then some s else put conv s (letter l) []) =
      some ⟨s.writer, fun w => if w = s.writer then s.out w ++ letter l else s.out w⟩ := by
    by_cases hl : letter l = []
    · rw [if_pos hl, hl]
      simp
    · rw [if_neg hl, put_some conv s _ [] (letter l) (vprintf_plain conv _ _ (by cases l <;> simp [letter]))]
  rw [header, hl1]
  simp only [Option.bind_some]
  rw [put_some conv _ _ [] _ hv]
  simp only [Option.bind_some]
  rw [put_some conv _ [58, 32] [] [58, 32] (vprintf_plain conv _ _ (by simp))]
  simp only [Option.bind_some]
  rw [put_some conv _ fmt args msg hm]
  simp only [Option.bind_some]
  rw [put_some conv _ [10] [] [10] (vprintf_plain conv _ _ (by simp))]
  congr 2
  funext w
  by_cases hw : w = s.writer
  · subst hw
    simp only [if_true, Spec.line, letter_eq, List.append_assoc]
  · have : ¬ s.writer = w := fun h => hw h.symm
    simp [hw, this]

/-! ## A case that meets the hypotheses -/

/-- `%s` writes a text (an instance for the examples; `vprintf` at utility.cpp:22) -/
def strConv (c : Nat) (a : List Nat) : Option (List Nat) := if c = 115 then some a else none

example : (run strConv St.init [.log .warn [97] [120, 37, 115] [[121]], .set 3, .log .debug [97] [120] [], .log .info [98] [122] [], .set 5]).map
    (fun p => (p.1.out 0, p.1.out 3, p.2)) = some ([87, 32, 97, 58, 32, 120, 121, 10], [73, 32, 98, 58, 32, 122, 10], [0, 3]) := by decide
example : Spec.Legal strConv [.log .warn [97] [120, 37, 115] [[121]], .set 3] := by
  intro l t f a h
  simp at h
  obtain ⟨rfl, rfl, rfl, rfl⟩ := h
  decide
example : (write strConv St.init .error [53, 37, 32] [120] []).isNone = true := by decide

end Verif.Log
