import Verif.Charconv.Props
/-!
# Incremental integer parser `iterated::num_get` (C20)
-/
namespace Verif.Charconv
open Verif

/-! ## Model -/

/-- States the machine can be in (internal/locale/iterated/num_get.h:41-51; `FirstNegative`, `FirstPositive`
as resting states, `Header` and `Complete` are never entered). -/
inductive NSt where | start | nomNeg | nomPos | overflow
deriving DecidableEq, Repr

/-- Parser state, failbit in `err`, and the output `v`. -/
structure NumState where
  st : NSt
  fail : Bool
  v : Int
deriving DecidableEq, Repr

/-- `raise_and_add` / `raise_and_sub`, internal/raise_and_add.h:14-20, 35-43 and
internal/locale/iterated/num_get.h:68-87; `none` when a product or sum leaves the type's range. -/
def raise (t : IntTy) (base : Nat) (pos : Bool) (v : Int) (n : Nat) : Option Int :=
  let w := v * base
  if w < t.min ∨ w > t.max then none
  else
    let u := if pos then w + n else w - n
    if u < t.min ∨ u > t.max then none else some u

/-- `nominal`, internal/locale/iterated/num_get.h:120-158, for integers, with
`FEATURE_ESTD_NUM_GET_LWG23` at its default 1.  The Boolean is the return value. -/
def nominal (t : IntTy) (base : Nat) (pos : Bool) (s : NumState) (c : Nat) : NumState × Bool :=
  match fromChar (facet base) c base with
  | some n =>
    match raise t base pos s.v n with
    | some v => ({ s with v := v }, false)
    | none => (⟨.overflow, true, if pos then t.max else t.min⟩, false)
  | none => (s, true)

/-- `get(c, err, v)`, internal/locale/iterated/num_get.h:202-260; `true` means processing is complete. -/
def numStep (t : IntTy) (base : Nat) (s : NumState) (c : Nat) : NumState × Bool :=
  match s.st with
  | .start =>
    if t.signed ∧ c = 45 then (⟨.nomNeg, s.fail, 0⟩, false)
    else
      match nominal t base true ⟨.nomPos, s.fail, 0⟩ c with
      | (s', true) => ({ s' with fail := true }, true)
      | (s', false) => (s', false)
  | .nomPos => nominal t base true s c
  | .nomNeg => nominal t base false s c
  | .overflow => (s, (fromChar (facet base) c base).isSome)

/-- Loop of `get_signed_number`, internal/locale/num_get.h:52-74: final state, number of characters passed,
and whether `eofbit` was set. -/
def numLoop (t : IntTy) (base : Nat) : NumState → Nat → List Nat → NumState × Nat × Bool
  | s, i, [] => (s, i, true)
  | s, i, c :: cs =>
    match numStep t base s c with
    | (s', true) => (s', i, false)
    | (s', false) => numLoop t base s' (i + 1) cs

/-- `num_get::get` on a text, internal/locale/num_get.h:39-75. -/
def numGet (t : IntTy) (base : Nat) (txt : List Nat) : NumState × Nat × Bool :=
  numLoop t base ⟨.start, false, 0⟩ 0 txt

/-- Feeding a chunk to the incremental parser: the state, and whether it completed within the chunk
(in which case the rest of the chunk is not consumed). -/
def feed (t : IntTy) (base : Nat) : NumState → List Nat → NumState × Bool
  | s, [] => (s, false)
  | s, c :: cs =>
    match numStep t base s c with
    | (s', true) => (s', true)
    | (s', false) => feed t base s' cs

/-! ## Properties -/

/-- C20: chunking does not matter: feeding one chunk after another is feeding their concatenation. -/
theorem feed_chunks (t : IntTy) (base : Nat) (s : NumState) (chunks : List (List Nat)) :
    feed t base s chunks.flatten =
      chunks.foldl (fun r ch => if r.2 then r else feed t base r.1 ch) (s, false) := by
  have app : ∀ xs ys s, feed t base s (xs ++ ys) =
      if (feed t base s xs).2 then feed t base s xs else feed t base (feed t base s xs).1 ys := by
    intro xs
    induction xs with
    | nil => intro ys s; simp [feed]
    | cons c xs ih =>
      intro ys s
      obtain ⟨⟨s', b⟩, h⟩ : ∃ p, numStep t base s c = p := ⟨_, rfl⟩
      simp only [List.cons_append, feed, h]
      cases b <;> simp [ih]
  have done : ∀ (chunks : List (List Nat)) s', chunks.foldl (fun r ch => if r.2 then r else feed t base r.1 ch) (s', true) = (s', true) := by
    intro chunks
    induction chunks with
    | nil => intro s'; rfl
    | cons c cs ih => intro s'; simpa using ih s'
  induction chunks generalizing s with
  | nil => rfl
  | cons ch chunks ih =>
    simp only [List.flatten_cons, List.foldl_cons, app, Bool.false_eq_true, if_false]
    obtain ⟨⟨s', b⟩, h⟩ : ∃ p, feed t base s ch = p := ⟨_, rfl⟩
    rw [h]
    cases b with
    | true => simp [done]
    | false => simp [ih]

/-- The one-shot parser is the incremental one plus a position and the end-of-input flag. -/
theorem numGet_feed (t : IntTy) (base : Nat) (txt : List Nat) :
    (numGet t base txt).1 = (feed t base ⟨.start, false, 0⟩ txt).1 ∧
    (numGet t base txt).2.2 = !(feed t base ⟨.start, false, 0⟩ txt).2 := by
  have : ∀ txt s i, (numLoop t base s i txt).1 = (feed t base s txt).1 ∧
      (numLoop t base s i txt).2.2 = !(feed t base s txt).2 := by
    intro txt
    induction txt with
    | nil => intro s i; simp [numLoop, feed]
    | cons c cs ih =>
      intro s i
      obtain ⟨⟨s', b⟩, h⟩ : ∃ p, numStep t base s c = p := ⟨_, rfl⟩
      simp only [numLoop, feed, h]
      cases b <;> simp [ih]
  exact this txt _ _

def sgn (pos : Bool) (n : Nat) : Int := if pos then n else -(n : Int)

def bound (t : IntTy) (pos : Bool) : Nat := if pos then t.max else t.max + 1

theorem raise_spec (t : IntTy) (base : Nat) (pos : Bool) (loc n : Nat)
    (hpos : pos = false → t.signed = true) :
    raise t base pos (sgn pos loc) n =
      if loc * base + n ≤ bound t pos then some (sgn pos (loc * base + n)) else none := by
  unfold raise sgn bound IntTy.min
  cases pos with
  | true =>
    have e : (loc : Int) * (base : Int) = ((loc * base : Nat) : Int) := by simp
    simp only [if_true, e]
    generalize loc * base = w
    cases t.signed <;> simp
    all_goals repeat' split
    all_goals first | omega | (simp; omega) | simp_all
  | false =>
    have e : -(loc : Int) * (base : Int) = -((loc * base : Nat) : Int) := by simp [Int.neg_mul]
    simp only [Bool.false_eq_true, if_false, e, hpos rfl, if_true]
    generalize loc * base = w
    repeat' split
    all_goals first | omega | (simp; omega) | simp_all

theorem overflow_loop (t : IntTy) (base : Nat) (f : Bool) (v : Int) (i : Nat) (l : List Nat) :
    (numLoop t base ⟨.overflow, f, v⟩ i l).1 = ⟨.overflow, f, v⟩ := by
  induction l generalizing i with
  | nil => rfl
  | cons c l ih =>
    simp only [numLoop, numStep]
    cases h : (fromChar (facet base) c base).isSome <;> simp [ih]

theorem nom_loop (t : IntTy) (base : Nat) (hb : 2 ≤ base) (hb' : base ≤ 36) (pos : Bool)
    (hpos : pos = false → t.signed = true) (l : List Nat) (hcode : ∀ c ∈ l, c < 256) (loc i : Nat)
    (hloc : loc ≤ bound t pos) :
    let st := if pos then NSt.nomPos else NSt.nomNeg
    let ds := l.takeWhile (fun c => (Spec.digit base c).isSome)
    (accum base loc ds ≤ bound t pos →
      numLoop t base ⟨st, false, sgn pos loc⟩ i l =
        (⟨st, false, sgn pos (accum base loc ds)⟩, i + ds.length, decide (ds.length = l.length))) ∧
    (bound t pos < accum base loc ds →
      (numLoop t base ⟨st, false, sgn pos loc⟩ i l).1 = ⟨.overflow, true, if pos then t.max else t.min⟩) := by
  induction l generalizing loc i with
  | nil => simp [numLoop, accum]; omega
  | cons c l ih =>
    intro st ds
    have hstep : ∀ v, numStep t base ⟨st, false, v⟩ c = nominal t base pos ⟨st, false, v⟩ c := by
      intro v; cases pos <;> rfl
    have hfc := from_char_spec base c hb hb' (hcode c (by simp))
    cases hd : Spec.digit base c with
    | none =>
      have hds : ds = [] := by simp [ds, hd]
      rw [hds]
      have : numLoop t base ⟨st, false, sgn pos loc⟩ i (c :: l) = (⟨st, false, sgn pos loc⟩, i, false) := by
        simp only [numLoop, hstep, nominal, hfc, hd]
      rw [this]
      simp [accum]; omega
    | some d =>
      have hds : ds = c :: l.takeWhile (fun c => (Spec.digit base c).isSome) := by simp [ds, hd]
      have hacc : accum base loc ds = accum base (loc * base + d) (l.takeWhile (fun c => (Spec.digit base c).isSome)) := by
        rw [hds]; simp [accum, hd]
      rw [hacc]
      have hle := le_accum base (loc * base + d) (by omega) (l.takeWhile (fun c => (Spec.digit base c).isSome))
      have hr := raise_spec t base pos loc d hpos
      by_cases hov : loc * base + d ≤ bound t pos
      · rw [if_pos hov] at hr
        have : numLoop t base ⟨st, false, sgn pos loc⟩ i (c :: l)
            = numLoop t base ⟨st, false, sgn pos (loc * base + d)⟩ (i + 1) l := by
          simp only [numLoop, hstep, nominal, hfc, hd, hr]
        rw [this]
        obtain ⟨i1, i2⟩ := ih (fun x hx => hcode x (by simp [hx])) (loc * base + d) (i + 1) hov
        refine ⟨fun hh => ?_, fun hh => i2 hh⟩
        have h1 := i1 hh
        simp only [st]
        rw [h1, hds]
        simp; omega
      · rw [if_neg hov] at hr
        refine ⟨fun hh => by omega, fun hh => ?_⟩
        have : numLoop t base ⟨st, false, sgn pos loc⟩ i (c :: l)
            = numLoop t base ⟨.overflow, true, if pos then t.max else t.min⟩ (i + 1) l := by
          simp only [numLoop, hstep, nominal, hfc, hd, hr]
        rw [this, overflow_loop]

/-- Texts covered: not empty, and a leading `-` (signed types) is followed by a digit. -/
def Spec.NumGetSupported (t : IntTy) (base : Nat) (txt : List Nat) : Prop :=
  txt ≠ [] ∧ (t.signed = true → txt.head? = some 45 → ∃ c r, txt.tail = c :: r ∧ (Spec.digit base c).isSome = true)

/-- C20, partial: on such a text, with `Spec.parse` the longest-numeral specification shared with `from_chars`:
a number that fits is stored, failbit stays clear, the parser stops at the first non-digit and eofbit is set
exactly when it ran to the end; no digit at all sets failbit and stores 0; overflow sets failbit and stores
the nearest limit.  The minimum of a signed type parses.  Missing: empty input and a `-` without digits, where
failbit is not set (`num_get_empty_no_fail`, `num_get_minus_no_fail`), and where the parser stops after
overflow (`num_get_overflow_position` in Faults.lean). -/
theorem num_get_partial (t : IntTy) (base : Nat) (txt : List Nat) (hb : 2 ≤ base) (hb' : base ≤ 36)
    (hcode : ∀ c ∈ txt, c < 256) (hs : Spec.NumGetSupported t base txt) :
    match Spec.parse t base txt with
    | (n, .ok, some v) => ∃ st, numGet t base txt = (⟨st, false, v⟩, n, decide (n = txt.length))
    | (_, .invalidArgument, _) => ∃ st, numGet t base txt = (⟨st, true, 0⟩, 0, false)
    | _ => ∃ st, (numGet t base txt).1 = ⟨st, true, if t.signed ∧ txt.head? = some 45 then t.min else t.max⟩ := by
  obtain ⟨hne, hsg⟩ := hs
  cases txt with
  | nil => exact absurd rfl hne
  | cons c rest =>
    by_cases hneg : t.signed = true ∧ c = 45
    · obtain ⟨hsig, rfl⟩ := hneg
      obtain ⟨c', r', hr, hd'⟩ := hsg hsig rfl
      simp only [List.tail_cons] at hr
      obtain ⟨k1, k2⟩ := nom_loop t base hb hb' false (fun _ => hsig) rest (fun x hx => hcode x (by simp [hx])) 0 1
        (by simp [bound])
      have hstart : numGet t base (45 :: rest) = numLoop t base ⟨.nomNeg, false, sgn false 0⟩ 1 rest := by
        simp [numGet, numLoop, numStep, hsig, sgn]
      rw [hstart]
      simp only [Bool.false_eq_true, if_false] at k1 k2
      have hdsne : rest.takeWhile (fun c => (Spec.digit base c).isSome) ≠ [] := by rw [hr]; simp [hd']
      generalize hds : rest.takeWhile (fun c => (Spec.digit base c).isSome) = ds at *
      have hval : accum base 0 ds = Spec.value base (ds.filterMap (Spec.digit base)) := rfl
      rw [hval] at k1 k2
      have hp : Spec.parse t base (45 :: rest) =
          if Spec.value base (ds.filterMap (Spec.digit base)) ≤ t.max + 1
          then (1 + ds.length, .ok, some (-(Spec.value base (ds.filterMap (Spec.digit base)) : Int)))
          else (1 + ds.length, .outOfRange, none) := by
        simp only [Spec.parse, hsig, Bool.true_and, List.head?_cons, beq_self_eq_true, if_true, List.tail_cons, hds,
          hdsne, if_false]
      rw [hp]
      by_cases hle : Spec.value base (ds.filterMap (Spec.digit base)) ≤ t.max + 1
      · rw [if_pos hle]
        refine ⟨.nomNeg, ?_⟩
        rw [k1 (by simpa [bound] using hle)]
        simp [sgn]; omega
      · rw [if_neg hle]
        refine ⟨.overflow, ?_⟩
        rw [k2 (by simp [bound]; omega)]
        simp [hsig]
    · have hneg' : (t.signed && (c :: rest).head? == some 45) = false := by
        cases hsig : t.signed with
        | false => simp
        | true => simp [hsig] at hneg; simp [hneg]
      have hfc := from_char_spec base c hb hb' (hcode c (by simp))
      cases hd : Spec.digit base c with
      | none =>
        have hp : Spec.parse t base (c :: rest) = (0, .invalidArgument, none) := by
          unfold Spec.parse
          simp only [hneg', Bool.false_eq_true, if_false]
          simp [hd]
        rw [hp]
        refine ⟨.nomPos, ?_⟩
        simp [numGet, numLoop, numStep, hneg, nominal, hfc, hd]
      | some d =>
        have hstart : numGet t base (c :: rest) = numLoop t base ⟨.nomPos, false, sgn true 0⟩ 0 (c :: rest) := by
          have h1 : numStep t base ⟨.start, false, 0⟩ c = nominal t base true ⟨.nomPos, false, 0⟩ c := by
            simp only [numStep, hneg, if_false]
            cases hn : nominal t base true ⟨.nomPos, false, 0⟩ c with
            | mk s' b =>
              cases b with
              | false => rfl
              | true =>
                simp only [nominal, hfc, hd] at hn
                split at hn <;> simp at hn
          simp only [numGet, numLoop, h1]
          rfl
        rw [hstart]
        obtain ⟨k1, k2⟩ := nom_loop t base hb hb' true (by simp) (c :: rest) hcode 0 0 (by simp [bound])
        simp only [if_true] at k1 k2
        have hdsne : (c :: rest).takeWhile (fun c => (Spec.digit base c).isSome) ≠ [] := by simp [hd]
        generalize hds : (c :: rest).takeWhile (fun c => (Spec.digit base c).isSome) = ds at *
        have hval : accum base 0 ds = Spec.value base (ds.filterMap (Spec.digit base)) := rfl
        rw [hval] at k1 k2
        have hp : Spec.parse t base (c :: rest) =
            if Spec.value base (ds.filterMap (Spec.digit base)) ≤ t.max
            then (ds.length, .ok, some (Spec.value base (ds.filterMap (Spec.digit base)) : Int))
            else (ds.length, .outOfRange, none) := by
          unfold Spec.parse
          simp only [hneg', Bool.false_eq_true, if_false, hds, hdsne, Nat.zero_add]
        rw [hp]
        by_cases hle : Spec.value base (ds.filterMap (Spec.digit base)) ≤ t.max
        · rw [if_pos hle]
          refine ⟨.nomPos, ?_⟩
          rw [k1 (by simpa [bound] using hle)]
          simp [sgn]
        · rw [if_neg hle]
          refine ⟨.overflow, ?_⟩
          rw [k2 (by simp [bound]; omega)]
          have : ¬ (t.signed = true ∧ (c :: rest).head? = some 45) := by simpa using hneg
          rw [if_neg this]

example : Spec.NumGetSupported ⟨true, 127⟩ 10 [45, 49, 50, 56, 32] ∧
    Spec.parse ⟨true, 127⟩ 10 [45, 49, 50, 56, 32] = (4, .ok, some (-128)) :=
  ⟨⟨by simp, fun _ _ => ⟨49, [50, 56, 32], rfl, by decide⟩⟩, by decide +kernel⟩

/-- C20 fails on empty input: only eofbit is set. -/
theorem num_get_empty_no_fail (t : IntTy) (base : Nat) : numGet t base [] = (⟨.start, false, 0⟩, 0, true) := rfl

/-- C20 fails on a `-` followed by a non-digit: 0 is stored and failbit stays clear, for every signed type and
base. -/
theorem num_get_minus_no_fail (t : IntTy) (base c : Nat) (rest : List Nat) (hb : 2 ≤ base) (hb' : base ≤ 36)
    (hs : t.signed = true) (hc : c < 256) (hd : Spec.digit base c = none) :
    numGet t base (45 :: c :: rest) = (⟨.nomNeg, false, 0⟩, 1, false) := by
  simp [numGet, numLoop, numStep, hs, nominal, from_char_spec base c hb hb' hc, hd]

/-! ## `bool_get`, numeric flavour -/

/-- `bool_get<..., false>::get(c, err, v)`, internal/locale/iterated/num_get.h:301-325:
(failbit, value, complete). -/
def boolGet (c : Nat) (fail : Bool) : Bool × Bool × Bool :=
  if c = 48 then (fail, false, true)
  else if c = 49 then (fail, true, true)
  else (true, true, true)

/-- The numeric bool parser accepts exactly `0` and `1`, never clears failbit, always completes. -/
theorem bool_get_spec (c : Nat) (fail : Bool) :
    (boolGet c fail).2.2 = true ∧ ((boolGet c fail).1 = true ↔ fail = true ∨ (c ≠ 48 ∧ c ≠ 49)) ∧
    ((boolGet c fail).2.1 = false ↔ c = 48) := by
  unfold boolGet
  repeat' split
  all_goals simp_all

end Verif.Charconv
