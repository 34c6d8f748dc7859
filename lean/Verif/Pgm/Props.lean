import Verif.Pgm.Model
import Verif.Pgm.Spec

/-! # Properties of text and arrays in program memory (C110) -/
namespace Verif.Pgm
open Verif Spec

/-! ## Reading what is there -/

theorem holds_rd {flash : List Nat} {p : Nat} {b : Nat} {bs : List Nat} (h : holds flash p (b :: bs)) :
    rd flash p = some b ∧ holds flash (p + 1) bs := by
  obtain ⟨pre, post, rfl, rfl⟩ := h
  refine ⟨by simp [rd], pre ++ [b], post, by simp, by simp⟩

theorem holds_append {flash : List Nat} {p : Nat} {as bs : List Nat} (h : holds flash p (as ++ bs)) :
    holds flash p as ∧ holds flash (p + as.length) bs := by
  obtain ⟨pre, post, rfl, rfl⟩ := h
  exact ⟨⟨pre, bs ++ post, by simp, rfl⟩, ⟨pre ++ as, post, by simp, by simp⟩⟩

theorem memcpyP_holds {flash : List Nat} {bs : List Nat} : ∀ {p : Nat}, holds flash p bs →
    memcpyP flash p bs.length = some bs := by
  induction bs with
  | nil => intro p _; rfl
  | cons b bs ih =>
    intro p h
    obtain ⟨h1, h2⟩ := holds_rd h
    simp [memcpyP, h1, ih h2]

/-- the first `n` of the bytes from `i` on -/
theorem memcpyP_slice {flash bs : List Nat} {p i n : Nat} (h : holds flash p bs) (hn : i + n ≤ bs.length) :
    memcpyP flash (p + i) n = some ((bs.drop i).take n) := by
  have e : bs = bs.take i ++ ((bs.drop i).take n ++ (bs.drop i).drop n) := by
    rw [List.take_append_drop, List.take_append_drop]
  rw [e] at h
  have h1 := (holds_append (holds_append h).2).1
  rw [List.length_take, show min i bs.length = i by omega] at h1
  have := memcpyP_holds h1
  rwa [List.length_take, List.length_drop, show min n (bs.length - i) = n by omega] at this

theorem memcpyP_none {flash : List Nat} : ∀ {n p : Nat}, flash.length < p + n → 0 < n → memcpyP flash p n = none := by
  intro n
  induction n with
  | zero => intro p _ h; omega
  | succ n ih =>
    intro p h _
    simp only [memcpyP]
    cases hr : rd flash p with
    | none => rfl
    | some b =>
      have hp : p < flash.length := (List.getElem?_eq_some_iff.mp hr).1
      have := ih (p := p + 1) (by omega) (by omega)
      simp [this]

theorem bytes_length (w v : Nat) : (bytes w v).length = w := by
  induction w generalizing v with
  | zero => rfl
  | succ w ih => simp [bytes, ih]

theorem fromBytes_bytes (w v : Nat) (h : v < 256 ^ w) : fromBytes (bytes w v) = v := by
  induction w generalizing v with
  | zero => simp [bytes, fromBytes] at h ⊢; omega
  | succ w ih =>
    simp only [bytes, fromBytes]
    rw [ih (v / 256) (by rw [Nat.pow_succ] at h; exact Nat.div_lt_of_lt_mul (by omega))]
    omega

/-- **Every integer reads back**, whatever its width, unsigned … -/
theorem read_value {flash : List Nat} {w v p : Nat} (h : holds flash p (bytes w v)) (hv : v < 256 ^ w) (hw : 0 < w) :
    pgmRead flash w p = some v := by
  unfold pgmRead
  split
  · subst_vars
    simp only [bytes] at h
    rw [readByte, (holds_rd h).1]
    congr 1; omega
  · split
    · subst_vars
      simp only [bytes] at h
      obtain ⟨h1, h2⟩ := holds_rd h
      obtain ⟨h3, _⟩ := holds_rd h2
      simp only [readWord, h1, h3, Option.bind_some, Option.map_some, Option.some.injEq]
      omega
    · split
      · subst_vars
        simp only [bytes] at h
        obtain ⟨h1, h2⟩ := holds_rd h
        obtain ⟨h3, h4⟩ := holds_rd h2
        obtain ⟨h5, h6⟩ := holds_rd h4
        obtain ⟨h7, _⟩ := holds_rd h6
        simp only [Nat.add_assoc, Nat.reduceAdd] at h3 h5 h7
        simp only [readDword, readWord, h1, h3, h5, h7, Option.bind_some, Option.map_some, Option.some.injEq,
          Nat.add_assoc, Nat.reduceAdd]
        omega
      · have := memcpyP_holds h
        rw [bytes_length] at this
        simp only [this, Option.map_some, Option.some.injEq]
        exact fromBytes_bytes w v hv

/-- … or signed. -/
theorem read_signed {flash : List Nat} {w p : Nat} {x : Int} (hw : 0 < w) (h1 : -(256 ^ w : Nat) ≤ 2 * x)
    (h2 : 2 * x < (256 ^ w : Nat)) (h : holds flash p (bytes w (x % (256 ^ w : Nat)).toNat)) :
    (pgmRead flash w p).map (signed w) = some x := by
  have hpos : 0 < 256 ^ w := Nat.pow_pos (by omega)
  generalize hm : 256 ^ w = m at *
  have hlt : (x % (m : Int)).toNat < 256 ^ w := by rw [hm]; have := Int.emod_lt_of_pos x (b := m) (by omega); omega
  rw [read_value h hlt hw]
  simp only [Option.map_some, Option.some.injEq, signed, hm]
  by_cases hx : 0 ≤ x
  · rw [Int.emod_eq_of_lt hx (by omega)]
    rw [if_pos (by omega)]; omega
  · have : x % (m : Int) = x + m := by
      rw [← Int.add_emod_right]
      exact Int.emod_eq_of_lt (by omega) (by omega)
    rw [this, if_neg (by omega)]; omega

/-- Meets the hypotheses: −2 as two bytes, and 305419896 as four, at address 3. -/
example : holds [9, 9, 9, 254, 255, 7] 3 (bytes 2 ((-2 : Int) % (256 ^ 2 : Nat)).toNat) ∧
    holds [9, 9, 9, 120, 86, 52, 18, 7] 3 (bytes 4 305419896) :=
  ⟨⟨[9, 9, 9], [7], by decide, rfl⟩, ⟨[9, 9, 9], [7], by decide, rfl⟩⟩

/-! ## Strings -/

theorem strnlenP_holds {flash : List Nat} {text : List Nat} (hz : ∀ c ∈ text, c ≠ 0) : ∀ {p max : Nat},
    holds flash p (text ++ [0]) → strnlenP flash p max = some (min text.length max) := by
  induction text with
  | nil =>
    intro p max h
    cases max with
    | zero => rfl
    | succ max => simp [strnlenP, (holds_rd h).1]
  | cons c text ih =>
    intro p max h
    cases max with
    | zero => simp [strnlenP]
    | succ max =>
      obtain ⟨h1, h2⟩ := holds_rd h
      have := ih (fun c hc => hz c (List.mem_cons_of_mem _ hc)) (max := max) h2
      simp only [strnlenP, h1, Option.bind_some, hz c List.mem_cons_self, if_false, this, Option.map_some,
        Option.some.injEq, List.length_cons]
      omega

theorem iterate_bytes {flash : List Nat} {text : List Nat} : ∀ {p : Nat}, holds flash p text →
    iterate flash 1 (text.length + 1) p (p + text.length) = some text := by
  induction text with
  | nil => intro p _; simp [iterate]
  | cons c text ih =>
    intro p h
    obtain ⟨h1, h2⟩ := holds_rd h
    have := ih h2
    rw [show p + 1 + text.length = p + (c :: text).length by simp; omega] at this
    rw [List.length_cons, iterate, if_neg (by omega)]
    simp only [List.length_cons] at this
    rw [this]
    simp [pgmRead, readByte, h1]

/-- the text that a string shows: all of it, or without `N` its first 256 characters -/
def Spec.shown (text : List Nat) : Option Nat → List Nat
  | none => text.take 256
  | some _ => text

/-- a string is made over this text: without `N` it ends with a zero byte, with `N` it has `N` bytes -/
def Spec.textAt (flash : List Nat) (s : PStr) (text : List Nat) : Prop :=
  match s.ext with
  | none => holds flash s.data (text ++ [0]) ∧ ∀ c ∈ text, c ≠ 0
  | some n => holds flash s.data text ∧ text.length = n

theorem size_text {flash : List Nat} {s : PStr} {text : List Nat} (h : Spec.textAt flash s text) :
    size flash s = some (Spec.shown text s.ext).length ∧ holds flash s.data text := by
  unfold Spec.textAt at h
  unfold size Spec.shown
  cases he : s.ext with
  | none =>
    rw [he] at h
    refine ⟨?_, (holds_append h.1).1⟩
    simp only [strnlenP_holds h.2 h.1, List.length_take]
    congr 1; omega
  | some n => rw [he] at h; exact ⟨by rw [h.2], h.1⟩

theorem holds_shown {flash : List Nat} {p : Nat} {text : List Nat} {e : Option Nat} (h : holds flash p text) :
    holds flash p (Spec.shown text e) := by
  unfold Spec.shown
  cases e with
  | none =>
    have : text = text.take 256 ++ text.drop 256 := (List.take_append_drop _ _).symm
    rw [this] at h
    exact (holds_append h).1
  | some n => exact h

theorem shown_short {text : List Nat} {e : Option Nat} (h : e = none → text.length ≤ 256) : Spec.shown text e = text := by
  unfold Spec.shown
  cases e with
  | none => exact List.take_of_length_le (h rfl)
  | some n => rfl

/-- What every operation shows of any text: without `N`, its first 256 characters. -/
theorem string_shown {flash : List Nat} {s : PStr} {text : List Nat} (h : Spec.textAt flash s text) :
    size flash s = some (Spec.shown text s.ext).length ∧ output flash s = some (Spec.shown text s.ext) ∧
      (∀ dst, appendTo flash s dst = some (dst ++ Spec.shown text s.ext)) ∧
      (∀ i c, text[i]? = some c → charAt flash s i = some c) := by
  obtain ⟨h1, h2⟩ := size_text h
  have h3 := holds_shown (e := s.ext) h2
  refine ⟨h1, ?_, fun dst => ?_, fun i c hc => ?_⟩
  · simp only [output, h1, Option.bind_some]
    exact iterate_bytes h3
  · simp only [appendTo, copyTo, h1, Option.bind_some, Nat.min_self, Nat.add_zero, memcpyP_holds h3, Option.map_some]
  · obtain ⟨pre, post, rfl, hp⟩ := h2
    obtain ⟨hi, hv⟩ := List.getElem?_eq_some_iff.mp hc
    simp [charAt, pgmRead, readByte, rd, ← hp, List.getElem?_append_right, List.getElem?_append_left, hi, hv]

/-- **Text in program memory is read as it is there**: `size()`, `<<`, `s[i]`, appending to a string in RAM and copying
from the start give exactly the text.  Missing: texts of more than 256 characters without `N` (`long_text`), and
copying from elsewhere (`copy_elsewhere_partial`). -/
theorem string_reads_partial {flash : List Nat} {s : PStr} {text : List Nat} (h : Spec.textAt flash s text)
    (hl : s.ext = none → text.length ≤ 256) :
    size flash s = some text.length ∧ output flash s = some text ∧
      (∀ dst, appendTo flash s dst = some (dst ++ text)) ∧
      (∀ i c, text[i]? = some c → charAt flash s i = some c) ∧
      (∀ count, copyTo flash s count 0 = some (text.take count)) := by
  have hs := shown_short (e := s.ext) hl
  obtain ⟨h1, h2, h3, h4⟩ := string_shown h
  rw [hs] at h1 h2 h3
  refine ⟨h1, h2, h3, h4, fun count => ?_⟩
  simp only [copyTo, h1, Option.bind_some]
  rw [memcpyP_slice (size_text h).2 (by omega)]
  simp only [List.drop_zero, Option.some.injEq]
  rw [List.take_eq_take_iff]; omega

/-- Meets the hypotheses: "AVR" with a terminator, and the same given `N` = 3 without one. -/
example : Spec.textAt [7, 65, 86, 82, 0, 9] ⟨1, none⟩ [65, 86, 82] ∧ Spec.textAt [7, 65, 86, 82] ⟨1, some 3⟩ [65, 86, 82] :=
  ⟨⟨⟨[7], [9], rfl, rfl⟩, by decide⟩, ⟨[7], [], rfl, rfl⟩, rfl⟩

/-- **On Arduino** a text with a terminator is printed whole, however long. -/
theorem arduino_text {flash : List Nat} {p : Nat} {text : List Nat} (hz : ∀ c ∈ text, c ≠ 0)
    (h : holds flash p (text ++ [0])) : outputArduino flash p = some text := by
  obtain ⟨pre, post, rfl, rfl⟩ := h
  have e : (pre ++ (text ++ [0]) ++ post).drop pre.length = text ++ 0 :: post := by simp
  simp only [outputArduino, e]
  rw [if_pos (by simp)]
  congr 1
  rw [List.takeWhile_append_of_pos (by simpa using hz)]
  simp

/-- **Violation.**  On Arduino `N` is ignored: after a text of `N` characters without a terminator, what follows is
printed too. -/
theorem arduino_overruns {flash : List Nat} {p : Nat} {text more : List Nat} (hz : ∀ c ∈ text ++ more, c ≠ 0)
    (h : holds flash p (text ++ (more ++ [0]))) :
    Spec.textAt flash ⟨p, some text.length⟩ text ∧ outputArduino flash p = some (text ++ more) :=
  ⟨⟨(holds_append h).1, rfl⟩, arduino_text hz (by rw [List.append_assoc]; exact h)⟩

theorem strncmpP_eq {flash : List Nat} {text : List Nat} : ∀ {p : Nat} {t : List Nat}, holds flash p text →
    t.length = text.length → (∀ c ∈ t, c ≠ 0) →
    ∃ r, strncmpP flash t p t.length = some r ∧ (r = 0 ↔ t = text) ∧
      (r < 0 ↔ List.Lex (· < ·) t text) ∧ (0 < r ↔ List.Lex (· < ·) text t) := by
  induction text with
  | nil =>
    intro p t _ hl _
    have : t = [] := by simpa using hl
    subst this
    refine ⟨0, by simp [strncmpP], by simp, ?_, ?_⟩ <;> simp
  | cons b text ih =>
    intro p t h hl hz
    cases t with
    | nil => simp at hl
    | cons c t =>
      obtain ⟨h1, h2⟩ := holds_rd h
      simp only [strncmpP, List.length_cons, h1, Option.bind_some]
      by_cases hcb : c = b
      · subst hcb
        rw [if_pos rfl]
        obtain ⟨r, e1, e2, e3, e4⟩ := ih h2 (by simpa using hl) (fun x hx => hz x (List.mem_cons_of_mem _ hx))
        refine ⟨r, e1, by simpa using e2, ?_, ?_⟩
        · rw [e3]
          exact ⟨fun hh => .cons hh, fun hh => by cases hh with
            | cons h => exact h
            | rel h => omega⟩
        · rw [e4]
          exact ⟨fun hh => .cons hh, fun hh => by cases hh with
            | cons h => exact h
            | rel h => omega⟩
      · rw [if_neg hcb]
        refine ⟨_, rfl, ?_, ?_, ?_⟩
        · constructor
          · intro hh; omega
          · intro hh; simp at hh; exact absurd hh.1 hcb
        · constructor
          · intro hh; exact .rel (by omega)
          · intro hh
            cases hh with
            | cons h => exact absurd rfl hcb
            | rel h => omega
        · constructor
          · intro hh; exact .rel (by omega)
          · intro hh
            cases hh with
            | cons h => exact absurd rfl hcb
            | rel h => omega

/-- **Comparison with a string in RAM**: equality is equality of the texts, and for texts of the same length the order is
the order of the texts.  Missing: texts of more than 256 characters without `N` (`long_text`), and texts of different
lengths, of which the shorter is always less (as in C14). -/
theorem string_compare_partial {flash : List Nat} {s : PStr} {text t : List Nat} (h : Spec.textAt flash s text)
    (hl : s.ext = none → text.length ≤ 256) (ht : ∀ c ∈ t, c ≠ 0) :
    (equal flash s t = some (decide (t = text))) ∧
      (t.length = text.length → ∃ r, compare flash s t = some r ∧
        (r < 0 ↔ List.Lex (· < ·) text t) ∧ (0 < r ↔ List.Lex (· < ·) t text)) := by
  have h1 := (string_reads_partial h hl).1
  have h2 := (size_text h).2
  by_cases hlen : t.length = text.length
  · obtain ⟨r, e1, e2, e3, e4⟩ := strncmpP_eq h2 hlen ht
    have hc : compare flash s t = some (-r) := by
      simp only [compare, h1, Option.bind_some]
      rw [if_neg (by omega), if_neg (by omega), e1]; rfl
    refine ⟨?_, fun _ => ⟨-r, hc, ?_, ?_⟩⟩
    · simp only [equal, hc, Option.map_some, Option.some.injEq, decide_eq_decide]
      rw [← e2]; omega
    · rw [← e4]; omega
    · rw [← e3]; omega
  · refine ⟨?_, fun h => absurd h hlen⟩
    have hne : t ≠ text := fun hh => hlen (by rw [hh])
    simp only [equal, compare, h1, Option.bind_some]
    split
    · simp [hne]
    · rw [if_pos (by omega)]; simp [hne]

/-- **Violation.**  Without `N` a text of more than 256 characters is cut: its size is 256, 256 characters are printed
and appended, it is not equal to itself, but to its first 256 characters. -/
theorem long_text {flash : List Nat} {p : Nat} {text : List Nat} (hz : ∀ c ∈ text, c ≠ 0)
    (h : holds flash p (text ++ [0])) (hl : 256 < text.length) :
    size flash ⟨p, none⟩ = some 256 ∧ output flash ⟨p, none⟩ = some (text.take 256) ∧
      (∀ dst, appendTo flash ⟨p, none⟩ dst = some (dst ++ text.take 256)) ∧
      equal flash ⟨p, none⟩ text = some false ∧ equal flash ⟨p, none⟩ (text.take 256) = some true := by
  have ht : Spec.textAt flash ⟨p, none⟩ text := ⟨h, hz⟩
  obtain ⟨h1, h2, h3, _⟩ := string_shown ht
  have hlen : (text.take 256).length = 256 := by rw [List.length_take]; omega
  simp only [Spec.shown, hlen] at h1 h2 h3
  refine ⟨h1, h2, h3, ?_, ?_⟩
  · simp only [equal, compare, h1, Option.bind_some]
    rw [if_pos hl]; rfl
  · obtain ⟨r, e1, e2, _⟩ := strncmpP_eq (holds_shown (e := none) (size_text ht).2) (t := text.take 256) rfl
      (fun c hc => hz c (List.mem_of_mem_take hc))
    have hr : r = 0 := e2.mpr rfl
    simp only [equal, compare, h1, Option.bind_some, hlen]
    rw [if_neg (by omega), if_neg (by omega)]
    rw [hlen] at e1
    simp [e1, hr]

/-- **Copying from elsewhere** is right when all that is asked for is there. -/
theorem copy_elsewhere_partial {flash : List Nat} {s : PStr} {text : List Nat} (h : Spec.textAt flash s text)
    (hl : s.ext = none → text.length ≤ 256) (count pos : Nat) (hc : pos + count ≤ text.length) :
    copyTo flash s count pos = some ((text.drop pos).take count) := by
  simp only [copyTo, (string_reads_partial h hl).1, Option.bind_some]
  rw [show min count text.length = count by omega]
  exact memcpyP_slice (size_text h).2 hc

/-- **Violation.**  When less is left after `pos` than is asked for, what follows the text in memory is copied too (into
a buffer that need not have room for it), and the number returned is not that of the characters of the text. -/
theorem copy_past_end {flash : List Nat} {s : PStr} {text more : List Nat} (h : Spec.textAt flash s text)
    (hl : s.ext = none → text.length ≤ 256) (hm : holds flash s.data (text ++ more)) (count pos : Nat)
    (hc : text.length < pos + count) (hp : 0 < pos) (hpl : pos ≤ text.length) (hml : pos ≤ more.length) :
    ∃ l extra, copyTo flash s count pos = some l ∧ l = text.drop pos ++ extra ∧ extra ≠ [] ∧ extra <+: more ∧
      l.length = min count text.length := by
  refine ⟨((text ++ more).drop pos).take (min count text.length),
    more.take (min count text.length - (text.length - pos)), ?_, ?_, ?_, List.take_prefix _ _, ?_⟩
  · simp only [copyTo, (string_reads_partial h hl).1, Option.bind_some]
    refine memcpyP_slice hm ?_
    simp only [List.length_append]; omega
  · rw [List.drop_append_of_le_length hpl, List.take_append, List.length_drop]
    rw [List.take_of_length_le (by rw [List.length_drop]; omega)]
  · intro he
    have := congrArg List.length he
    simp only [List.length_take, List.length_nil] at this
    omega
  · simp only [List.length_take, List.length_drop, List.length_append]; omega

/-- **Violation.**  Where program memory ends, this is undefined. -/
theorem copy_past_memory {flash : List Nat} {s : PStr} {text : List Nat} (h : Spec.textAt flash s text)
    (hl : s.ext = none → text.length ≤ 256) (count pos : Nat) (hpos : 0 < min count text.length)
    (hend : flash.length < s.data + pos + min count text.length) : copyTo flash s count pos = none := by
  simp only [copyTo, (string_reads_partial h hl).1, Option.bind_some]
  exact memcpyP_none hend hpos

/-- Meets the hypotheses: `s.copy(dest, 3, 1)` of "AVR" followed by its terminator and a 9. -/
example : copyTo [65, 86, 82, 0, 9] ⟨0, none⟩ 3 1 = some [86, 82, 0] ∧ copyTo [65, 86, 82, 0] ⟨0, some 4⟩ 9 1 = none := by
  decide +kernel

/-! ## Arrays -/

theorem array_cons (w v : Nat) (vs : List Nat) : array w (v :: vs) = bytes w v ++ array w vs := by simp [array]

theorem array_length (w : Nat) (vs : List Nat) : (array w vs).length = vs.length * w := by
  induction vs with
  | nil => simp [array]
  | cons v vs ih => rw [array_cons, List.length_append, ih, bytes_length, List.length_cons, Nat.add_mul]; omega

theorem array_holds {flash : List Nat} {w : Nat} {vs : List Nat} : ∀ {p : Nat}, holds flash p (array w vs) →
    ∀ {i v : Nat}, vs[i]? = some v → holds flash (p + i * w) (bytes w v) := by
  induction vs with
  | nil => intro p _ i v hv; simp at hv
  | cons x vs ih =>
    intro p h i v hv
    rw [array_cons] at h
    obtain ⟨h1, h2⟩ := holds_append h
    cases i with
    | zero =>
      simp only [List.getElem?_cons_zero, Option.some.injEq] at hv
      subst hv
      simpa using h1
    | succ i =>
      have := ih h2 (i := i) (v := v) (by simpa using hv)
      rw [bytes_length] at this
      rw [Nat.add_mul, Nat.one_mul, show p + (i * w + w) = p + w + i * w by omega]
      exact this

theorem iterate_array {flash : List Nat} {w : Nat} (hw : 0 < w) {vs : List Nat} (hv : ∀ v ∈ vs, v < 256 ^ w) :
    ∀ {p : Nat}, holds flash p (array w vs) →
    iterate flash w (vs.length + 1) p (p + vs.length * w) = some vs := by
  induction vs with
  | nil => intro p _; simp [iterate]
  | cons v vs ih =>
    intro p h
    rw [array_cons] at h
    obtain ⟨h1, h2⟩ := holds_append h
    rw [bytes_length] at h2
    have := ih (fun x hx => hv x (List.mem_cons_of_mem _ hx)) h2
    rw [show p + w + vs.length * w = p + (v :: vs).length * w by rw [List.length_cons, Nat.add_mul]; omega] at this
    rw [List.length_cons, iterate, if_neg (by rw [Nat.add_mul]; omega)]
    simp only [List.length_cons] at this
    rw [this, read_value h1 (hv v List.mem_cons_self) hw]
    rfl

theorem elements_array {w : Nat} : ∀ {vs : List Nat}, (∀ v ∈ vs, v < 256 ^ w) → elements w vs.length (array w vs) = vs := by
  intro vs
  induction vs with
  | nil => intro _; rfl
  | cons v vs ih =>
    intro hv
    have e1 : (array w (v :: vs)).take w = bytes w v := by
      rw [array_cons, List.take_append_of_le_length (by rw [bytes_length]; exact Nat.le_refl _), List.take_of_length_le (by rw [bytes_length]; exact Nat.le_refl _)]
    have e2 : (array w (v :: vs)).drop w = array w vs := by
      rw [array_cons, List.drop_append_of_le_length (by rw [bytes_length]; exact Nat.le_refl _), List.drop_of_length_le (by rw [bytes_length]; exact Nat.le_refl _)]; rfl
    simp only [List.length_cons, elements, e1, e2]
    rw [fromBytes_bytes w v (hv v List.mem_cons_self), ih fun x hx => hv x (List.mem_cons_of_mem _ hx)]

theorem array_drop (w : Nat) (vs : List Nat) (i : Nat) : (array w vs).drop (i * w) = array w (vs.drop i) := by
  induction i generalizing vs with
  | zero => simp
  | succ i ih =>
    cases vs with
    | nil => simp [array]
    | cons v vs =>
      rw [array_cons, Nat.add_mul, Nat.one_mul, Nat.add_comm, ← List.drop_drop,
        List.drop_append_of_le_length (by rw [bytes_length]; exact Nat.le_refl _),
        List.drop_of_length_le (i := w) (l := bytes w v) (by rw [bytes_length]; exact Nat.le_refl _)]
      simpa using ih vs

theorem array_take (w : Nat) (vs : List Nat) (i : Nat) : (array w vs).take (i * w) = array w (vs.take i) := by
  induction i generalizing vs with
  | zero => simp [array]
  | succ i ih =>
    cases vs with
    | nil => simp [array]
    | cons v vs =>
      rw [array_cons, Nat.add_mul, Nat.one_mul, Nat.add_comm, List.take_succ_cons, array_cons, ← ih vs]
      rw [List.take_append, bytes_length, List.take_of_length_le (by rw [bytes_length]; omega)]
      congr 2; omega

/-- an array in program memory with these elements -/
def Spec.arrayAt (flash : List Nat) (a : PArr) (vs : List Nat) : Prop :=
  holds flash a.data (array a.w vs) ∧ vs.length = a.n ∧ 0 < a.w ∧ ∀ v ∈ vs, v < 256 ^ a.w

/-- **An array in program memory is read as it is there**: `a[i]`, a loop over it, and copying where all that is asked
for is there.  Missing: copying more than is left (`array_copy_past_end`). -/
theorem array_reads_partial {flash : List Nat} {a : PArr} {vs : List Nat} (h : Spec.arrayAt flash a vs) :
    (∀ i v, vs[i]? = some v → a.get flash i = some v) ∧ a.all flash = some vs ∧
      (∀ count, a.copyTo flash count 0 = some (vs.take count)) ∧
      (∀ count pos, pos + count ≤ vs.length → a.copyTo flash count pos = some ((vs.drop pos).take count)) := by
  obtain ⟨h1, h2, h3, h4⟩ := h
  have key : ∀ n pos, pos + n ≤ vs.length →
      (memcpyP flash (a.data + pos * a.w) (n * a.w)).map (elements a.w n) = some ((vs.drop pos).take n) := by
    intro n pos hp
    have hle : pos * a.w + n * a.w ≤ (array a.w vs).length := by
      rw [array_length, ← Nat.add_mul]; exact Nat.mul_le_mul_right _ hp
    rw [memcpyP_slice h1 hle, array_drop, array_take]
    have hl : ((vs.drop pos).take n).length = n := by rw [List.length_take, List.length_drop]; omega
    have := elements_array (w := a.w) (vs := (vs.drop pos).take n)
      (fun v hv => h4 v (List.mem_of_mem_drop (List.mem_of_mem_take hv)))
    rw [hl] at this
    simp [this]
  refine ⟨fun i v hv => ?_, ?_, fun count => ?_, fun count pos hc => ?_⟩
  · exact read_value (array_holds h1 hv) (h4 v (List.mem_of_getElem? hv)) h3
  · have := iterate_array h3 h4 h1
    simp only [PArr.all, ← h2]; exact this
  · simp only [PArr.copyTo]
    rw [key _ 0 (by omega)]
    simp only [List.drop_zero, Option.some.injEq]
    rw [List.take_eq_take_iff]; omega
  · simp only [PArr.copyTo]
    rw [show min count a.n = count by omega]
    exact key count pos hc

/-- Meets the hypotheses: three 16-bit numbers at address 1. -/
example : Spec.arrayAt [9, 4, 0, 5, 1, 255, 255, 9] ⟨1, 3, 2⟩ [4, 261, 65535] :=
  ⟨⟨[9], [9], by decide, rfl⟩, rfl, by decide, by decide⟩

/-- **Violation.**  When less is left after `pos` than is asked for, `copy` goes on behind the array: elements that are
not the array's are delivered and counted. -/
theorem array_copy_past_end {flash : List Nat} {a : PArr} {vs more : List Nat} (h : Spec.arrayAt flash a vs)
    (hm : holds flash a.data (array a.w (vs ++ more))) (hv : ∀ v ∈ more, v < 256 ^ a.w) (count pos : Nat)
    (hc : vs.length < pos + count) (hp : 0 < pos) (hpl : pos ≤ vs.length) (hml : pos ≤ more.length) :
    ∃ l extra, a.copyTo flash count pos = some l ∧ l = vs.drop pos ++ extra ∧ extra ≠ [] ∧ extra <+: more ∧
      l.length = min count a.n := by
  obtain ⟨h1, h2, h3, h4⟩ := h
  have h' : Spec.arrayAt flash { a with n := (vs ++ more).length } (vs ++ more) :=
    ⟨hm, rfl, h3, fun v hv' => by
      rcases List.mem_append.mp hv' with hh | hh
      · exact h4 v hh
      · exact hv v hh⟩
  have := (array_reads_partial h').2.2.2 (min count a.n) pos (by rw [List.length_append]; omega)
  simp only [PArr.copyTo] at this
  rw [show min (min count a.n) (vs ++ more).length = min count a.n by rw [List.length_append]; omega] at this
  refine ⟨((vs ++ more).drop pos).take (min count a.n), more.take (min count a.n - (vs.length - pos)), this, ?_, ?_,
    List.take_prefix _ _, ?_⟩
  · rw [List.drop_append_of_le_length hpl, List.take_append, List.length_drop]
    rw [List.take_of_length_le (by rw [List.length_drop]; omega)]
  · intro he
    have := congrArg List.length he
    simp only [List.length_take, List.length_nil] at this
    omega
  · simp only [List.length_take, List.length_drop, List.length_append]; omega

/-- `test_container<T, N>::operator[]` is right for one-byte elements, and for index 0. -/
theorem test_container_partial {flash : List Nat} {a : PArr} {vs : List Nat} (h : Spec.arrayAt flash a vs) (i v : Nat)
    (hi : vs[i]? = some v) (hw : a.w = 1 ∨ i = 0) : a.testGet flash i = some v := by
  have := (array_reads_partial h).1 i v hi
  rcases hw with hw | hw
  · simp only [PArr.testGet, PArr.get, hw, Nat.mul_one] at this ⊢; exact this
  · simp only [PArr.testGet, PArr.get, hw, Nat.zero_mul] at this ⊢; exact this

/-- **Violation.**  For wider elements `c[i]` is element `i * sizeof(T)` where there is one, and otherwise what follows
the array in memory. -/
theorem test_container_wrong {flash : List Nat} {a : PArr} {vs more : List Nat} (h : Spec.arrayAt flash a vs)
    (hm : holds flash a.data (array a.w (vs ++ more))) (hv : ∀ v ∈ more, v < 256 ^ a.w) (i v : Nat)
    (hi : (vs ++ more)[i * a.w]? = some v) : a.testGet flash i = some v := by
  obtain ⟨h1, h2, h3, h4⟩ := h
  refine read_value (array_holds hm hi) ?_ h3
  rcases List.mem_append.mp (List.mem_of_getElem? hi) with hh | hh
  · exact h4 v hh
  · exact hv v hh

/-- Meets the hypotheses: in `test_container<int, 4>{0, 10, 20, 30}`, `c[1]` is 20 and `c[2]` what follows. -/
example : (⟨0, 4, 2⟩ : PArr).testGet (array 2 [0, 10, 20, 30, 77]) 1 = some 20 ∧
    (⟨0, 4, 2⟩ : PArr).testGet (array 2 [0, 10, 20, 30, 77]) 2 = some 77 ∧
    (⟨0, 4, 2⟩ : PArr).get (array 2 [0, 10, 20, 30, 77]) 1 = some 10 := by decide +kernel

end Verif.Pgm
