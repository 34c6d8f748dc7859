import Verif.Streams.OstreamProps

/-!
# C65: output iterators, string insertion through them, and `filter_iterator`

Modelled from `src/estd/iterator.h`, `src/estd/internal/ostream_iterator.h`, `src/estd/internal/iterator/back_insert.h`
and `src/estd/internal/ostream_basic_string.hpp`.

Not expressible here, because the program does not compile: `*it` of an `ostreambuf_iterator` (no `operator*`), `++it` of
an `ostream_iterator` (ostream_iterator.h:30 binds a non-const reference to a const object).
-/
namespace Verif.Streams
open Verif Verif.DynArray

/-! ## `ostreambuf_iterator` -/

/-- `ostreambuf_iterator`, iterator.h:78-79: whether it points at the streambuf, and `last_written`; `none` is an
indeterminate value -/
structure ObIter where
  attached : Bool
  last : Option Int
  deriving DecidableEq, Repr

/-- the default constructor, iterator.h:81-86 -/
def ObIter.null : ObIter := ⟨false, some eofCode⟩

/-- construction from a streambuf or a stream, iterator.h:88-99: `last_written` is not initialised -/
def ObIter.on : ObIter := ⟨true, none⟩

/-- `operator=(c)`, iterator.h:101-107 -/
def ObIter.assign {σ : Type} (I : OutImpl σ) (it : ObIter) (s : σ) (ch : Ch) : Res (ObIter × σ) :=
  if it.attached then (I.sputc s ch).bind fun (s', r) => .ok ({ it with last := some r }, s')
  else .ok (it, s)

/-- prefix `++`, iterator.h:110-113: the iterator itself -/
def ObIter.pre (it : ObIter) : ObIter := it

/-- postfix `++`, iterator.h:116-119: the iterator left behind, and the copy that is returned -/
def ObIter.post (it : ObIter) : ObIter × ObIter := (it, it)

/-- `failed()`, iterator.h:122-125; reading an indeterminate `int_type` is undefined -/
def ObIter.failed (it : ObIter) : Res Bool :=
  match it.last with
  | none => .ub
  | some v => .ok (v != eofCode)

/-- one write through an iterator: `it = c`, `++it = c` or `it++ = c` -/
inductive ObForm where
  | plain
  | pre
  | post
  deriving DecidableEq, Repr

/-- a write; through `it++` it is the returned copy that is assigned to, and then destroyed -/
def ObIter.write {σ : Type} (I : OutImpl σ) (it : ObIter) (s : σ) : ObForm × Ch → Res (ObIter × σ)
  | (.plain, ch) => it.assign I s ch
  | (.pre, ch) => it.pre.assign I s ch
  | (.post, ch) => (it.post.2.assign I s ch).bind fun (_, s') => .ok (it.post.1, s')

/-- several writes -/
def ObIter.writes {σ : Type} (I : OutImpl σ) : ObIter → σ → List (ObForm × Ch) → Res (ObIter × σ)
  | it, s, [] => .ok (it, s)
  | it, s, w :: ws => (it.write I s w).bind fun (it', s') => ObIter.writes I it' s' ws

/-- Writing through an iterator on a streambuf is writing to the streambuf, for every streambuf and in every form:
failures and undefined steps included.  The results of the puts are the second component of the history. -/
theorem obiter_writes {σ : Type} (t : Traits) (I : OutImpl σ) (ws : List (ObForm × Ch)) : ∀ (last : Option Int) (s : σ),
    ((ObIter.mk true last).writes I s ws).bind (fun r => .ok r.2)
      = (I.run t s (ws.map fun w => .putc w.2)).bind (fun r => .ok r.1) := by
  induction ws with
  | nil => intro last s; rfl
  | cons w ws ih =>
    intro last s
    obtain ⟨f, ch⟩ := w
    cases f with
    | plain =>
      simp only [ObIter.writes, ObIter.write, List.map_cons]
      simp only [ObIter.assign, if_true, OutImpl.run, OutImpl.step]
      cases I.sputc s ch with
      | abort => rfl
      | ub => rfl
      | ok p =>
        simp only [Res.bind_ok]
        rw [ih]
        cases I.run t p.1 (ws.map fun w => OutOp.putc w.2) <;> rfl
    | pre =>
      simp only [ObIter.writes, ObIter.write, ObIter.pre, List.map_cons]
      simp only [ObIter.assign, if_true, OutImpl.run, OutImpl.step]
      cases I.sputc s ch with
      | abort => rfl
      | ub => rfl
      | ok p =>
        simp only [Res.bind_ok]
        rw [ih]
        cases I.run t p.1 (ws.map fun w => OutOp.putc w.2) <;> rfl
    | post =>
      simp only [ObIter.writes, ObIter.write, ObIter.post, List.map_cons]
      simp only [ObIter.assign, if_true, OutImpl.run, OutImpl.step]
      cases I.sputc s ch with
      | abort => rfl
      | ub => rfl
      | ok p =>
        simp only [Res.bind_ok]
        rw [ih]
        cases I.run t p.1 (ws.map fun w => OutOp.putc w.2) <;> rfl

/-- Into a span: the characters land behind what is already there, in order, until the span is full; the rest is
dropped and nothing else changes. -/
theorem obiter_span (t : Traits) (ws : List (ObForm × Ch)) : ∀ (last : Option Int) (s : OutSpan), s.pos ≤ s.mem.length →
    ∃ last', (ObIter.mk true last).writes (spanOut t) s ws =
      .ok (⟨true, last'⟩,
        let kept := (ws.map (·.2)).take (s.mem.length - s.pos)
        ⟨s.mem.take s.pos ++ kept ++ s.mem.drop (s.pos + kept.length), s.pos + kept.length⟩) := by
  induction ws with
  | nil => intro last s _; exact ⟨last, by simp [ObIter.writes]⟩
  | cons w ws ih =>
    intro last s hp
    obtain ⟨f, ch⟩ := w
    have step : ∀ last, ∃ l1, (ObIter.mk true last).write (spanOut t) s (f, ch) = .ok (⟨true, l1⟩,
        if s.pos ≥ s.mem.length then s else ⟨s.mem.set s.pos ch, s.pos + 1⟩) := by
      intro last
      by_cases hf : s.pos ≥ s.mem.length
      · cases f <;> simp [ObIter.write, ObIter.assign, ObIter.pre, ObIter.post, spanOut, OutSpan.sputc, hf]
      · cases f <;> simp [ObIter.write, ObIter.assign, ObIter.pre, ObIter.post, spanOut, OutSpan.sputc, hf]
    obtain ⟨l1, e⟩ := step last
    simp only [ObIter.writes, e, Res.bind_ok]
    by_cases hf : s.pos ≥ s.mem.length
    · obtain ⟨l2, e2⟩ := ih l1 s hp
      have h0 : s.mem.length - s.pos = 0 := by omega
      rw [if_pos hf]
      refine ⟨l2, ?_⟩
      rw [e2, h0]; simp
    · rw [if_neg hf]
      obtain ⟨l2, e2⟩ := ih l1 ⟨s.mem.set s.pos ch, s.pos + 1⟩ (by simp; omega)
      refine ⟨l2, ?_⟩
      rw [e2]
      obtain ⟨k, hk⟩ : ∃ k, s.mem.length - s.pos = k + 1 := ⟨s.mem.length - s.pos - 1, by omega⟩
      have hk' : s.mem.length - (s.pos + 1) = k := by omega
      simp only [List.length_set, hk, hk', List.map_cons, List.take_succ_cons, List.length_cons]
      rw [set_take_succ _ _ _ (by omega)]
      simp only [List.append_assoc, List.cons_append, List.nil_append, Res.ok.injEq, Prod.mk.injEq, OutSpan.mk.injEq, true_and]
      refine ⟨?_, by omega⟩
      rw [List.drop_set_of_lt (by omega)]
      congr 4; omega

example : (ObIter.on).writes (spanOut ⟨true, true⟩) ⟨[0, 0, 0, 9], 1⟩ [(.post, 104), (.pre, 105), (.plain, 106), (.plain, 107)]
    = .ok (⟨true, some (-1)⟩, ⟨[0, 104, 105, 106], 4⟩) := by decide +kernel

/-- A default-constructed iterator writes nowhere. -/
theorem obiter_null {σ : Type} (I : OutImpl σ) (ws : List (ObForm × Ch)) (s : σ) :
    ObIter.null.writes I s ws = .ok (ObIter.null, s) := by
  induction ws with
  | nil => rfl
  | cons w ws ih =>
    obtain ⟨f, ch⟩ := w
    cases f <;> simpa [ObIter.writes, ObIter.write, ObIter.assign, ObIter.pre, ObIter.post, ObIter.null] using ih

/-- the standard's `failed()`: some character written through the iterator was refused -/
def Spec.refused {σ : Type} (I : OutImpl σ) : σ → List Ch → DynArray.Res Bool
  | _, [] => .ok false
  | s, ch :: r => (I.sputc s ch).bind fun (s', v) => if v = eofCode then .ok true else Spec.refused I s' r

/-- **Violation.**  After a character is written with `it = c` or `++it = c`, `failed()` says the opposite: true if the
streambuf took the character, false if it refused. -/
theorem failed_inverted {σ : Type} (I : OutImpl σ) (last : Option Int) (s s' : σ) (it : ObIter) (f : ObForm) (hf : f ≠ .post)
    (ch : Ch) (h : (ObIter.mk true last).write I s (f, ch) = .ok (it, s')) :
    ∃ b, Spec.refused I s [ch] = .ok b ∧ it.failed = .ok !b := by
  have h' : (ObIter.mk true last).assign I s ch = .ok (it, s') := by cases f <;> first | exact h | exact absurd rfl hf
  simp only [ObIter.assign, if_true] at h'
  cases hs : I.sputc s ch with
  | abort => rw [hs] at h'; cases h'
  | ub => rw [hs] at h'; cases h'
  | ok p =>
    obtain ⟨s1, r⟩ := p
    rw [hs] at h'
    simp only [Res.bind_ok, Res.ok.injEq, Prod.mk.injEq] at h'
    obtain ⟨rfl, rfl⟩ := h'
    simp only [Spec.refused, hs, Res.bind_ok, ObIter.failed]
    by_cases hr : r = eofCode
    · exact ⟨true, by simp [hr], by simp [hr]⟩
    · exact ⟨false, by simp [hr], by simp [hr]⟩

/-- a write that is taken makes it "fail", one that is refused does not -/
example : (((ObIter.on).write (spanOut ⟨true, true⟩) ⟨[0], 0⟩ (.plain, 104)).bind fun r => r.1.failed) = .ok true ∧
    (((ObIter.on).write (spanOut ⟨true, true⟩) ⟨[], 0⟩ (.plain, 104)).bind fun r => r.1.failed) = .ok false := by
  decide +kernel

/-- **Violation.**  A character written through `it++` leaves no trace in `it`: however many are written, and whether
the streambuf took them or not, `failed()` is what it was before. -/
theorem failed_forgets_post {σ : Type} (I : OutImpl σ) (cs : List Ch) : ∀ (it it' : ObIter) (s s' : σ),
    it.writes I s (cs.map fun ch => (.post, ch)) = .ok (it', s') → it'.failed = it.failed := by
  induction cs with
  | nil => intro it it' s s' h; simp only [List.map_nil, ObIter.writes, Res.ok.injEq, Prod.mk.injEq] at h; rw [h.1]
  | cons c cs ih =>
    intro it it' s s' h
    simp only [List.map_cons, ObIter.writes, ObIter.write, ObIter.post] at h
    cases ha : it.assign I s c with
    | abort => rw [ha] at h; cases h
    | ub => rw [ha] at h; cases h
    | ok p => rw [ha] at h; exact ih _ _ _ _ h

/-- **Violation.**  Asking an iterator built on a streambuf whether it failed is undefined until the first `it = c` or
`++it = c`. -/
theorem failed_uninitialised {σ : Type} (I : OutImpl σ) (cs : List Ch) (it : ObIter) (s s' : σ)
    (h : ObIter.on.writes I s (cs.map fun ch => (.post, ch)) = .ok (it, s')) : it.failed = .ub :=
  failed_forgets_post I cs _ _ _ _ h

/-- the hypothesis is met by real histories, here one in which both characters are refused -/
example : ObIter.on.writes (spanOut ⟨true, true⟩) ⟨[], 0⟩ ([104, 105].map fun ch => (.post, ch)) = .ok (ObIter.on, ⟨[], 0⟩) := by
  decide +kernel

/-! ## `back_insert_iterator` -/

/-- `back_insert_iterator::operator=`, back_insert.h:23-26: `push_back`, and then the end of a function that must return
a reference but has no `return`: undefined -/
def backInsertAssign {α : Type} [DecidableEq α] (c : Cfg α) (a : Arr α) (v : α) : Res (Arr α) := (pushBack c a v).bind fun _ => .ub

/-- **Violation.**  No assignment through a `back_insert_iterator` is defined, whatever the container and the value. -/
theorem back_insert_undefined {α : Type} [DecidableEq α] (c : Cfg α) (a a' : Arr α) (v : α) : backInsertAssign c a v ≠ .ok a' := by
  unfold backInsertAssign
  cases pushBack c a v <;> exact fun h => by cases h

/-! ## `ostream_iterator` and strings that prefer it -/

section
variable {σ : Type} {t : Traits} {c : IosCfg} {K : OutImpl σ} {R : σ → List Ch → Prop} {ok : Ch → Prop} {N : Nat}

/-- `*it++ = value` with `T = char`, ostream_iterator.h:24-28, 31-32: `out << value` -/
def OS.iterAssign (t : Traits) (c : IosCfg) (K : OutImpl σ) (os : OS σ) (ch : Ch) : Res (OS σ) := os.outChar t c K ch

/-- `estd::copy(begin, end, ostream_iterator)`, algorithm.h:92-103, and so `out_string_helper_iterated`,
ostream_basic_string.hpp:14-21: insertion of a string whose allocator prefers iterators -/
def OS.outIterated (t : Traits) (c : IosCfg) (K : OutImpl σ) : OS σ → List Ch → Res (OS σ)
  | os, [] => .ok os
  | os, ch :: r => (os.iterAssign t c K ch).bind fun os' => OS.outIterated t c K os' r

/-- what copying characters through an `ostream_iterator` puts on the stream: the first one right adjusted in the
pending width, the rest as they are -/
def Spec.iterated (width : Nat) (fill : Ch) : List Ch → List Ch
  | [] => []
  | ch :: r => List.replicate (width - 1) fill ++ ch :: r

/-- **Copying through an `ostream_iterator` is inserting the characters**: all of them, in order, once; a pending width
applies to the first character alone. -/
theorem iterated_output (hK : Accepts t K R ok N) (text : List Ch) : ∀ (os : OS σ) (l : List Ch), R os.buf l →
    l.length + (Spec.iterated os.ios.width (os.getFill t) text).length ≤ N →
    (∀ x ∈ Spec.iterated os.ios.width (os.getFill t) text, ok x) →
    ∃ b, os.outIterated t c K text
        = .ok { os with buf := b, ios := { os.ios with width := if text = [] then os.ios.width else 0 } } ∧
      R b (l ++ Spec.iterated os.ios.width (os.getFill t) text) := by
  induction text with
  | nil => intro os l hR _ _; exact ⟨os.buf, by simp [OS.outIterated], by simpa [Spec.iterated] using hR⟩
  | cons ch r ih =>
    intro os l hR hN hok
    simp only [Spec.iterated] at hN hok ⊢
    have hfield : Spec.field os.ios.width (os.getFill t) false [ch] = List.replicate (os.ios.width - 1) (os.getFill t) ++ [ch] := by
      simp [Spec.field]
    obtain ⟨b1, e1, e2⟩ := char_output (c := c) hK os l hR ch (by simp at hN; omega)
      (by rw [hfield]; intro x hx; apply hok; simp at hx ⊢; rcases hx with h | h <;> simp [h])
    rw [hfield] at e2
    have key := ih ({ os with buf := b1, ios := { os.ios with width := 0 } } : OS σ) _ e2
    have hit : Spec.iterated ({ os with buf := b1, ios := { os.ios with width := 0 } } : OS σ).ios.width
        (OS.getFill t ({ os with buf := b1, ios := { os.ios with width := 0 } } : OS σ)) r = r := by cases r <;> simp [Spec.iterated]
    rw [hit] at key
    obtain ⟨b2, e3, e4⟩ := key (by simp at hN ⊢; omega) (fun x hx => hok x (by simp [hx]))
    refine ⟨b2, ?_, ?_⟩
    · simp only [OS.outIterated, OS.iterAssign, e1, Res.bind_ok, e3]
      by_cases hr : r = [] <;> simp [hr]
    · have : l ++ (List.replicate (os.ios.width - 1) (os.getFill t) ++ [ch]) ++ r
          = l ++ (List.replicate (os.ios.width - 1) (os.getFill t) ++ ch :: r) := by simp
      rw [← this]; exact e4

/-- Without a width, a string put through iterators is the same as one put through `write`. -/
theorem iterated_same (hK : Accepts t K R ok N) (os : OS σ) (l text : List Ch) (hR : R os.buf l) (hw : os.ios.width = 0)
    (hN : l.length + text.length ≤ N) (hok : ∀ ch ∈ text, ok ch) :
    ∃ b1 b2, os.outIterated t c K text = .ok { os with buf := b1 } ∧ os.outStr t c K text = .ok { os with buf := b2 } ∧
      R b1 (l ++ text) ∧ R b2 (l ++ text) := by
  have hit : Spec.iterated os.ios.width (os.getFill t) text = text := by cases text <;> simp [Spec.iterated, hw]
  obtain ⟨b1, e1, e2⟩ := iterated_output (c := c) hK text os l hR (by rw [hit]; exact hN) (by rw [hit]; exact hok)
  obtain ⟨b2, e3, e4⟩ := str_output_ignores_width (c := c) hK os l text hR hN hok
  rw [hit] at e2
  refine ⟨b1, b2, ?_, e3, e2, e4⟩
  rw [e1]
  have : (if text = [] then os.ios.width else 0) = os.ios.width := by split <;> simp [hw]
  simp [this]

/-- **Violation.**  With a width, neither way pads the string to that width: through iterators a non-empty text of `n`
characters takes `width - 1 + n` cells (too many unless `n = 1` or the width is at most 1), through `write` it takes `n`. -/
theorem iterated_overfills (hK : Accepts t K R ok N) (os : OS σ) (l text : List Ch) (hR : R os.buf l) (hne : text ≠ [])
    (hw : 1 < os.ios.width) (h2 : 2 ≤ text.length)
    (hN : l.length + (os.ios.width - 1 + text.length) ≤ N)
    (hok : ∀ x, x = os.getFill t ∨ x ∈ text → ok x) :
    ∃ b out, os.outIterated t c K text = .ok { os with buf := b, ios := { os.ios with width := 0 } } ∧ R b (l ++ out) ∧
      out.length = os.ios.width - 1 + text.length ∧
      out.length > (Spec.field os.ios.width (os.getFill t) false text).length := by
  have hl : (Spec.iterated os.ios.width (os.getFill t) text).length = os.ios.width - 1 + text.length := by
    cases text with
    | nil => exact absurd rfl hne
    | cons a r => simp [Spec.iterated]
  obtain ⟨b, e1, e2⟩ := iterated_output (c := c) hK text os l hR (by rw [hl]; exact hN) (by
    intro x hx
    apply hok
    cases text with
    | nil => exact absurd rfl hne
    | cons a r =>
      simp only [Spec.iterated, List.mem_append, List.mem_replicate, List.mem_cons] at hx
      rcases hx with h | h
      · exact .inl h.2
      · exact .inr (by simpa using h))
  refine ⟨b, _, ?_, e2, hl, ?_⟩
  · rw [e1]; simp [hne]
  · rw [hl, Spec.field_length]; omega

end

/-- the sinks exist: `ab` at width 4 on a span, through iterators and through `write` -/
example : (OS.outIterated ⟨true, true⟩ ⟨false⟩ (spanOut ⟨true, true⟩)
      ((OS.init (⟨List.replicate 8 0, 0⟩ : OutSpan)).setw ⟨false⟩ 4) [97, 98]).bind (fun os => .ok os.buf)
      = .ok ⟨[32, 32, 32, 97, 98, 0, 0, 0], 5⟩ ∧
    (OS.outStr ⟨true, true⟩ ⟨false⟩ (spanOut ⟨true, true⟩)
      ((OS.init (⟨List.replicate 8 0, 0⟩ : OutSpan)).setw ⟨false⟩ 4) [97, 98]).bind (fun os => .ok os.buf)
      = .ok ⟨[97, 98, 0, 0, 0, 0, 0, 0], 2⟩ := by decide +kernel

/-! ## `filter_iterator` -/

/-- `filter_iterator`, iterator.h:131-146, over a pointer into `base` -/
structure FilterIter where
  at_ : Nat
  deriving DecidableEq, Repr

/-- `operator++`, iterator.h:149-154 -/
def FilterIter.inc (it : FilterIter) : FilterIter := ⟨it.at_ + 1⟩

/-- postfix `++`, iterator.h:158-163: the iterator left behind, and the copy returned -/
def FilterIter.incPost (it : FilterIter) : FilterIter × FilterIter := (it.inc, it)

/-- `operator*`, iterator.h:165-168: what the predicate returns, converted to the value type of the base -/
def FilterIter.deref {α β : Type} (p : α → β) (conv : β → α) (base : List α) (it : FilterIter) : Option α :=
  (rd base it.at_).map fun x => conv (p x)

/-- `*it++`, repeated -/
def FilterIter.collect {α β : Type} (p : α → β) (conv : β → α) (base : List α) : Nat → FilterIter → Option (List α)
  | 0, _ => some []
  | n + 1, it =>
    match it.incPost.2.deref p conv base with
    | none => none
    | some x => (FilterIter.collect p conv base n it.incPost.1).map (x :: ·)

/-- **What it does**: the `i`th element seen is the predicate's answer for the `i`th element of the base, for every base
and predicate; nothing is skipped. -/
theorem filter_maps {α β : Type} (p : α → β) (conv : β → α) (base : List α) : ∀ (n i : Nat), i + n ≤ base.length →
    FilterIter.collect p conv base n ⟨i⟩ = some (((base.drop i).take n).map fun x => conv (p x)) := by
  intro n
  induction n with
  | zero => intro i _; simp [FilterIter.collect]
  | succ n ih =>
    intro i hi
    have hlt : i < base.length := by omega
    simp only [FilterIter.collect, FilterIter.incPost, FilterIter.deref, FilterIter.inc, rd_lt hlt, Option.map_some]
    rw [ih (i + 1) (by omega), List.drop_eq_getElem_cons hlt, List.take_succ_cons]
    simp

/-- **Violation** of the name (boost's `filter_iterator` is cited): with a predicate on the elements the iterator does
not visit the elements that satisfy it; it visits the predicate's answers, one per element of the base.  Already the
number of steps to the end of the base differs from the number of elements kept, whenever one is not kept. -/
theorem filter_does_not_filter {α : Type} (p : α → Bool) (conv : Bool → α) (base : List α) (x : α) (hx : x ∈ base) (hp : p x = false) :
    ∃ seen, FilterIter.collect p conv base base.length ⟨0⟩ = some seen ∧ (base.filter p).length < seen.length := by
  refine ⟨_, filter_maps p conv base base.length 0 (by omega), ?_⟩
  simp only [List.length_map, List.drop_zero, List.take_length]
  by_cases hl : (base.filter p).length < base.length
  · exact hl
  · have h1 := List.length_filter_le p base
    have h2 := List.length_filter_eq_length_iff.mp (show (base.filter p).length = base.length by omega) x hx
    rw [hp] at h2; cases h2

example : FilterIter.collect (fun n : Nat => decide (n % 2 = 0)) (fun b => if b then 1 else 0) [4, 7, 6] 3 ⟨0⟩ = some [1, 0, 1] ∧
    [4, 7, 6].filter (fun n : Nat => decide (n % 2 = 0)) = [4, 6] := by decide

end Verif.Streams
