import Verif.Streams.Out

/-!
# C35: output stream buffers deliver the accepted characters in order

The specification: what the results of a history say was accepted, `Spec.acceptedAll`.
-/
namespace Verif.Streams
open Verif Verif.DynArray

/-- the characters an operation reported as accepted: `sputc` by returning something other than `eof()`, `sputn` by its
count -/
def Spec.accepted : OutOp → OutRes → List Ch
  | .putc ch, .int r => if r = eofCode then [] else [ch]
  | .putn text, .count n => text.take n
  | _, _ => []

/-- … and a whole history, in order -/
def Spec.acceptedAll : List OutOp → List OutRes → List Ch
  | o :: os, r :: rs => Spec.accepted o r ++ Spec.acceptedAll os rs
  | _, _ => []

/-- the characters an operation offers -/
def Spec.offered : OutOp → List Ch
  | .putc ch => [ch]
  | .putn text => text
  | .sync => []

/-- a character whose `to_int_type` is not mistaken for `eof()` -/
def Traits.Tellable (t : Traits) (ch : Ch) : Prop := t.toInt ch ≠ eofCode

instance (t : Traits) (ch : Ch) : Decidable (t.Tellable ch) := inferInstanceAs (Decidable (_ ≠ _))

/-! ## The wrapper -/

/-- With an `xsputn` that takes everything, the wrapper's `sputn` is `xsputn`. -/
theorem sputn_all {σ : Type} (t : Traits) (I : OutImpl σ) (s s' : σ) (text : List Ch)
    (h : I.xsputn s text = .ok (s', text.length)) : I.sputn t s text = .ok (s', text.length) := by
  unfold OutImpl.sputn; rw [h]; simp

/-- **`sputn` is honest for every honest implementation**: if `xsputn` delivers exactly the prefix it reports and
`overflow` delivers its character exactly when it does not return `eof()`, then `sputn` delivers exactly the prefix it
reports, whatever the implementation. -/
theorem sputn_honest {σ : Type} (t : Traits) (I : OutImpl σ) (out : σ → List Ch)
    (hx : ∀ s text s' n, I.xsputn s text = .ok (s', n) → n ≤ text.length ∧ out s' = out s ++ text.take n)
    (ho : ∀ s ch s' r, I.overflow s (t.promote ch) = .ok (s', r) → out s' = if r = eofCode then out s else out s ++ [ch])
    (s : σ) (text : List Ch) (s' : σ) (n : Nat) (h : I.sputn t s text = .ok (s', n)) :
    n ≤ text.length ∧ out s' = out s ++ text.take n := by
  unfold OutImpl.sputn at h
  cases hx1 : I.xsputn s text with
  | abort => rw [hx1] at h; cases h
  | ub => rw [hx1] at h; cases h
  | ok p =>
    obtain ⟨s1, w⟩ := p
    obtain ⟨h1, h2⟩ := hx _ _ _ _ hx1
    rw [hx1] at h
    simp only [Res.bind_ok] at h
    split at h
    · next hw =>
      rw [rd_lt hw] at h
      simp only [Res.ofOption_some, Res.bind_ok] at h
      cases ho1 : I.overflow s1 (t.promote text[w]) with
      | abort => rw [ho1] at h; cases h
      | ub => rw [ho1] at h; cases h
      | ok p =>
        obtain ⟨s2, r⟩ := p
        have h3 := ho _ _ _ _ ho1
        rw [ho1] at h
        simp only [Res.bind_ok] at h
        split at h
        · next hr =>
          rw [if_neg hr] at h3
          cases hx2 : I.xsputn s2 (text.drop (w + 1)) with
          | abort => rw [hx2] at h; cases h
          | ub => rw [hx2] at h; cases h
          | ok p =>
            obtain ⟨s3, m⟩ := p
            obtain ⟨h4, h5⟩ := hx _ _ _ _ hx2
            rw [hx2] at h
            simp only [Res.bind_ok, Res.ok.injEq, Prod.mk.injEq] at h
            obtain ⟨rfl, rfl⟩ := h
            simp only [List.length_drop] at h4
            refine ⟨by omega, ?_⟩
            rw [h5, h3, h2, List.append_assoc, List.append_assoc]
            congr 1
            rw [show w + 1 + m = w + (1 + m) by omega, List.take_add]
            congr 1
            rw [List.drop_eq_getElem_cons hw, show 1 + m = m + 1 by omega, List.take_succ_cons]
            rfl
        · next hr =>
          have hr' : r = eofCode := by simpa using hr
          rw [if_pos hr'] at h3
          simp only [Res.ok.injEq, Prod.mk.injEq] at h
          obtain ⟨rfl, rfl⟩ := h
          exact ⟨h1, by rw [h3, h2]⟩
    · simp only [Res.ok.injEq, Prod.mk.injEq] at h
      obtain ⟨rfl, rfl⟩ := h
      exact ⟨h1, h2⟩

/-- an implementation that takes two characters at a time and has a working `overflow`: `sputn` uses all three steps -/
example : (OutImpl.mk (σ := List Ch) (fun s x => .ok (s ++ x.take 2, (x.take 2).length)) (fun s c => .ok (s ++ [toChar c], 0))
    (fun s c => .ok (s ++ [c], 0)) noSync).sputn ⟨true, true⟩ [] [1, 2, 3, 4, 5, 6] = .ok ([1, 2, 3, 4, 5], 5) := by
  decide +kernel

/-! ## Span -/

theorem span_putn (t : Traits) (s : OutSpan) (text : List Ch) :
    (spanOut t).sputn t s text =
      if s.pos + text.length ≤ s.mem.length then
        .ok (⟨s.mem.take s.pos ++ text ++ s.mem.drop (s.pos + text.length), s.pos + text.length⟩, text.length)
      else .ub := by
  unfold OutImpl.sputn
  simp only [spanOut, OutSpan.xsputn]
  split <;> simp

/-- **Violation.**  A bulk put that does not fit is not cut short: it writes outside the span. -/
theorem span_putn_overrun (t : Traits) (s : OutSpan) (text : List Ch) (h : s.mem.length < s.pos + text.length) :
    (spanOut t).sputn t s text = .ub := by
  rw [span_putn, if_neg (by omega)]

theorem span_step (t : Traits) (s s' : OutSpan) (o : OutOp) (r : OutRes) (hp : s.pos ≤ s.mem.length)
    (ht : ∀ ch, o = .putc ch → t.Tellable ch) (h : (spanOut t).step t s o = .ok (s', r)) :
    s'.mem.take s'.pos = s.mem.take s.pos ++ Spec.accepted o r ∧
      s'.pos = s.pos + (Spec.accepted o r).length ∧ s'.pos ≤ s'.mem.length ∧ s'.mem.length = s.mem.length ∧
      s'.mem.drop s'.pos = s.mem.drop s'.pos := by
  cases o with
  | putc ch =>
    unfold OutImpl.step at h
    simp only [spanOut, OutSpan.sputc] at h
    split at h
    · simp only [Res.bind_ok, Res.ok.injEq, Prod.mk.injEq] at h
      obtain ⟨rfl, rfl⟩ := h
      simp [Spec.accepted, hp]
    · next hlt =>
      simp only [Res.bind_ok, Res.ok.injEq, Prod.mk.injEq] at h
      obtain ⟨rfl, rfl⟩ := h
      have := ht ch rfl
      unfold Traits.Tellable at this
      simp only [Spec.accepted, this, ↓reduceIte, List.length_singleton, List.length_set]
      refine ⟨set_take_succ _ _ _ (by omega), trivial, by omega, trivial, ?_⟩
      rw [List.drop_set_of_lt (by omega)]
  | putn text =>
    unfold OutImpl.step at h
    simp only [span_putn] at h
    split at h
    · next hfit =>
      simp only [Res.bind_ok, Res.ok.injEq, Prod.mk.injEq] at h
      obtain ⟨rfl, rfl⟩ := h
      have hl : (s.mem.take s.pos ++ text).length = s.pos + text.length := by simp; omega
      simp only [Spec.accepted, List.take_length]
      refine ⟨?_, trivial, ?_, ?_, ?_⟩
      · rw [List.take_append_of_le_length (by omega), List.take_of_length_le (by omega)]
      · simp; omega
      · simp; omega
      · rw [List.drop_append_of_le_length (by omega), List.drop_of_length_le (by omega), List.nil_append]
    · cases h
  | sync =>
    unfold OutImpl.step at h
    simp only [spanOut, noSync, Res.bind_ok, Res.ok.injEq, Prod.mk.injEq] at h
    obtain ⟨rfl, rfl⟩ := h
    simp [Spec.accepted, hp]

/-- **Output to a span**: after any defined history, the characters before the put position are those that were there
plus exactly the accepted ones, in order; everything behind is untouched and the span has not grown.  Missing from the
property: bulk puts that do not fit (`span_putn_overrun`) and single characters that read as `eof()`
(`span_ff_misreported`). -/
theorem span_history_partial (t : Traits) (ops : List OutOp) : ∀ (s s' : OutSpan) (rs : List OutRes),
    s.pos ≤ s.mem.length → (∀ ch, OutOp.putc ch ∈ ops → t.Tellable ch) → (spanOut t).run t s ops = .ok (s', rs) →
    s'.mem.take s'.pos = s.mem.take s.pos ++ Spec.acceptedAll ops rs ∧
      s'.pos = s.pos + (Spec.acceptedAll ops rs).length ∧ s'.pos ≤ s'.mem.length ∧ s'.mem.length = s.mem.length ∧
      s'.mem.drop s'.pos = s.mem.drop s'.pos := by
  induction ops with
  | nil =>
    intro s s' rs hp _ h
    simp only [OutImpl.run, Res.ok.injEq, Prod.mk.injEq] at h
    obtain ⟨rfl, rfl⟩ := h
    simp [Spec.acceptedAll, hp]
  | cons o ops ih =>
    intro s s' rs hp ht h
    rw [OutImpl.run] at h
    cases hs : (spanOut t).step t s o with
    | abort => rw [hs] at h; cases h
    | ub => rw [hs] at h; cases h
    | ok p =>
      obtain ⟨s1, r⟩ := p
      obtain ⟨a1, a2, a3, a4, a5⟩ := span_step t s s1 o r hp (fun ch he => ht ch (by simp [he])) hs
      rw [hs] at h
      simp only [Res.bind_ok] at h
      cases hr : (spanOut t).run t s1 ops with
      | abort => rw [hr] at h; cases h
      | ub => rw [hr] at h; cases h
      | ok p =>
        obtain ⟨s2, xs⟩ := p
        rw [hr] at h
        simp only [Res.bind_ok, Res.ok.injEq, Prod.mk.injEq] at h
        obtain ⟨rfl, rfl⟩ := h
        obtain ⟨b1, b2, b3, b4, b5⟩ := ih s1 s2 xs a3 (fun ch he => ht ch (by simp [he])) hr
        simp only [Spec.acceptedAll, List.length_append]
        refine ⟨by rw [b1, a1, List.append_assoc], by omega, b3, by omega, ?_⟩
        rw [b5]
        have e : s2.pos = s1.pos + (s2.pos - s1.pos) := by omega
        rw [e, ← List.drop_drop, a5, List.drop_drop]

example : (spanOut ⟨false, true⟩).run ⟨false, true⟩ ⟨[0, 0, 0, 0], 0⟩ [.putc 97, .putn [98, 99], .sync, .putc 0xFF, .putc 100]
    = .ok (⟨[97, 98, 99, 0xFF], 4⟩, [.int 97, .count 2, .int 0, .int 255, .int (-1)]) := by decide +kernel

/-- Every put of a single character, and every bulk put that fits, is defined. -/
theorem span_defined (t : Traits) (s : OutSpan) (o : OutOp) (hp : s.pos ≤ s.mem.length)
    (hfit : ∀ text, o = .putn text → s.pos + text.length ≤ s.mem.length) :
    ∃ s' r, (spanOut t).step t s o = .ok (s', r) := by
  cases o with
  | putc ch =>
    unfold OutImpl.step; simp only [spanOut, OutSpan.sputc]
    split <;> exact ⟨_, _, rfl⟩
  | putn text =>
    unfold OutImpl.step; simp only [span_putn, if_pos (hfit text rfl)]
    exact ⟨_, _, rfl⟩
  | sync => exact ⟨_, _, rfl⟩

/-- **Violation.**  With the library's own traits and signed `char`, storing a 0xFF character succeeds and is reported
as failure. -/
theorem span_ff_misreported (s : OutSpan) (hp : s.pos < s.mem.length) :
    OutSpan.sputc ⟨true, true⟩ s 0xFF = .ok (⟨s.mem.set s.pos 0xFF, s.pos + 1⟩, eofCode) := by
  unfold OutSpan.sputc; rw [if_neg (by omega)]; rfl

/-- A full span refuses further characters without touching anything. -/
theorem span_full (t : Traits) (s : OutSpan) (ch : Ch) (hp : s.mem.length ≤ s.pos) :
    s.sputc t ch = .ok (s, eofCode) := by
  unfold OutSpan.sputc; rw [if_pos hp]

/-- seeks inside the span put the position where they say -/
theorem span_seek (s : OutSpan) (k : Nat) (hk : k ≤ s.mem.length) (hl : s.mem.length < 2 ^ 64) :
    s.seek .beg k = { s with pos := k } ∧ s.seek .cur ((k : Int) - s.pos) = { s with pos := k } ∧
      s.seek .end_ ((k : Int) - s.mem.length) = { s with pos := k } := by
  unfold OutSpan.seek
  refine ⟨?_, ?_, ?_⟩ <;> simp only [OutSpan.mk.injEq, true_and] <;> omega

/-- a seek to before the beginning of the span leaves a position of nearly 2^64: single characters are then refused, and
storing a block is undefined -/
theorem span_seek_before (t : Traits) (s : OutSpan) (k : Nat) (hk : 0 < k) (hl : k + s.mem.length < 2 ^ 63)
    (d : Dir) (off : Int) (ho : (match d with | .beg => (0 : Int) | .cur => s.pos | .end_ => s.mem.length) + off = -k) :
    (s.seek d off).pos = 2 ^ 64 - k ∧ (s.seek d off).mem = s.mem ∧
      (∀ ch, (s.seek d off).sputc t ch = .ok (s.seek d off, eofCode)) ∧
      ∀ text, text ≠ [] → (s.seek d off).xsputn text = .ub := by
  have h1 : (s.seek d off).pos = 2 ^ 64 - k := by
    cases d <;> simp only [OutSpan.seek] at ho ⊢ <;> omega
  have h2 : (s.seek d off).mem = s.mem := by cases d <;> rfl
  refine ⟨h1, h2, fun ch => span_full t _ ch (by rw [h1, h2]; omega), fun text _ => ?_⟩
  unfold OutSpan.xsputn
  rw [if_neg (by rw [h1, h2]; omega)]

example : (OutSpan.seek ⟨[97, 98], 1⟩ .cur (-3)).pos = 2 ^ 64 - 2 := by decide +kernel

/-! ## String -/

/-- what fits in a string and can be represented in it -/
def Spec.Fits (c : Cfg Ch) (cap : Nat) (l : List Ch) (ops : List OutOp) : Prop :=
  l.length + (ops.flatMap Spec.offered).length ≤ cap ∧ (c.nullTerm = true → c.zero ∉ ops.flatMap Spec.offered)

theorem string_putn (t : Traits) (c : Cfg Ch) (a : Arr Ch) (l text : List Ch) (h : Rep c a l)
    (hf : l.length + text.length ≤ room c a) (hz : c.nullTerm = true → c.zero ∉ text) :
    ∃ a', (stringOut t c).sputn t a text = .ok (a', text.length) ∧ Rep c a' (l ++ text) ∧ room c a' = room c a := by
  obtain ⟨a', e1, e2, e3⟩ := append_rep h text (by simpa using hf) hz
  refine ⟨a', sputn_all t _ _ _ _ (by simp [stringOut, e1]), e2, by simp [room, e3]⟩

/-- **Output to a string**: a history whose characters fit (and contain no terminator if the string is null terminated)
is defined, everything is accepted, and the string holds what it held followed by the accepted characters in order.
Missing: text that does not fit, and terminators (the theorems below). -/
theorem string_history_partial (t : Traits) (c : Cfg Ch) (ops : List OutOp) : ∀ (a : Arr Ch) (l : List Ch), Rep c a l →
    Spec.Fits c (room c a) l ops → (∀ ch, OutOp.putc ch ∈ ops → t.Tellable ch) →
    ∃ a' rs, (stringOut t c).run t a ops = .ok (a', rs) ∧ Rep c a' (l ++ Spec.acceptedAll ops rs) ∧
      Holds c a' (l ++ Spec.acceptedAll ops rs) ∧ Spec.acceptedAll ops rs = ops.flatMap Spec.offered := by
  induction ops with
  | nil => intro a l h _ _; exact ⟨a, [], rfl, by simpa [Spec.acceptedAll] using h, by simpa [Spec.acceptedAll] using h.holds, rfl⟩
  | cons o ops ih =>
    intro a l h hf ht
    obtain ⟨hf1, hf2⟩ := hf
    have step : ∃ a' r, (stringOut t c).step t a o = .ok (a', r) ∧ Rep c a' (l ++ Spec.offered o) ∧ room c a' = room c a ∧
        Spec.accepted o r = Spec.offered o := by
      cases o with
      | putc ch =>
        obtain ⟨a', e1, e2, e3⟩ := pushBack_rep h ch (by simp [Spec.offered] at hf1 ⊢; omega)
          (fun hn => by have := hf2 hn; simp [Spec.offered] at this; exact this.1)
        refine ⟨a', .int (t.toInt ch), by simp [OutImpl.step, stringOut, e1], e2, by simp [room, e3], ?_⟩
        have := ht ch (by simp)
        unfold Traits.Tellable at this
        simp [Spec.accepted, Spec.offered, this]
      | putn text =>
        obtain ⟨a', e1, e2, e3⟩ := string_putn t c a l text h (by simp [Spec.offered] at hf1 ⊢; omega)
          (fun hn => by have := hf2 hn; simp [Spec.offered] at this; exact this.1)
        exact ⟨a', .count text.length, by simp [OutImpl.step, e1], e2, e3, by simp [Spec.accepted, Spec.offered]⟩
      | sync => exact ⟨a, .int 0, rfl, by simpa [Spec.offered] using h, rfl, rfl⟩
    obtain ⟨a1, r, e1, e2, e3, e4⟩ := step
    obtain ⟨a2, rs, g1, g2, g3, g4⟩ := ih a1 (l ++ Spec.offered o) e2
      ⟨by rw [e3]; simp at hf1 ⊢; omega, fun hn => by have := hf2 hn; simp at this ⊢; exact this.2⟩
      (fun ch he => ht ch (by simp [he]))
    refine ⟨a2, r :: rs, by rw [OutImpl.run, e1]; simp [g1], ?_, ?_, ?_⟩
    · simp only [Spec.acceptedAll, e4, ← List.append_assoc]; exact g2
    · simp only [Spec.acceptedAll, e4, ← List.append_assoc]; exact g3
    · simp [Spec.acceptedAll, e4, g4]

example : Spec.Fits ⟨256, true, 0, true⟩ 7 [97] [.putc 98, .putn [99, 100], .sync] := by
  unfold Spec.Fits; decide

/-- **Violation.**  The count is narrowed to the string's `size_type`: a bulk put of a multiple of its modulus (256 for
strings under 256 characters) stores nothing and reports everything as accepted. -/
theorem string_putn_wraps (t : Traits) (c : Cfg Ch) (a : Arr Ch) (l text : List Ch) (h : Rep c a l)
    (hw : text.length % c.modulus = 0) :
    ∃ a', (stringOut t c).sputn t a text = .ok (a', text.length) ∧ Holds c a' l := by
  have hr := h.room_le
  obtain ⟨a', e1, e2, e3⟩ := append_rep h [] (by simpa using hr) (by simp)
  have : append c a text = append c a [] := by unfold append; rw [hw]; simp
  refine ⟨a', sputn_all t _ _ _ _ (by simp [stringOut, this, e1]), ?_⟩
  have := e2.holds; simpa using this

/-- **Violation.**  A terminator character put into a null-terminated string is reported as accepted and lost. -/
theorem string_nul_lost (t : Traits) (c : Cfg Ch) (a : Arr Ch) (l : List Ch) (h : Rep c a l) (hn : c.nullTerm = true)
    (hf : l.length + 1 ≤ room c a) :
    ∃ a', (stringOut t c).sputc a c.zero = .ok (a', t.toInt c.zero) ∧ Holds c a' l := by
  have hM := h.capM
  have hroom : room c a = a.buf.length - 1 := by simp [room, hn]
  have hlt := h.lt_of_term hn
  have hg := grow_ok h hf
  refine ⟨⟨(resized c a (l.length + 1)).buf.set l.length c.zero, (resized c a (l.length + 1)).msize⟩, ?_, ?_⟩
  · simp only [stringOut, pushBack, hg, Res.bind_ok]
    rw [wr_lt (by simp; omega)]; simp
  · refine Rep.holds ⟨by simpa using hM, by simp; omega, ?_, by simp [hn], ?_, h.nz⟩
    · intro i hi
      rw [List.getElem?_set_ne (by omega), resized_get_ne _ _ _ _ (by omega)]; exact h.pre i hi
    · intro _; rw [List.getElem?_set_self (by simp; omega)]

/-! ## Buffered -/

/-- A sink that takes everything up to a capacity `N`: `R s l` means the sink has taken `l`. -/
def Takes {σ : Type} (t : Traits) (K : OutImpl σ) (R : σ → List Ch → Prop) (ok : Ch → Prop) (N : Nat) : Prop :=
  ∀ s l text, R s l → l.length + text.length ≤ N → (∀ ch ∈ text, ok ch) →
    ∃ s', K.sputn t s text = .ok (s', text.length) ∧ R s' (l ++ text)

/-- a span of `N` characters is such a sink -/
theorem span_takes (t : Traits) (N : Nat) :
    Takes t (spanOut t) (fun s l => s.mem.length = N ∧ s.pos ≤ N ∧ s.mem.take s.pos = l) (fun _ => True) N := by
  rintro s l text ⟨h1, h2, h3⟩ hf _
  have hl : l.length = s.pos := by rw [← h3]; simp; omega
  have hfit : s.pos + text.length ≤ s.mem.length := by omega
  refine ⟨_, by rw [span_putn, if_pos hfit], ?_, ?_, ?_⟩
  · simp; omega
  · simp only; omega
  · have e : (s.mem.take s.pos ++ text).length = s.pos + text.length := by simp; omega
    simp only
    rw [List.take_append_of_le_length (by omega), List.take_of_length_le (by omega), h3]

/-- and so is a string -/
theorem string_takes (t : Traits) (c : Cfg Ch) (N : Nat) :
    Takes t (stringOut t c) (fun a l => Rep c a l ∧ room c a = N) (fun ch => c.nullTerm = true → ch ≠ c.zero) N := by
  rintro a l text ⟨h1, h2⟩ hf hz
  obtain ⟨a', e1, e2, e3⟩ := string_putn t c a l text h1 (by omega) (fun hn hm => hz _ hm hn rfl)
  exact ⟨a', e1, e2, by omega⟩

/-- the abstract state of a buffered streambuf: what has been sent on, and what is pending -/
structure Spec.Buf where
  sent : List Ch
  pending : List Ch
  deriving DecidableEq, Repr

/-- what the operations should do: pending characters are sent when the buffer of `L` is full, or on `sync` -/
def Spec.Buf.step (L : Nat) (b : Spec.Buf) : OutOp → Spec.Buf
  | .putc ch => if b.pending.length = L then ⟨b.sent ++ b.pending, [ch]⟩ else ⟨b.sent, b.pending ++ [ch]⟩
  | .putn text => ⟨b.sent, b.pending ++ text⟩
  | .sync => ⟨b.sent ++ b.pending, []⟩

def Spec.Buf.run (L : Nat) (b : Spec.Buf) : List OutOp → Spec.Buf
  | [] => b
  | o :: r => (b.step L o).run L r

/-- the fragment in which the code keeps its word: single characters that survive the conversion to `int_type` and
`not_eof`, and bulk puts that fit into what is left of the buffer -/
def Spec.Buf.legal (t : Traits) (ok : Ch → Prop) (L : Nat) (b : Spec.Buf) : OutOp → Prop
  | .putc ch => t.notEof (t.promote ch) = true ∧ ok ch
  | .putn text => b.pending.length + text.length ≤ L ∧ ∀ ch ∈ text, ok ch
  | .sync => True

def Spec.Buf.legalRun (t : Traits) (ok : Ch → Prop) (L : Nat) (b : Spec.Buf) : List OutOp → Prop
  | [] => True
  | o :: r => b.legal t ok L o ∧ (b.step L o).legalRun t ok L r

/-- the buffered streambuf represents the abstract one -/
structure BufRep {σ : Type} (R : σ → List Ch → Prop) (ok : Ch → Prop) (asserts : Bool) (L : Nat) (b : Buffered σ)
    (a : Spec.Buf) : Prop where
  sink : R b.sink a.sent
  buf : Rep (bufCfg asserts) b.buf a.pending
  len : b.buf.buf.length = L
  pos : 0 < L
  clean : ∀ ch ∈ a.pending, ok ch

theorem BufRep.room_eq {σ : Type} {R : σ → List Ch → Prop} {ok : Ch → Prop} {asserts : Bool} {L : Nat} {b : Buffered σ} {a : Spec.Buf}
    (h : BufRep R ok asserts L b a) : room (bufCfg asserts) b.buf = L := by
  simp [room, bufCfg, h.len]

theorem BufRep.remaining_eq {σ : Type} {R : σ → List Ch → Prop} {ok : Ch → Prop} {asserts : Bool} {L : Nat} {b : Buffered σ} {a : Spec.Buf}
    (h : BufRep R ok asserts L b a) : b.remaining = L - a.pending.length := by
  have h1 := h.buf.msz rfl
  have h2 := h.buf.fits
  have h3 := h.buf.capM
  have h4 := h.len
  simp only [bufCfg] at h3
  unfold Buffered.remaining
  rw [h1]
  omega

theorem BufRep.take_eq {σ : Type} {R : σ → List Ch → Prop} {ok : Ch → Prop} {asserts : Bool} {L : Nat} {b : Buffered σ} {a : Spec.Buf}
    (h : BufRep R ok asserts L b a) : b.buf.buf.take b.buf.msize = a.pending := by
  rw [h.buf.msz rfl]
  apply List.ext_getElem?
  intro i
  by_cases hi : i < a.pending.length
  · rw [List.getElem?_take_of_lt hi, h.buf.pre i hi]
  · rw [List.getElem?_eq_none (by simp; omega), List.getElem?_eq_none (by omega)]

theorem llSync_spec {σ : Type} {t : Traits} {K : OutImpl σ} {R : σ → List Ch → Prop} {ok : Ch → Prop} {N : Nat} (hK : Takes t K R ok N)
    {asserts : Bool} {L : Nat} {b : Buffered σ} {a : Spec.Buf} (h : BufRep R ok asserts L b a)
    (hN : a.sent.length + a.pending.length ≤ N) :
    ∃ b', b.llSync t K asserts = .ok b' ∧ BufRep R ok asserts L b' ⟨a.sent ++ a.pending, []⟩ := by
  obtain ⟨s', e1, e2⟩ := hK _ _ _ h.sink hN h.clean
  obtain ⟨a', c1, c2, c3⟩ := clear_rep h.buf
  refine ⟨⟨s', a'⟩, ?_, e2, c2, by rw [c3, h.len], h.pos, by simp⟩
  unfold Buffered.llSync
  rw [h.take_eq, e1]
  simp [c1]

theorem toChar_promote (t : Traits) (ch : Ch) : toChar (t.promote ch) = ch := by
  obtain ⟨o, sg⟩ := t
  have := toChar_toInt ⟨true, sg⟩ ch
  simpa [Traits.toInt, Traits.promote] using this

theorem buffered_step {σ : Type} {t : Traits} {K : OutImpl σ} {R : σ → List Ch → Prop} {ok : Ch → Prop} {N : Nat}
    (hK : Takes t K R ok N) {asserts : Bool} {L : Nat} {b : Buffered σ} {a : Spec.Buf} (h : BufRep R ok asserts L b a)
    (o : OutOp) (hl : a.legal t ok L o) (hN : a.sent.length + a.pending.length ≤ N) :
    ∃ b' r, (bufferedOut t K asserts).step t b o = .ok (b', r) ∧ BufRep R ok asserts L b' (a.step L o) ∧
      Spec.accepted o r = Spec.offered o := by
  cases o with
  | putc ch =>
    obtain ⟨hc1, hc2⟩ := hl
    have push : ∀ (b1 : Buffered σ) (a1 : Spec.Buf), BufRep R ok asserts L b1 a1 → a1.pending.length < L →
        ∃ x, pushBack (bufCfg asserts) b1.buf ch = .ok x ∧
          BufRep R ok asserts L { b1 with buf := x } ⟨a1.sent, a1.pending ++ [ch]⟩ := by
      intro b1 a1 h1 hlt
      obtain ⟨x, e1, e2, e3⟩ := pushBack_rep h1.buf ch (by rw [h1.room_eq]; simp; omega) (by intro hn; cases hn)
      refine ⟨x, e1, h1.sink, e2, by rw [e3, h1.len], h1.pos, ?_⟩
      intro y hy
      simp only [List.mem_append, List.mem_singleton] at hy
      rcases hy with hy | rfl
      · exact h1.clean y hy
      · exact hc2
    have hfl := h.buf.fits
    rw [h.len] at hfl
    simp only [OutImpl.step, bufferedOut, Buffered.sputc, Buffered.overflow, h.remaining_eq]
    by_cases hfull : a.pending.length = L
    · obtain ⟨b1, e1, e2⟩ := llSync_spec hK h hN
      obtain ⟨x, p1, p2⟩ := push b1 _ e2 (by simp; exact h.pos)
      rw [if_pos (by omega), e1]
      simp only [Res.bind_ok, hc1, ↓reduceIte, toChar_promote, p1]
      refine ⟨_, _, rfl, ?_, by simp [Spec.accepted, Spec.offered, eofCode]⟩
      simp only [Spec.Buf.step, hfull, ↓reduceIte]
      simpa using p2
    · obtain ⟨x, p1, p2⟩ := push b a h (by omega)
      rw [if_neg (by omega)]
      simp only [Res.bind_ok, hc1, ↓reduceIte, toChar_promote, p1]
      refine ⟨_, _, rfl, ?_, by simp [Spec.accepted, Spec.offered, eofCode]⟩
      simp only [Spec.Buf.step, hfull, ↓reduceIte]
      exact p2
  | putn text =>
    obtain ⟨hc1, hc2⟩ := hl
    have hrem := h.remaining_eq
    obtain ⟨x, e1, e2, e3⟩ := append_rep h.buf text (by rw [h.room_eq]; simpa using hc1) (by intro hn; cases hn)
    have hx : (bufferedOut t K asserts).xsputn b text = .ok ({ b with buf := x }, text.length) := by
      simp only [bufferedOut, Buffered.xsputn, hrem]
      rw [List.take_of_length_le (by omega), e1]; rfl
    refine ⟨_, _, by simp only [OutImpl.step, sputn_all t _ _ _ _ hx]; rfl, ?_, by simp [Spec.accepted, Spec.offered]⟩
    refine ⟨h.sink, e2, by rw [e3, h.len], h.pos, ?_⟩
    intro y hy
    simp only [Spec.Buf.step, List.mem_append] at hy
    rcases hy with hy | hy
    · exact h.clean y hy
    · exact hc2 y hy
  | sync =>
    simp only [OutImpl.step, bufferedOut, Buffered.sync]
    have hm := h.buf.msz rfl
    by_cases h0 : a.pending.length = 0
    · rw [if_pos (by omega)]
      refine ⟨b, _, rfl, ?_, rfl⟩
      have : a.pending = [] := List.length_eq_zero_iff.mp h0
      simp only [Spec.Buf.step, this, List.append_nil]
      rw [← this]; exact h
    · obtain ⟨b1, e1, e2⟩ := llSync_spec hK h hN
      rw [if_neg (by omega), e1]
      exact ⟨b1, _, rfl, e2, rfl⟩

theorem Spec.Buf.step_total (L : Nat) (b : Spec.Buf) (o : OutOp) :
    (b.step L o).sent ++ (b.step L o).pending = b.sent ++ b.pending ++ Spec.offered o := by
  cases o with
  | putc ch => simp only [Spec.Buf.step, Spec.offered]; split <;> simp
  | putn text => simp [Spec.Buf.step, Spec.offered]
  | sync => simp [Spec.Buf.step, Spec.offered]

/-- **Buffered output**, over any sink that takes everything up to a capacity: after a history in the fragment above,
the sink has taken exactly what the specification says was sent, and what was sent followed by what is pending is
everything accepted, in order; after a `sync` nothing is pending.  Missing: bulk puts larger than the room left in the
buffer, characters that read as `eof()`, and sinks that take less (the theorems below). -/
theorem buffered_history_partial {σ : Type} (t : Traits) (K : OutImpl σ) (R : σ → List Ch → Prop) (ok : Ch → Prop) (N : Nat)
    (hK : Takes t K R ok N) (asserts : Bool) (L : Nat) (ops : List OutOp) : ∀ (b : Buffered σ) (a : Spec.Buf),
    BufRep R ok asserts L b a → a.legalRun t ok L ops →
    a.sent.length + a.pending.length + (ops.flatMap Spec.offered).length ≤ N →
    ∃ b' rs, (bufferedOut t K asserts).run t b ops = .ok (b', rs) ∧ BufRep R ok asserts L b' (a.run L ops) ∧
      (a.run L ops).sent ++ (a.run L ops).pending = a.sent ++ a.pending ++ Spec.acceptedAll ops rs ∧
      Spec.acceptedAll ops rs = ops.flatMap Spec.offered := by
  induction ops with
  | nil => intro b a h _ _; exact ⟨b, [], rfl, h, by simp [Spec.Buf.run, Spec.acceptedAll], rfl⟩
  | cons o ops ih =>
    intro b a h hl hN
    obtain ⟨hl1, hl2⟩ := hl
    simp only [List.flatMap_cons, List.length_append] at hN
    obtain ⟨b1, r, e1, e2, e3⟩ := buffered_step hK h o hl1 (by omega)
    have ht := Spec.Buf.step_total L a o
    have htl := congrArg List.length ht
    simp only [List.length_append] at htl
    obtain ⟨b2, rs, g1, g2, g3, g4⟩ := ih b1 (a.step L o) e2 hl2 (by omega)
    refine ⟨b2, r :: rs, by rw [OutImpl.run, e1]; simp [g1], g2, ?_, by simp [Spec.acceptedAll, e3, g4]⟩
    simp only [Spec.Buf.run, Spec.acceptedAll, e3]
    rw [g3, ht]; simp

/-- the hypotheses are met: an 8-character buffer over a 32-character span -/
example : BufRep (fun (s : OutSpan) l => s.mem.length = 32 ∧ s.pos ≤ 32 ∧ s.mem.take s.pos = l) (fun _ => True) true 8
    ⟨⟨List.replicate 32 0, 0⟩, ⟨List.replicate 8 0, 0⟩⟩ ⟨[], []⟩ ∧
    Spec.Buf.legalRun ⟨true, true⟩ (fun _ => True) 8 ⟨[], []⟩ [.putc 97, .putn [98, 99, 100, 101, 102, 103, 104], .putc 105, .sync] :=
  ⟨⟨by decide, ⟨by decide, by decide, by simp, by decide, by decide, by decide⟩, by decide, by decide, by simp⟩,
    by simp [Spec.Buf.legalRun, Spec.Buf.legal, Spec.Buf.step]; decide⟩

/-- **Violation.**  A bulk put longer than the room left in the buffer is reported as fully accepted, and everything
beyond that room is lost. -/
theorem buffered_putn_loses {σ : Type} (t : Traits) (K : OutImpl σ) (R : σ → List Ch → Prop) (ok : Ch → Prop) (asserts : Bool)
    (L : Nat) (b : Buffered σ) (a : Spec.Buf) (h : BufRep R ok asserts L b a) (text : List Ch) :
    ∃ x, (bufferedOut t K asserts).sputn t b text = .ok (⟨b.sink, x⟩, text.length) ∧
      Rep (bufCfg asserts) x (a.pending ++ text.take (L - a.pending.length)) := by
  have hf := h.buf.fits
  rw [h.len] at hf
  obtain ⟨x, e1, e2, _⟩ := append_rep h.buf (text.take (L - a.pending.length))
    (by rw [h.room_eq]; simp; omega) (by intro hn; cases hn)
  refine ⟨x, sputn_all t _ _ _ _ ?_, e2⟩
  simp only [bufferedOut, Buffered.xsputn, h.remaining_eq, e1]
  rfl

/-- **Violation.**  A single character that converts to `eof()` (0xFF where `char` is signed), and with the standard
traits also NUL, is reported as accepted and dropped. -/
theorem buffered_putc_drops {σ : Type} (t : Traits) (K : OutImpl σ) (asserts : Bool) (b : Buffered σ) (ch : Ch)
    (hroom : b.remaining ≠ 0) (hd : t.notEof (t.promote ch) = false) :
    Buffered.sputc t K asserts b ch = .ok (b, 42) := by
  unfold Buffered.sputc Buffered.overflow
  rw [if_neg hroom]; simp [hd]

theorem dropped_chars (own : Bool) :
    (∀ ch, (⟨own, true⟩ : Traits).notEof ((⟨own, true⟩ : Traits).promote ch) = false ↔ ch = 0xFF ∨ (own = false ∧ ch = 0)) ∧
    (∀ ch, (⟨own, false⟩ : Traits).notEof ((⟨own, false⟩ : Traits).promote ch) = false ↔ (own = false ∧ ch = 0)) := by
  cases own <;> decide +kernel

/-- **Violation.**  When the sink takes only a prefix of what is pending, `sync` reports success and the rest is lost:
nothing is pending any more. -/
theorem sync_loses {σ : Type} (t : Traits) (K : OutImpl σ) (R : σ → List Ch → Prop) (ok : Ch → Prop) (asserts : Bool)
    (L : Nat) (b : Buffered σ) (a : Spec.Buf) (h : BufRep R ok asserts L b a) (hne : a.pending ≠ []) (s' : σ) (k : Nat)
    (hs : K.sputn t b.sink a.pending = .ok (s', k)) :
    ∃ x, Buffered.sync t K asserts b = .ok (⟨s', x⟩, 0) ∧ Rep (bufCfg asserts) x [] := by
  obtain ⟨x, c1, c2, _⟩ := clear_rep h.buf
  refine ⟨x, ?_, c2⟩
  unfold Buffered.sync
  have hm := h.buf.msz rfl
  have : a.pending.length ≠ 0 := fun h0 => hne (List.length_eq_zero_iff.mp h0)
  rw [if_neg (by omega)]
  unfold Buffered.llSync
  rw [h.take_eq, hs]
  simp [c1]

/-- such a sink: a full one that takes nothing -/
example : (OutImpl.mk (σ := Unit) (fun s _ => .ok (s, 0)) noOverflow (fun s _ => .ok (s, eofCode)) noSync).sputn ⟨true, true⟩ ()
    [97, 98] = .ok ((), 0) := by decide

end Verif.Streams
