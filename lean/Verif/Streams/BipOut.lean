import Verif.Streams.OstreamProps
import Verif.Bip.Props

/-!
# C59: output buffered through a bip buffer

Modelled from `src/estd/internal/impl/streambuf/bipbuf.h` (`out_buffered_bipbuf`) over the bip buffer of C31 and the
wrapper `streambuf<Impl>` of C35; a character is one byte.
-/
namespace Verif.Streams
open Verif Verif.DynArray Verif.Bip

/-! ## The model -/

/-- `out_buffered_bipbuf`, bipbuf.h:25-40: the wrapped streambuf and the bip buffer -/
structure BipOut (σ : Type) where
  sink : σ
  buf : Bip.Buf Ch

/-- conversion of an `int` to `unsigned` -/
def u32 (v : Int) : Nat := (v % 4294967296).toNat

theorem u32_eq {n : Nat} (h : n < 4294967296) : u32 n = n := by
  unfold u32; omega

/-- `xout_avail()`, bipbuf.h:43-46; the `int` of `bipbuf_unused` converted to `unsigned` (bip/buffer.h:148-151) -/
def BipOut.xoutAvail {σ : Type} (b : BipOut σ) : Nat := u32 (unused b.buf)

/-- the `sz` bytes a pointer from `peek` designates; a null pointer with a count above 0 is undefined -/
def fetch (data : List Ch) (sz : Nat) : Option Nat → Res (List Ch)
  | none => if sz = 0 then .ok [] else .ub
  | some p => .ok ((data.drop p).take sz)

/-- what `sync()` hands to the sink, bipbuf.h:56-58: `used()` bytes from `peek(used())` -/
def BipOut.outgoing {σ : Type} (b : BipOut σ) : Res (List Ch) :=
  fetch b.buf.data (u32 (used b.buf)) (Bip.peek b.buf (u32 (used b.buf)))

/-- `sync()`, bipbuf.h:53-62 -/
def BipOut.sync {σ : Type} (t : Traits) (K : OutImpl σ) (b : BipOut σ) : Res (BipOut σ × Int) :=
  b.outgoing.bind fun text =>
  (K.sputn t b.sink text).bind fun (sink', written) =>
  if written = 0 then .ok ({ b with sink := sink' }, -1)
  else .ok (⟨sink', (Bip.poll b.buf written).2⟩, 0)

/-- `overflow(ch)`, bipbuf.h:97-106: the result of `sync()` is not looked at -/
def BipOut.overflow {σ : Type} (t : Traits) (K : OutImpl σ) (b : BipOut σ) (ch : Int) : Res (BipOut σ × Int) :=
  (if b.xoutAvail = 0 then (b.sync t K).bind fun r => .ok r.1 else .ok b).bind fun b1 =>
  (Res.ofOption (wr b1.buf.data (offerBegin b1.buf) (toChar ch))).bind fun m =>
  .ok ({ b1 with buf := offerEnd { b1.buf with data := m } 1 }, ch)

/-- `xsputn`, bipbuf.h:108-124 -/
def BipOut.xsputn {σ : Type} (b : BipOut σ) (text : List Ch) : Res (BipOut σ × Nat) :=
  let n := if (text.length : Int) > Bip.toInt b.xoutAvail then b.xoutAvail else text.length
  (Res.ofOption (offer b.buf (text.take n))).bind fun r => .ok ({ b with buf := r.2 }, n)

/-- `sputc(ch)`, bipbuf.h:69-72: plain conversion to `int_type` -/
def BipOut.sputc {σ : Type} (t : Traits) (K : OutImpl σ) (b : BipOut σ) (ch : Ch) : Res (BipOut σ × Int) :=
  b.overflow t K (t.promote ch)

/-- as an implementation, over any other -/
def bipOut {σ : Type} (t : Traits) (K : OutImpl σ) : OutImpl (BipOut σ) :=
  ⟨BipOut.xsputn, BipOut.overflow t K, BipOut.sputc t K, BipOut.sync t K⟩

/-! ## The specification -/

/-- One operation on what has been sent on and what is pending, with room for `L` characters: single characters are
always accepted; a bulk put is accepted up to the room left plus one more bufferful. -/
def Spec.Buf.bipStep (L : Nat) (b : Spec.Buf) : OutOp → Spec.Buf
  | .putc ch => if b.pending.length = L then ⟨b.sent ++ b.pending, [ch]⟩ else ⟨b.sent, b.pending ++ [ch]⟩
  | .putn text =>
    if text.length ≤ L - b.pending.length then ⟨b.sent, b.pending ++ text⟩
    else ⟨b.sent ++ b.pending ++ text.take (L - b.pending.length), (text.drop (L - b.pending.length)).take L⟩
  | .sync => ⟨b.sent ++ b.pending, []⟩

def Spec.Buf.bipRun (L : Nat) (b : Spec.Buf) : List OutOp → Spec.Buf
  | [] => b
  | o :: os => (b.bipStep L o).bipRun L os

/-- what an operation returns -/
def Spec.Buf.bipRes (t : Traits) (L : Nat) (b : Spec.Buf) : OutOp → OutRes
  | .putc ch => .int (t.promote ch)
  | .putn text => .count (min text.length (L - b.pending.length + L))
  | .sync => .int (if b.pending = [] then -1 else 0)

def Spec.Buf.bipResults (t : Traits) (L : Nat) (b : Spec.Buf) : List OutOp → List OutRes
  | [] => []
  | o :: os => b.bipRes t L o :: (b.bipStep L o).bipResults t L os

/-! ## Proofs -/

/-- the sink has taken what was sent, the buffer holds what is pending, in one piece from the start -/
structure BipRep {σ : Type} (R : σ → List Ch → Prop) (ok : Ch → Prop) (L : Nat) (b : BipOut σ) (a : Spec.Buf) : Prop where
  sink : R b.sink a.sent
  inv : Bip.Inv b.buf
  size : b.buf.size = L
  start : b.buf.aStart = 0
  oneRegion : b.buf.bInuse = false
  pend : contents b.buf = a.pending
  clean : ∀ ch ∈ a.pending, ok ch

section
variable {σ : Type} {t : Traits} {K : OutImpl σ} {R : σ → List Ch → Prop} {ok : Ch → Prop} {N L : Nat}
  {b : BipOut σ} {a : Spec.Buf}

theorem BipRep.facts (h : BipRep R ok L b a) : b.buf.bEnd = 0 ∧ b.buf.aEnd = a.pending.length ∧ a.pending.length ≤ L ∧
    L < 2147483648 := by
  have h1 := h.inv.below
  have h2 := contents_length h.inv
  have h3 := h.inv.fits
  have h4 := h.inv.small
  rw [h.start] at h1 h2
  rw [h.pend] at h2
  rw [h.size] at h3 h4
  omega

theorem BipRep.unused_eq (h : BipRep R ok L b a) : unused b.buf = (L - a.pending.length : Nat) := by
  obtain ⟨f1, f2, f3, f4⟩ := h.facts
  rw [Bip.unused_eq h.inv, h.oneRegion, f2, h.size]
  simp

theorem BipRep.avail_eq (h : BipRep R ok L b a) : b.xoutAvail = L - a.pending.length := by
  obtain ⟨f1, f2, f3, f4⟩ := h.facts
  rw [BipOut.xoutAvail, h.unused_eq, u32_eq (by omega)]

/-- accepting `d` when there is room -/
theorem BipRep.offer (h : BipRep R ok L b a) (d : List Ch) (hd : d.length ≤ L - a.pending.length) (hc : ∀ ch ∈ d, ok ch) :
    ∃ x, Bip.offer b.buf d = some (d.length, x) ∧ BipRep R ok L { b with buf := x } ⟨a.sent, a.pending ++ d⟩ := by
  obtain ⟨f1, f2, f3, f4⟩ := h.facts
  rcases offer_spec b.buf h.inv d with ⟨x, -, h1, h2, h3, h4⟩ | ⟨h1, -⟩
  · refine ⟨x, h1, h.sink, h2, by rw [← h.size]; exact h3, ?_, ?_, by simp only; rw [h4, h.pend], ?_⟩
    all_goals try (intro ch hch; rcases List.mem_append.mp hch with hch | hch; exacts [h.clean ch hch, hc ch hch])
    all_goals
      simp only
      unfold Bip.offer at h1
      rw [if_neg (by rw [h.unused_eq]; omega), h.oneRegion] at h1
      simp only [Bool.false_eq_true, if_false] at h1
      rw [memcpy_eq _ _ _ (by rw [h.inv.len, h.size]; omega)] at h1
      simp only [Option.map_some, Option.some.injEq, Prod.mk.injEq, true_and] at h1
      subst h1
      have e : sub32 0 0 = 0 := rfl
      simp only [checkSwitch, h.start, f1, e, Nat.not_lt_zero, if_false]
  · rw [h.unused_eq] at h1; omega

/-- `sync()` over a sink that takes everything -/
theorem BipRep.sync (hK : Takes t K R ok N) (h : BipRep R ok L b a) (hN : a.sent.length + a.pending.length ≤ N) :
    ∃ b', BipOut.sync t K b = .ok (b', if a.pending = [] then -1 else 0) ∧
      BipRep R ok L b' ⟨a.sent ++ a.pending, []⟩ := by
  obtain ⟨f1, f2, f3, f4⟩ := h.facts
  have hu : u32 (used b.buf) = a.pending.length := by
    rw [used_exact h.inv, h.pend, u32_eq (by omega)]
  obtain ⟨s', k1, k2⟩ := hK b.sink a.sent a.pending h.sink hN h.clean
  by_cases hp : a.pending = []
  · have hc : contents b.buf = [] := by rw [h.pend, hp]
    have ht : b.outgoing = .ok [] := by
      rw [BipOut.outgoing, hu, hp, List.length_nil, Bip.peek, (isEmpty_iff h.inv).mpr hc]
      simp [fetch]
    rw [hp] at k1 k2
    refine ⟨{ b with sink := s' }, ?_, ?_, h.inv, h.size, h.start, h.oneRegion, hc, by simp⟩
    · simp [BipOut.sync, ht, k1, hp]
    · simpa [hp] using k2
  · have hc : contents b.buf ≠ [] := by rw [h.pend]; exact hp
    have hct : a.pending.length ≤ contiguous b.buf := by unfold contiguous; rw [f2, h.start]; omega
    obtain ⟨p, p1, p2⟩ := Bip.peek_spec b.buf h.inv _ hct hc
    have ht : b.outgoing = .ok a.pending := by
      rw [BipOut.outgoing, hu, p1, fetch, p2, h.pend, List.take_length]
    obtain ⟨q, b', q1, -, -, q2, q3, q4⟩ := poll_spec b.buf h.inv _ hct hc
    have hne : a.pending.length ≠ 0 := fun e => hp (List.length_eq_zero_iff.mp e)
    have hb' : contents b' = [] := by rw [q4, h.pend]; simp
    have he := q2.empty (by simpa [isEmpty] using (isEmpty_iff q2).mpr hb')
    refine ⟨⟨s', b'⟩, ?_, k2, q2, by rw [← h.size]; exact q3, he.1, he.2, hb', by simp⟩
    simp [BipOut.sync, ht, k1, hp, hne, q1]

/-- placing one character when there is room -/
theorem BipRep.place (h : BipRep R ok L b a) (ch : Ch) (hl : a.pending.length < L) (hc : ok ch) :
    ∃ b', BipOut.overflow t K b (t.promote ch) = .ok (b', t.promote ch) ∧
      BipRep R ok L b' ⟨a.sent, a.pending ++ [ch]⟩ := by
  obtain ⟨x, x1, x2⟩ := h.offer [ch] (by rw [List.length_singleton]; omega)
    (fun c hc' => by rw [List.mem_singleton] at hc'; rw [hc']; exact hc)
  obtain ⟨m, m1, m2⟩ := offer_begin_end b.buf [ch] (by rw [h.unused_eq, List.length_singleton]; omega) x x1
  refine ⟨{ b with buf := x }, ?_, x2⟩
  have hw : wr b.buf.data (offerBegin b.buf) ch = some m := by
    rw [memcpy] at m1
    split at m1
    · next m' hm' => rw [hm']; simpa [memcpy] using m1
    · cases m1
  have ha : b.xoutAvail ≠ 0 := by rw [h.avail_eq]; omega
  simp only [List.length_singleton] at m2
  simp [BipOut.overflow, ha, toChar_promote, hw, m2]

/-- `overflow` in general -/
theorem BipRep.over (hK : Takes t K R ok N) (h : BipRep R ok L b a) (ch : Ch) (hL : 0 < L) (hc : ok ch)
    (hN : a.sent.length + a.pending.length ≤ N) :
    ∃ b', BipOut.overflow t K b (t.promote ch) = .ok (b', t.promote ch) ∧
      BipRep R ok L b' (a.bipStep L (.putc ch)) := by
  by_cases hf : a.pending.length = L
  · obtain ⟨b1, e1, e2⟩ := h.sync hK hN
    obtain ⟨b2, g1, g2⟩ := e2.place (t := t) (K := K) ch (by simpa using hL) hc
    refine ⟨b2, ?_, by simpa [Spec.Buf.bipStep, hf] using g2⟩
    have ha : b1.xoutAvail ≠ 0 := by rw [e2.avail_eq]; simp; omega
    have ha0 : b.xoutAvail = 0 := by rw [h.avail_eq]; omega
    rw [BipOut.overflow, if_neg ha] at g1
    rw [BipOut.overflow, if_pos ha0, e1]
    exact g1
  · obtain ⟨f1, f2, f3, f4⟩ := h.facts
    obtain ⟨b2, g1, g2⟩ := h.place (t := t) (K := K) ch (by omega) hc
    exact ⟨b2, g1, by simpa [Spec.Buf.bipStep, hf] using g2⟩

theorem BipRep.xsputn (h : BipRep R ok L b a) (text : List Ch) (hc : ∀ ch ∈ text, ok ch) :
    ∃ b', BipOut.xsputn b text = .ok (b', min text.length (L - a.pending.length)) ∧
      BipRep R ok L b' ⟨a.sent, a.pending ++ text.take (L - a.pending.length)⟩ := by
  obtain ⟨f1, f2, f3, f4⟩ := h.facts
  have hn : (if (text.length : Int) > Bip.toInt b.xoutAvail then b.xoutAvail else text.length)
      = min text.length (L - a.pending.length) := by
    rw [h.avail_eq, Bip.toInt_eq (by omega)]
    split <;> omega
  obtain ⟨x, x1, x2⟩ := h.offer (text.take (min text.length (L - a.pending.length)))
    (by simp; omega) (fun ch hch => hc ch (List.mem_of_mem_take hch))
  refine ⟨{ b with buf := x }, ?_, ?_⟩
  · simp only [BipOut.xsputn, hn, x1, Res.ofOption_some, Res.bind_ok]
  · have : text.take (min text.length (L - a.pending.length)) = text.take (L - a.pending.length) := by
      rw [Nat.min_comm, ← List.take_take, List.take_length]
    rwa [this] at x2

theorem bip_step (hK : Takes t K R ok N) (h : BipRep R ok L b a) (hL : 0 < L) (o : OutOp)
    (hc : ∀ ch ∈ Spec.offered o, ok ch ∧ t.promote ch ≠ eofCode)
    (hN : a.sent.length + a.pending.length + (Spec.offered o).length ≤ N) :
    ∃ b', (bipOut t K).step t b o = .ok (b', a.bipRes t L o) ∧ BipRep R ok L b' (a.bipStep L o) := by
  obtain ⟨f1, f2, f3, f4⟩ := h.facts
  cases o with
  | putc ch =>
    obtain ⟨b1, e1, e2⟩ := h.over hK ch hL (hc ch (by simp [Spec.offered])).1 (by omega)
    exact ⟨b1, by simp [OutImpl.step, bipOut, BipOut.sputc, e1, Spec.Buf.bipRes], e2⟩
  | sync =>
    obtain ⟨b1, e1, e2⟩ := h.sync hK (by omega)
    exact ⟨b1, by simp [OutImpl.step, bipOut, e1, Spec.Buf.bipRes], e2⟩
  | putn text =>
    simp only [Spec.offered] at hc hN
    obtain ⟨b1, e1, e2⟩ := h.xsputn text (fun ch hch => (hc ch hch).1)
    by_cases hfit : text.length ≤ L - a.pending.length
    · refine ⟨b1, ?_, by simpa [Spec.Buf.bipStep, hfit, List.take_of_length_le hfit] using e2⟩
      rw [Nat.min_eq_left hfit] at e1
      simp only [OutImpl.step]
      rw [sputn_all t _ _ _ _ (show (bipOut t K).xsputn b text = _ from e1)]
      simp only [Res.bind_ok, Spec.Buf.bipRes]
      congr 3; omega
    · rw [Nat.min_eq_right (by omega)] at e1
      have hlt : L - a.pending.length < text.length := by omega
      obtain ⟨c1, c2⟩ := hc text[L - a.pending.length] (List.getElem_mem hlt)
      obtain ⟨b2, g1, g2⟩ := e2.over hK text[L - a.pending.length] hL c1 (by simp; omega)
      have hfull : (a.pending ++ text.take (L - a.pending.length)).length = L := by simp; omega
      simp only [Spec.Buf.bipStep, hfull, if_true] at g2
      obtain ⟨b3, k1, k2⟩ := g2.xsputn (text.drop (L - a.pending.length + 1))
        (fun ch hch => (hc ch (List.mem_of_mem_drop hch)).1)
      refine ⟨b3, ?_, ?_⟩
      · have hs : (bipOut t K).sputn t b text = .ok (b3, L - a.pending.length + 1 +
            min (text.drop (L - a.pending.length + 1)).length (L - [text[L - a.pending.length]].length)) := by
          unfold OutImpl.sputn
          simp only [bipOut, e1, Res.bind_ok, hlt, if_true, rd_lt hlt, Res.ofOption_some, g1, ne_eq, c2,
            not_false_eq_true, k1]
        simp only [OutImpl.step, hs, Res.bind_ok, Spec.Buf.bipRes]
        congr 3
        simp; omega
      · simp only [Spec.Buf.bipStep, hfit, if_false]
        have : (text.drop (L - a.pending.length)).take L = [text[L - a.pending.length]] ++
            (text.drop (L - a.pending.length + 1)).take (L - 1) := by
          have ht : ∀ (x : Ch) (l : List Ch), (x :: l).take L = [x] ++ l.take (L - 1) := by
            intro x l
            obtain ⟨k, rfl⟩ : ∃ k, L = k + 1 := ⟨L - 1, by omega⟩
            simp
          rw [List.drop_eq_getElem_cons hlt, ht]
        rw [this]
        simpa [List.append_assoc] using k2
end

theorem Spec.Buf.bip_total (t : Traits) (L : Nat) (b : Spec.Buf) (o : OutOp)
    (hp : ∀ ch ∈ Spec.offered o, t.promote ch ≠ eofCode) (hL : b.pending.length ≤ L) :
    (b.bipStep L o).sent ++ (b.bipStep L o).pending = b.sent ++ b.pending ++ Spec.accepted o (b.bipRes t L o) ∧
      (b.bipStep L o).pending.length ≤ L ∨ L = 0 := by
  by_cases h0 : L = 0
  · exact .inr h0
  left
  cases o with
  | putc ch =>
    have := hp ch (by simp [Spec.offered])
    simp only [Spec.Buf.bipStep, Spec.accepted, Spec.Buf.bipRes, this, if_false]
    split
    · simp; omega
    · simp; omega
  | putn text =>
    simp only [Spec.Buf.bipStep, Spec.accepted, Spec.Buf.bipRes]
    split
    · next h =>
      rw [Nat.min_eq_left (by omega)]
      simp; omega
    · next h =>
      constructor
      · have : text.take (min text.length (L - b.pending.length + L)) =
            text.take (L - b.pending.length) ++ (text.drop (L - b.pending.length)).take L := by
          rw [← List.take_add, Nat.min_comm, ← List.take_take, List.take_length]
        rw [this]; simp
      · simp; omega
  | sync => simp [Spec.Buf.bipStep, Spec.accepted]

/-- **C59 (output).**  Over any sink that takes everything up to a capacity `N`, for every history of single puts, bulk
puts of any size and syncs whose text fits `N`: every result is the one the specification gives, the sink has taken
exactly what was sent on, and what was sent followed by what is pending is everything accepted, in order; after a `sync`
nothing is pending.  Missing: sinks that take less (`bip_refused_overrun`, `bip_short_null`, `bip_short_stale`) and characters that
convert to `eof()` (`bip_eof_char`). -/
theorem bip_out_history_partial {σ : Type} (t : Traits) (K : OutImpl σ) (R : σ → List Ch → Prop) (ok : Ch → Prop) (N : Nat)
    (hK : Takes t K R ok N) (L : Nat) (hL : 0 < L) (ops : List OutOp) : ∀ (b : BipOut σ) (a : Spec.Buf), BipRep R ok L b a →
    (∀ o ∈ ops, ∀ ch ∈ Spec.offered o, ok ch ∧ t.promote ch ≠ eofCode) →
    a.sent.length + a.pending.length + (ops.flatMap Spec.offered).length ≤ N →
    ∃ b', (bipOut t K).run t b ops = .ok (b', a.bipResults t L ops) ∧ BipRep R ok L b' (a.bipRun L ops) ∧
      (a.bipRun L ops).sent ++ (a.bipRun L ops).pending =
        a.sent ++ a.pending ++ Spec.acceptedAll ops (a.bipResults t L ops) := by
  induction ops with
  | nil => intro b a h _ _; exact ⟨b, rfl, h, by simp [Spec.Buf.bipRun, Spec.acceptedAll]⟩
  | cons o ops ih =>
    intro b a h hc hN
    simp only [List.flatMap_cons, List.length_append] at hN
    obtain ⟨b1, e1, e2⟩ := bip_step hK h hL o (hc o (by simp)) (by omega)
    obtain ⟨f1, f2, f3, f4⟩ := h.facts
    obtain ⟨ht, -⟩ := (Spec.Buf.bip_total t L a o (fun ch hch => (hc o (by simp) ch hch).2) f3).resolve_right (by omega)
    have htl := congrArg List.length ht
    have hacc : (Spec.accepted o (a.bipRes t L o)).length ≤ (Spec.offered o).length := by
      cases o with
      | putc ch => simp only [Spec.accepted, Spec.Buf.bipRes, Spec.offered]; split <;> simp
      | putn text => simp only [Spec.accepted, Spec.Buf.bipRes, Spec.offered, List.length_take]; omega
      | sync => simp [Spec.accepted, Spec.offered]
    simp only [List.length_append] at htl
    obtain ⟨b2, g1, g2, g3⟩ := ih b1 (a.bipStep L o) e2 (fun o ho => hc o (by simp [ho])) (by omega)
    refine ⟨b2, by rw [OutImpl.run, e1]; simp [g1, Spec.Buf.bipResults], g2, ?_⟩
    simp only [Spec.Buf.bipRun, Spec.acceptedAll, Spec.Buf.bipResults]
    rw [g3, ht]; simp

/-- the initial state of a bip-buffered stream over an empty 64-character span -/
example : BipRep (fun (s : OutSpan) l => s.mem.length = 64 ∧ s.pos ≤ 64 ∧ s.mem.take s.pos = l) (fun _ => True) 8
    ⟨⟨List.replicate 64 0, 0⟩, Bip.init 8 (List.replicate 8 0)⟩ ⟨[], []⟩ :=
  ⟨by decide, inv_init _ _ rfl (by decide), rfl, rfl, rfl, rfl, by simp⟩

/-- a bulk put of 11 characters into 8: all accepted, 8 sent on and 3 pending; one of 20: 13 accepted -/
example : Spec.Buf.bipRun 8 ⟨[], []⟩ [.putn [1, 2, 3, 4, 5, 6, 7, 8, 9, 10, 11]] = ⟨[1, 2, 3, 4, 5, 6, 7, 8], [9, 10, 11]⟩ ∧
    Spec.Buf.bipRes ⟨true, true⟩ 8 ⟨[], [0, 0, 0]⟩ (.putn (List.replicate 20 7)) = .count 13 := by decide

/-! ## Violations -/

/-- **Violation.**  When the buffer is full and the sink takes nothing, the next character is written past the end of
the buffer. -/
theorem bip_refused_overrun {σ : Type} (t : Traits) (K : OutImpl σ) (R : σ → List Ch → Prop) (ok : Ch → Prop) (L : Nat)
    (b : BipOut σ) (a : Spec.Buf) (h : BipRep R ok L b a) (hf : a.pending.length = L) (s' : σ)
    (hs : K.sputn t b.sink a.pending = .ok (s', 0)) (ch : Ch) : BipOut.sputc t K b ch = .ub := by
  obtain ⟨f1, f2, f3, f4⟩ := h.facts
  have hu : u32 (used b.buf) = a.pending.length := by
    rw [used_exact h.inv, h.pend, u32_eq (by omega)]
  have ht : b.outgoing = .ok a.pending := by
    by_cases hp : a.pending = []
    · simp only [BipOut.outgoing, hu, hp, List.length_nil]
      rw [Bip.peek, (isEmpty_iff h.inv).mpr (by rw [h.pend, hp])]
      simp [fetch]
    · obtain ⟨p, p1, p2⟩ := Bip.peek_spec b.buf h.inv a.pending.length (by unfold contiguous; rw [f2, h.start]; omega)
        (by rw [h.pend]; exact hp)
      rw [BipOut.outgoing, hu, p1, fetch, p2, h.pend, List.take_length]
  have ha : b.xoutAvail = 0 := by rw [h.avail_eq]; omega
  have hw : ∀ c, wr b.buf.data (offerBegin b.buf) c = none := by
    intro c
    rw [offerBegin, h.oneRegion]
    simp [wr, h.inv.len, h.size, f2, hf]
  simp [BipOut.sputc, BipOut.overflow, ha, BipOut.sync, ht, hs, hw]

/-- the buffer spelled out -/
theorem BipRep.form {σ : Type} {R : σ → List Ch → Prop} {ok : Ch → Prop} {L : Nat} {b : BipOut σ} {a : Spec.Buf}
    (h : BipRep R ok L b a) : b.buf = ⟨L, 0, a.pending.length, 0, false, b.buf.data⟩ ∧ b.buf.data.length = L ∧
      b.buf.data.take a.pending.length = a.pending := by
  obtain ⟨f1, f2, f3, f4⟩ := h.facts
  refine ⟨?_, by rw [h.inv.len, h.size], ?_⟩
  · rw [← h.size, ← h.start, ← f2, ← h.oneRegion]
    have : b.buf.aStart = b.buf.bEnd := by rw [h.start, f1]
    conv => rhs; arg 4; rw [this]
  · have := h.pend
    rw [contents, h.start, f1, f2] at this
    simpa using this

/-- a sink that takes `k` of `p` pending characters, where less than `k` cells are free behind them: the rest stays
where it is and the free cells in front of it are used next -/
theorem bip_short {σ : Type} {t : Traits} {K : OutImpl σ} {R : σ → List Ch → Prop} {ok : Ch → Prop} {L : Nat}
    {b : BipOut σ} {a : Spec.Buf} (h : BipRep R ok L b a) (k : Nat) (hk : 0 < k) (hkp : k < a.pending.length)
    (hw : L - a.pending.length < k) (s' : σ) (hs : K.sputn t b.sink a.pending = .ok (s', k)) (ch : Ch) :
    ∃ b1, BipOut.sync t K b = .ok (b1, 0) ∧
      BipOut.sputc t K b1 ch =
        .ok (⟨s', ⟨L, k, a.pending.length, 1, true, b.buf.data.set 0 ch⟩⟩, t.promote ch) := by
  obtain ⟨f1, f2, f3, f4⟩ := h.facts
  obtain ⟨e1, e2, e3⟩ := h.form
  have hu : u32 (used b.buf) = a.pending.length := by
    rw [used_exact h.inv, h.pend, u32_eq (by omega)]
  have ht : b.outgoing = .ok a.pending := by
    obtain ⟨p, p1, p2⟩ := Bip.peek_spec b.buf h.inv a.pending.length (by unfold contiguous; rw [f2, h.start]; omega)
      (by rw [h.pend]; intro e; rw [e] at hkp; cases hkp)
    rw [BipOut.outgoing, hu, p1, fetch, p2, h.pend, List.take_length]
  have hp : (Bip.poll b.buf k).2 = ⟨L, k, a.pending.length, 0, true, b.buf.data⟩ := by
    rw [e1]
    simp only [Bip.poll, isEmpty, beq_iff_eq]
    rw [if_neg (by omega), add32_eq (by omega), if_neg (by omega), Nat.zero_add, if_neg (by omega)]
    simp only [checkSwitch]
    rw [if_pos (by rw [sub64_eq (by omega) (by omega), sub32_eq (by omega) (by omega)]; omega)]
  refine ⟨⟨s', ⟨L, k, a.pending.length, 0, true, b.buf.data⟩⟩, ?_, ?_⟩
  · rw [BipOut.sync, ht, Res.bind_ok, hs, Res.bind_ok]
    simp only [hp]
    rw [if_neg (by omega)]
  · have ha : BipOut.xoutAvail (⟨s', ⟨L, k, a.pending.length, 0, true, b.buf.data⟩⟩ : BipOut σ) = k := by
      simp only [BipOut.xoutAvail, unused, if_true]
      rw [sub32_eq (by omega) (by omega), toInt_eq (by omega), Nat.sub_zero, u32_eq (by omega)]
    rw [BipOut.sputc, BipOut.overflow, ha, if_neg (by omega), Res.bind_ok]
    simp only [offerBegin, if_true, toChar_promote]
    rw [wr_lt (by omega), Res.ofOption_some, Res.bind_ok]
    simp only [offerEnd, if_true]
    rw [add32_eq (by omega)]
    simp only [checkSwitch, Nat.zero_add, ite_self]

/-- **Violation.**  If the sink takes only part of a full buffer, the next `sync` after one more character passes a null
pointer on. -/
theorem bip_short_null {σ : Type} {t : Traits} {K : OutImpl σ} {R : σ → List Ch → Prop} {ok : Ch → Prop} {L : Nat}
    {b : BipOut σ} {a : Spec.Buf} (h : BipRep R ok L b a) (hf : a.pending.length = L) (k : Nat) (hk : 0 < k) (hkp : k < L)
    (s' : σ) (hs : K.sputn t b.sink a.pending = .ok (s', k)) (ch : Ch) :
    ∃ b1 b2, BipOut.sync t K b = .ok (b1, 0) ∧ BipOut.sputc t K b1 ch = .ok (b2, t.promote ch) ∧
      BipOut.sync t K b2 = .ub := by
  obtain ⟨f1, f2, f3, f4⟩ := h.facts
  obtain ⟨b1, g1, g2⟩ := bip_short h k hk (by omega) (by omega) s' hs ch
  refine ⟨b1, _, g1, g2, ?_⟩
  have hu : u32 (used (⟨L, k, a.pending.length, 1, true, b.buf.data.set 0 ch⟩ : Bip.Buf Ch)) = L - k + 1 := by
    simp only [used]
    rw [sub32_eq (by omega) (by omega), add32_eq (by omega), toInt_eq (by omega), u32_eq (by omega), hf]
  rw [BipOut.sync, BipOut.outgoing]
  simp only [hu]
  rw [Bip.peek, if_pos (by rw [add32_eq (by simp only; omega)]; simp only; omega), fetch, if_neg (by omega)]
  rfl

/-- **Violation.**  If the sink takes only part of a buffer that is not full, enough to make room in front, the next
character goes to the front; the next `sync` sends a stale byte in its place. -/
theorem bip_short_stale {σ : Type} {t : Traits} {K : OutImpl σ} {R : σ → List Ch → Prop} {ok : Ch → Prop} {L : Nat}
    {b : BipOut σ} {a : Spec.Buf} (h : BipRep R ok L b a) (hf : a.pending.length < L) (k : Nat)
    (hkp : k < a.pending.length) (hw : L - a.pending.length < k) (s' : σ)
    (hs : K.sputn t b.sink a.pending = .ok (s', k)) (ch : Ch) :
    ∃ b1 b2, BipOut.sync t K b = .ok (b1, 0) ∧ BipOut.sputc t K b1 ch = .ok (b2, t.promote ch) ∧
      ∃ stale, b.buf.data[a.pending.length]? = some stale ∧ b2.outgoing = .ok (a.pending.drop k ++ [stale]) := by
  obtain ⟨f1, f2, f3, f4⟩ := h.facts
  obtain ⟨e1, e2, e3⟩ := h.form
  obtain ⟨b1, g1, g2⟩ := bip_short h k (by omega) hkp hw s' hs ch
  refine ⟨b1, _, g1, g2, b.buf.data[a.pending.length], by simp [e2, hf], ?_⟩
  have hu : u32 (used (⟨L, k, a.pending.length, 1, true, b.buf.data.set 0 ch⟩ : Bip.Buf Ch)) =
      a.pending.length - k + 1 := by
    simp only [used]
    rw [sub32_eq (by omega) (by omega), add32_eq (by omega), toInt_eq (by omega), u32_eq (by omega)]
  rw [BipOut.outgoing]
  simp only [hu]
  rw [Bip.peek, if_neg (by rw [add32_eq (by simp only; omega)]; simp only; omega), if_neg (by simp [isEmpty]; omega),
    fetch]
  congr 1
  rw [List.drop_set_of_lt (by simp only; omega)]
  simp only
  rw [List.take_succ_eq_append_getElem (by simp; omega)]
  congr 1
  · conv => rhs; rw [← e3]
    rw [List.drop_take]
  · simp only [List.getElem_drop]
    congr 2
    omega

/-- **Violation.**  A character that converts to `eof()` (0xFF where `char` is signed) is stored, yet `sputc` returns
`eof()`. -/
theorem bip_eof_char {σ : Type} {t : Traits} {K : OutImpl σ} {R : σ → List Ch → Prop} {ok : Ch → Prop} {L : Nat}
    {b : BipOut σ} {a : Spec.Buf} (h : BipRep R ok L b a) (hf : a.pending.length < L) (ch : Ch) (hc : ok ch)
    (he : t.promote ch = eofCode) :
    ∃ b', BipOut.sputc t K b ch = .ok (b', eofCode) ∧ BipRep R ok L b' ⟨a.sent, a.pending ++ [ch]⟩ := by
  obtain ⟨b', g1, g2⟩ := h.place (t := t) (K := K) ch hf hc
  exact ⟨b', by rw [BipOut.sputc, g1, he], g2⟩

/-- Non-vacuity: a span sink with no room is undefined, but a sink that takes only three characters at a time exists:
it meets the hypotheses of the violations. -/
def sipper : OutImpl (List Ch) := ⟨fun s text => .ok (s ++ text.take 3, min 3 text.length), noOverflow, fun s _ => .ok (s, eofCode), noSync⟩

example : BipRep (fun (s : List Ch) l => s = l) (fun _ => True) 4 ⟨[], ⟨4, 0, 4, 0, false, [1, 2, 3, 4]⟩⟩ ⟨[], [1, 2, 3, 4]⟩ ∧
    sipper.sputn ⟨true, true⟩ [] [1, 2, 3, 4] = .ok ([1, 2, 3], 3) ∧
    (bipOut ⟨true, true⟩ sipper).run ⟨true, true⟩ ⟨[], Bip.init 4 [0, 0, 0, 0]⟩ [.putn [1, 2, 3, 4], .sync, .putc 5, .sync] = .ub := by
  refine ⟨⟨rfl, ⟨rfl, by decide, by decide, by decide, by decide, by decide, by decide⟩, rfl, rfl, rfl, rfl, by simp⟩, by decide, rfl⟩

end Verif.Streams
