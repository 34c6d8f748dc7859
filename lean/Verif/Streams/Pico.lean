import Verif.Streams.Device
import Verif.Streams.OstreamProps

/-!
# C66: stream buffers over a Raspberry Pi Pico stdio driver

Modelled from `src/estd/port/rpi/pico/streambuf.h` with the wrapper `src/estd/streambuf.h` and
`src/estd/internal/impl/streambuf/base.h`.

The driver is the environment.  `out_chars(buf, n)` returns nothing: the driver sends each character or drops it (the USB
driver drops what comes while no host listens).  `in_chars(buf, n)` returns how many characters it stored, or a negative
error code, `PICO_ERROR_NO_DATA` if there are none.

Not modelled because it does not compile when used: `sgetn` (a `char**` is passed for the buffer, port/rpi/pico/streambuf.h:83),
and the wrapper's `sgetc`, `sbumpc` and `snextc` (the implementation has no `xsgetc` and no `gbump`, and its own `sbumpc` lacks
the tag that makes the wrapper use it, helpers.h:31-64); `sbumpc` is reached on the implementation itself, a public base.
-/
namespace Verif.Streams
open Verif Verif.DynArray

/-! ## Output -/

/-- `out_chars(s, n)`, called by port/rpi/pico/streambuf.h:76, 112: the driver sends or drops; `dev k` is whether it sends the
`k`th character offered.  (State and name of the fields as for an Arduino device.) -/
def Pr.outChars (dev : Nat → Bool) : Pr → List Ch → Pr
  | p, [] => p
  | p, ch :: r => (p.write1 dev ch).1.outChars dev r

/-- `pico_stdio_streambuf`, port/rpi/pico/streambuf.h:74-78, 110-114; `overflow` and `sync` are the defaults, base.h:65, 87-90 -/
def picoOut (t : Traits) (dev : Nat → Bool) : OutImpl Pr where
  xsputn p text := .ok (p.outChars dev text, text.length)
  overflow := noOverflow
  sputc p ch := .ok (p.outChars dev [ch], t.toInt ch)
  sync := noSync

/-- the characters a call is given -/
def Spec.given : OutOp → List Ch
  | .putc ch => [ch]
  | .putn text => text
  | .sync => []

/-- what a call answers when all of it was accepted -/
def Spec.allTaken (t : Traits) : OutOp → OutRes
  | .putc ch => .int (t.toInt ch)
  | .putn text => .count text.length
  | .sync => .int 0

theorem pico_sputn (t : Traits) (dev : Nat → Bool) (p : Pr) (text : List Ch) :
    (picoOut t dev).sputn t p text = .ok (p.outChars dev text, text.length) := by
  simp [OutImpl.sputn, picoOut]

/-- **Every call claims success**: whatever the driver does with the characters, every history of puts is answered as if all
of it had been accepted, and offers the driver exactly the characters given, in order. -/
theorem pico_claims_all (t : Traits) (dev : Nat → Bool) (ops : List OutOp) : ∀ p : Pr,
    (picoOut t dev).run t p ops = .ok (p.outChars dev (ops.flatMap Spec.given), ops.map (Spec.allTaken t)) := by
  have app : ∀ (a b : List Ch) (p : Pr), p.outChars dev (a ++ b) = (p.outChars dev a).outChars dev b := by
    intro a
    induction a with
    | nil => intro b p; rfl
    | cons x a ih => intro b p; exact ih b _
  induction ops with
  | nil => intro p; rfl
  | cons o ops ih =>
    intro p
    have hstep : (picoOut t dev).step t p o = .ok (p.outChars dev (Spec.given o), Spec.allTaken t o) := by
      cases o with
      | putc ch => rfl
      | putn text => simp [OutImpl.step, pico_sputn, Spec.given, Spec.allTaken]
      | sync => rfl
    simp [OutImpl.run, hstep, ih, app]

theorem outChars_all (dev : Nat → Bool) : ∀ (l : List Ch) (p : Pr), (∀ j, p.offers ≤ j → j < p.offers + l.length → dev j = true) →
    p.outChars dev l = ⟨p.sent ++ l, p.offers + l.length⟩ := by
  intro l
  induction l with
  | nil => intro p _; simp [Pr.outChars]
  | cons x l ih =>
    intro p h
    have h0 : dev p.offers = true := h _ (Nat.le_refl _) (by simp)
    rw [Pr.outChars, Pr.write1, if_pos h0, ih _ (fun j h1 h2 => h j (by simp at h1; omega) (by simp at h2 ⊢; omega))]
    simp; omega

theorem outChars_sent (dev : Nat → Bool) : ∀ (l : List Ch) (p : Pr),
    (p.outChars dev l).sent.length ≤ p.sent.length + l.length ∧ (p.outChars dev l).offers = p.offers + l.length ∧
    ((p.outChars dev l).sent.length = p.sent.length + l.length → ∀ j, p.offers ≤ j → j < p.offers + l.length → dev j = true) := by
  intro l
  induction l with
  | nil => intro p; simp [Pr.outChars]; intro j; omega
  | cons x l ih =>
    intro p
    obtain ⟨h1, h2, h3⟩ := ih (p.write1 dev x).1
    rw [Pr.outChars]
    by_cases h : dev p.offers = true
    · rw [Pr.write1, if_pos h] at h1 h2 h3 ⊢
      simp only [List.length_append, List.length_cons, List.length_nil] at h1 h2 h3 ⊢
      refine ⟨by omega, by omega, fun e j ha hb => ?_⟩
      by_cases hj : j = p.offers
      · rw [hj]; exact h
      · exact h3 (by omega) j (by omega) (by omega)
    · rw [Pr.write1, if_neg h] at h1 h2 h3 ⊢
      simp only [List.length_cons] at h1 h2 h3 ⊢
      exact ⟨by omega, by omega, fun e => by omega⟩

/-- **Output to a Pico driver**: while the driver drops nothing, it has received, after any history of puts, exactly the
characters put, in order.  Missing: drivers that drop (`pico_drops_silently`), and that a 0xFF put alone is answered with
what means refused (`pico_out_ff`). -/
theorem pico_out_partial (t : Traits) (dev : Nat → Bool) (ops : List OutOp) (p : Pr) (hd : ∀ j, p.offers ≤ j → dev j = true) :
    ∃ p', (picoOut t dev).run t p ops = .ok (p', ops.map (Spec.allTaken t)) ∧ p'.sent = p.sent ++ ops.flatMap Spec.given :=
  ⟨_, pico_claims_all t dev ops p, by rw [outChars_all dev _ p (fun j h _ => hd j h)]⟩

example : (picoOut ⟨true, true⟩ (fun _ => true)).run ⟨true, true⟩ ⟨[], 0⟩ [.putc 97, .putn [98, 10], .sync]
    = .ok (⟨[97, 98, 10], 3⟩, [.int 97, .count 2, .int 0]) := by decide +kernel

/-- Such a driver is a sink for formatted output: what C38 and C62 say of `out << v` holds of `pico_ostream`, with no limit on
the length. -/
theorem pico_accepts (t : Traits) (N : Nat) :
    Accepts t (picoOut t fun _ => true) (fun p l => p.sent = l) t.Tellable N where
  text := fun p l text h _ _ => ⟨_, by rw [pico_sputn], by rw [outChars_all _ _ _ (fun _ _ _ => rfl), h]⟩
  char := fun p l ch h _ ht => ⟨_, _, rfl, ht, by rw [outChars_all _ _ _ (fun _ _ _ => rfl), h]⟩
  sync := fun p l h => ⟨p, 0, rfl, by decide, h⟩

/-- **Violation.**  A driver that drops characters is not noticed: the answers of every history of puts are those of a driver
that sent everything, although less arrived whenever a character of it was dropped. -/
theorem pico_drops_silently (t : Traits) (dev : Nat → Bool) (ops : List OutOp) (p : Pr) (j : Nat) (hj : p.offers ≤ j)
    (hj' : j < p.offers + (ops.flatMap Spec.given).length) (hd : dev j = false) :
    ∃ p', (picoOut t dev).run t p ops = .ok (p', ops.map (Spec.allTaken t)) ∧
      p'.sent.length < p.sent.length + (ops.flatMap Spec.given).length := by
  refine ⟨_, pico_claims_all t dev ops p, ?_⟩
  obtain ⟨h1, _, h3⟩ := outChars_sent dev (ops.flatMap Spec.given) p
  rcases Nat.lt_or_eq_of_le h1 with h | h
  · exact h
  · rw [h3 h j hj hj'] at hd; cases hd

/-- **Violation.**  With the library's own traits and signed `char`, 0xFF put alone is sent and reported as refused. -/
theorem pico_out_ff (p : Pr) :
    ∃ p', (picoOut ⟨true, true⟩ fun _ => true).sputc p 0xFF = .ok (p', eofCode) ∧ p'.sent = p.sent ++ [0xFF] :=
  ⟨_, rfl, by rw [outChars_all _ _ _ (fun _ _ _ => rfl)]⟩

/-! ## Input -/

/-- what `in_chars(&c, 1)` can do: there is a character, there is none, or something went wrong -/
inductive PicoIn where
  | arrive (bs : List Ch)
  /-- `sbumpc()`, the driver working -/
  | bump
  /-- `sbumpc()`, the driver answering an error other than `PICO_ERROR_NO_DATA` -/
  | bumpError (rc : Int)
  deriving DecidableEq, Repr

/-- `in_chars(&c, 1)` of a driver that works: the return code and what `c` holds then, -3 being `PICO_ERROR_NO_DATA` (the pico
SDK; called at port/rpi/pico/streambuf.h:102) -/
def picoInChars : List Ch → List Ch × Int × Option Ch
  | [] => ([], -3, none)
  | b :: q => (q, 1, some b)

/-- `sbumpc()` of the implementation, port/rpi/pico/streambuf.h:98-108: the code compared with `PICO_ERROR_NO_DATA`, else the
character returned, `none` if it was never stored -/
def picoBump (t : Traits) (rc : Int) (c : Option Ch) : Option Int := if rc = -3 then some eofCode else c.map t.toInt

/-- a history of arrivals and calls, port/rpi/pico/streambuf.h:98-108; `none`: undefined -/
def picoRead (t : Traits) : List Ch → List PicoIn → Option (List Ch × List Int)
  | q, [] => some (q, [])
  | q, .arrive bs :: r => picoRead t (q ++ bs) r
  | q, .bump :: r =>
    (picoBump t (picoInChars q).2.1 (picoInChars q).2.2).bind fun v =>
      (picoRead t (picoInChars q).1 r).map fun x => (x.1, v :: x.2)
  | q, .bumpError rc :: r =>
    (picoBump t rc none).bind fun v => (picoRead t q r).map fun x => (x.1, v :: x.2)

/-- the specification: reading a queue of bytes -/
def Spec.picoRead : List Ch → List PicoIn → List Ch × List (Option Ch)
  | q, [] => (q, [])
  | q, .arrive bs :: r => Spec.picoRead (q ++ bs) r
  | q, .bump :: r => ((Spec.picoRead q.tail r).1, q.head? :: (Spec.picoRead q.tail r).2)
  | q, .bumpError _ :: r => ((Spec.picoRead q r).1, none :: (Spec.picoRead q r).2)

/-- **Reading from a Pico driver is reading a queue of bytes**: for every interleaving of arrivals and calls, each call gives
the oldest byte, as the integer any other buffer gives for it, or `eof()` when there is none.  Missing: other errors
(`pico_error_undefined`), and that with the own traits and signed `char` the byte 0xFF gives the integer that means `eof()`
(`pico_in_ff`). -/
theorem pico_in_partial (t : Traits) : ∀ (ops : List PicoIn) (q : List Ch), (∀ o ∈ ops, ∀ rc, o = .bumpError rc → rc = -3) →
    picoRead t q ops = some ((Spec.picoRead q ops).1, (Spec.picoRead q ops).2.map fun b => (b.map t.toInt).getD eofCode) := by
  intro ops
  induction ops with
  | nil => intro q _; rfl
  | cons o ops ih =>
    intro q h
    have h' := fun q => ih q (fun o ho => h o (by simp [ho]))
    cases o with
    | arrive bs => exact h' _
    | bump =>
      cases q with
      | nil => simp [picoRead, picoInChars, picoBump, h', Spec.picoRead]
      | cons b q => simp [picoRead, picoInChars, picoBump, h', Spec.picoRead]
    | bumpError rc =>
      have : rc = -3 := h _ (by simp) rc rfl
      subst this
      simp [picoRead, picoBump, h', Spec.picoRead]

example : picoRead ⟨false, true⟩ [] [.bump, .arrive [104, 0xFF], .bump, .bump, .bump] = some ([], [-1, 104, 255, -1]) := by decide +kernel

/-- **Violation.**  Any error but `PICO_ERROR_NO_DATA` is taken for a character that was never stored, wherever it comes. -/
theorem pico_error_undefined (t : Traits) (rc : Int) (hrc : rc ≠ -3) (before after : List PicoIn) (q : List Ch) :
    picoRead t q (before ++ .bumpError rc :: after) = none := by
  induction before generalizing q with
  | nil => simp [picoRead, picoBump, hrc]
  | cons o before ih =>
    cases o with
    | arrive bs => exact ih _
    | bump => simp [picoRead, ih]
    | bumpError rc => simp [picoRead, ih]

/-- **Violation.**  With the library's own traits and signed `char`, the byte 0xFF is taken off the driver and told as
`eof()`. -/
theorem pico_in_ff (q : List Ch) : picoRead ⟨true, true⟩ (0xFF :: q) [.bump] = some (q, [eofCode]) := rfl

end Verif.Streams
