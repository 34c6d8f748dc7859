import Verif.Streams.OutIter

/-!
# C66: stream buffers over an Arduino device

Modelled from `src/estd/port/arduino/streambuf.h` with the wrapper `src/estd/streambuf.h` and
`src/estd/internal/impl/streambuf/base.h`.

The device is the environment.  Its input side is the bytes received and not yet read; bytes arrive at any time between
calls, and while `readBytes` waits.  Its output side decides for each byte offered whether to take it.  The contract
assumed of Arduino's `Stream`: `read()`/`peek()` give the next byte as 0 … 255 or -1, `available()` the number of bytes,
`readBytes(s, n)` waits and stores up to `n` bytes.  Of `Print`: `write(byte)` gives 1 or 0, and `write(buf, n)` offers
bytes until one is refused.
-/
namespace Verif.Streams
open Verif Verif.DynArray

/-! ## Input -/

/-- Arduino `Stream`, input side -/
structure Dev where
  pending : List Ch
  deriving DecidableEq, Repr

/-- `Stream::peek()` -/
def Dev.peek (d : Dev) : Int := match d.pending with
  | [] => -1
  | b :: _ => b.toNat

/-- `Stream::read()` -/
def Dev.read (d : Dev) : Dev × Int := (⟨d.pending.tail⟩, d.peek)

/-- `Stream::readBytes(s, n)`; `late` are the bytes that come in before it gives up -/
def Dev.readBytes (d : Dev) (late : List Ch) (n : Nat) : Dev × List Ch :=
  (⟨(d.pending ++ late).drop n⟩, (d.pending ++ late).take n)

/-- `ch == -1 ? eof() : to_char_type(ch)` returned as an `int_type`, streambuf.h:83, 95, 101 -/
def charResult (t : Traits) (v : Int) : Int := if v = -1 then eofCode else t.promote (toChar v)

/-- `sgetc()`: the wrapper's, streambuf.h:157-160; `xin_avail()` is always 0 (base.h:97), so `underflow()`,
port/arduino/streambuf.h:92-96 -/
def Dev.sgetc (t : Traits) (d : Dev) : Int := charResult t d.peek

/-- `sbumpc()`: the implementation's own because of its tag, helpers.h:56-64, port/arduino/streambuf.h:80-84 -/
def Dev.sbumpc (t : Traits) (d : Dev) : Dev × Int := (d.read.1, charResult t d.read.2)

/-- `snextc()`, streambuf.h:167-172 -/
def Dev.snextc (t : Traits) (d : Dev) : Dev × Int :=
  if (d.sbumpc t).2 = eofCode then ((d.sbumpc t).1, eofCode) else ((d.sbumpc t).1, (d.sbumpc t).1.sgetc t)

/-- `sgetn(s, n)`, streambuf.h:118-122, port/arduino/streambuf.h:104-107 -/
def Dev.sgetn (d : Dev) (late : List Ch) (n : Nat) : Dev × List Ch := d.readBytes late n

/-- `in_avail()`, streambuf.h:184-187, port/arduino/streambuf.h:87-90 -/
def Dev.inAvail (d : Dev) : Nat := d.pending.length

/-- `gbump(count)`, port/arduino/streambuf.h:117-120: `while(count--) read()`, at most `fuel` times; `none`: still
running -/
def Dev.gbump : Nat → Dev → Int → Option Dev
  | 0, _, _ => none
  | fuel + 1, d, count => if count = 0 then some d else Dev.gbump fuel d.read.1 (count - 1)

/-- what can happen: bytes arrive, or the program calls -/
inductive DevOp where
  | arrive (bs : List Ch)
  | sgetc
  | sbumpc
  | snextc
  | sgetn (n : Nat) (late : List Ch)
  | inAvail
  deriving DecidableEq, Repr

/-- what a call returned -/
inductive DevOut where
  | none
  | int (v : Int)
  | text (l : List Ch)
  | count (n : Nat)
  deriving DecidableEq, Repr

def Dev.step (t : Traits) (d : Dev) : DevOp → Dev × DevOut
  | .arrive bs => (⟨d.pending ++ bs⟩, .none)
  | .sgetc => (d, .int (d.sgetc t))
  | .sbumpc => ((d.sbumpc t).1, .int (d.sbumpc t).2)
  | .snextc => ((d.snextc t).1, .int (d.snextc t).2)
  | .sgetn n late => ((d.sgetn late n).1, .text (d.sgetn late n).2)
  | .inAvail => (d, .count d.inAvail)

def Dev.run (t : Traits) : Dev → List DevOp → Dev × List DevOut
  | d, [] => (d, [])
  | d, o :: r => (((d.step t o).1.run t r).1, (d.step t o).2 :: ((d.step t o).1.run t r).2)

/-- the specification: a queue of bytes; a character read is a byte or nothing -/
inductive Spec.DevOut where
  | none
  | char (b : Option Ch)
  | text (l : List Ch)
  | count (n : Nat)

def Spec.devStep (q : List Ch) : DevOp → List Ch × Spec.DevOut
  | .arrive bs => (q ++ bs, .none)
  | .sgetc => (q, .char q.head?)
  | .sbumpc => (q.tail, .char q.head?)
  | .snextc => (q.tail, .char q.tail.head?)
  | .sgetn n late => ((q ++ late).drop n, .text ((q ++ late).take n))
  | .inAvail => (q, .count q.length)

def Spec.devRun : List Ch → List DevOp → List Ch × List Spec.DevOut
  | q, [] => (q, [])
  | q, o :: r => ((Spec.devRun (Spec.devStep q o).1 r).1, (Spec.devStep q o).2 :: (Spec.devRun (Spec.devStep q o).1 r).2)

/-- how a character result is told as an integer: -1 for nothing, else the `char`'s value -/
def Spec.told (t : Traits) : Spec.DevOut → Streams.DevOut
  | .none => .none
  | .char none => .int (-1)
  | .char (some b) => .int (t.promote b)
  | .text l => .text l
  | .count n => .count n

/-- the bytes an event brings in -/
def Spec.incoming : DevOp → List Ch
  | .arrive bs => bs
  | .sgetn _ late => late
  | _ => []

theorem promote_toChar (t : Traits) (b : Ch) : t.promote (toChar (b.toNat : Int)) = t.promote b := by
  have : toChar (b.toNat : Int) = b := by
    unfold toChar; rw [BitVec.ofInt_natCast, BitVec.ofNat_toNat]; simp
  rw [this]

theorem charResult_peek (t : Traits) (d : Dev) :
    charResult t d.peek = match d.pending with
      | [] => -1
      | b :: _ => t.promote b := by
  unfold charResult Dev.peek
  cases d.pending with
  | nil => rfl
  | cons b r =>
    simp only
    rw [if_neg (by have := b.isLt; omega), promote_toChar]

theorem dev_step (t : Traits) (d : Dev) (o : DevOp) (hq : ∀ b ∈ d.pending, t.promote b ≠ -1) :
    d.step t o = (⟨(Spec.devStep d.pending o).1⟩, Spec.told t (Spec.devStep d.pending o).2) := by
  obtain ⟨q⟩ := d
  cases o with
  | arrive bs => rfl
  | sgetc =>
    simp only [Dev.step, Dev.sgetc, charResult_peek, Spec.devStep]
    cases q <;> rfl
  | sbumpc =>
    simp only [Dev.step, Dev.sbumpc, Dev.read, charResult_peek, Spec.devStep]
    cases q <;> rfl
  | snextc =>
    simp only [Dev.step, Dev.snextc, Dev.sbumpc, Dev.read, Dev.sgetc, charResult_peek, Spec.devStep]
    cases q with
    | nil => simp [eofCode, Spec.told]
    | cons b r =>
      have := hq b (by simp)
      simp only [eofCode, this, if_false, List.tail_cons]
      cases r <;> rfl
  | sgetn n late => rfl
  | inAvail => rfl

theorem devStep_mem (q : List Ch) (o : DevOp) (b : Ch) (h : b ∈ (Spec.devStep q o).1) : b ∈ q ∨ b ∈ Spec.incoming o := by
  cases o with
  | arrive bs => simpa [Spec.devStep, Spec.incoming] using h
  | sgetc => exact .inl h
  | sbumpc => exact .inl (List.mem_of_mem_tail h)
  | snextc => exact .inl (List.mem_of_mem_tail h)
  | sgetn n late =>
    have := List.mem_of_mem_drop h
    simpa [Spec.incoming] using this
  | inAvail => exact .inl h

/-- **Reading from a device is reading a queue of bytes**: for every interleaving of arrivals and calls, each call
returns what the queue gives, provided no byte received has the `char` value -1.  Nothing is lost, repeated or
reordered.  Missing: the byte 0xFF where `char` is signed (`device_ff_lost`). -/
theorem device_history_partial (t : Traits) (ops : List DevOp) : ∀ (q : List Ch),
    (∀ b ∈ q, t.promote b ≠ -1) → (∀ o ∈ ops, ∀ b ∈ Spec.incoming o, t.promote b ≠ -1) →
    Dev.run t ⟨q⟩ ops = (⟨(Spec.devRun q ops).1⟩, (Spec.devRun q ops).2.map (Spec.told t)) := by
  induction ops with
  | nil => intro q _ _; rfl
  | cons o ops ih =>
    intro q hq ho
    have hs := dev_step t ⟨q⟩ o hq
    have := ih (Spec.devStep q o).1
      (fun b hb => (devStep_mem q o b hb).elim (hq b) (ho o (by simp) b))
      (fun o' h' => ho o' (by simp [h']))
    simp only [Dev.run, hs, this, Spec.devRun, List.map_cons]

/-- With unsigned `char` the hypothesis holds of every byte. -/
theorem device_history_unsigned (own : Bool) (ops : List DevOp) (q : List Ch) :
    Dev.run ⟨own, false⟩ ⟨q⟩ ops = (⟨(Spec.devRun q ops).1⟩, (Spec.devRun q ops).2.map (Spec.told ⟨own, false⟩)) :=
  device_history_partial ⟨own, false⟩ ops q (fun b _ => by simp [Traits.promote])
    (fun _ _ b _ => by simp [Traits.promote])

example : Dev.run ⟨true, true⟩ ⟨[]⟩ [.sgetc, .arrive [104, 105], .sgetc, .sbumpc, .snextc, .arrive [1, 2, 3], .inAvail,
    .sgetn 5 [4], .sbumpc]
    = (⟨[]⟩, [.int (-1), .none, .int 104, .int 104, .int (-1), .none, .count 3, .text [1, 2, 3, 4], .int (-1)]) := by
  decide +kernel

/-- `sbumpc()` and `snextc()` take the oldest byte off the device whatever it is, even when they report `eof()` for it. -/
theorem device_consumes (t : Traits) (q : List Ch) : (Dev.sbumpc t ⟨q⟩).1 = ⟨q.tail⟩ ∧ (Dev.snextc t ⟨q⟩).1 = ⟨q.tail⟩ := by
  refine ⟨rfl, ?_⟩
  unfold Dev.snextc
  split <;> rfl

/-- the read loop `while((c = sbumpc()) != eof())`, at most `fuel` times: what it collects -/
def Dev.readAll (t : Traits) : Nat → Dev → List Ch × Dev
  | 0, d => ([], d)
  | fuel + 1, d =>
    if (d.sbumpc t).2 = eofCode then ([], (d.sbumpc t).1)
    else (toChar (d.sbumpc t).2 :: (Dev.readAll t fuel (d.sbumpc t).1).1, (Dev.readAll t fuel (d.sbumpc t).1).2)

/-- **Violation.**  With signed `char` (under either `char_traits`) a received 0xFF byte is taken off the device and
reported as `eof()`: the loop that reads until `eof()` returns the bytes before the first 0xFF, that byte is gone, and
the rest is left unread. -/
theorem device_ff_lost (own : Bool) : ∀ (before after : List Ch) (fuel : Nat), before.length < fuel → 0xFF ∉ before →
    Dev.readAll ⟨own, true⟩ fuel ⟨before ++ 0xFF :: after⟩ = (before, ⟨after⟩) := by
  intro before
  induction before with
  | nil =>
    intro after fuel hf _
    obtain ⟨n, rfl⟩ : ∃ n, fuel = n + 1 := ⟨fuel - 1, by simp at hf; omega⟩
    have e : Dev.sbumpc ⟨own, true⟩ ⟨0xFF :: after⟩ = (⟨after⟩, eofCode) := by
      simp only [Dev.sbumpc, Dev.read, charResult_peek]; rfl
    simp only [List.nil_append, Dev.readAll, e, if_true]
  | cons b r ih =>
    intro after fuel hf hb
    obtain ⟨n, rfl⟩ : ∃ n, fuel = n + 1 := ⟨fuel - 1, by simp at hf; omega⟩
    have hb1 : b ≠ 0xFF := fun e => hb (by simp [e])
    have e : Dev.sbumpc ⟨own, true⟩ ⟨b :: (r ++ 0xFF :: after)⟩ = (⟨r ++ 0xFF :: after⟩, b.toInt) := by
      simp only [Dev.sbumpc, Dev.read, charResult_peek]; rfl
    have hne : b.toInt ≠ eofCode := by
      intro h
      apply hb1
      apply BitVec.eq_of_toInt_eq
      rw [h]; rfl
    have hc : toChar b.toInt = b := by simp [toChar]
    simp only [List.cons_append, Dev.readAll, e, hne, if_false, hc]
    rw [ih after n (by simp at hf; omega) (fun h => hb (List.mem_cons_of_mem _ h))]

/-- Without such a byte the loop reads everything there is. -/
theorem device_read_all (t : Traits) : ∀ (q : List Ch) (fuel : Nat), q.length < fuel → (∀ b ∈ q, t.promote b ≠ -1) →
    Dev.readAll t fuel ⟨q⟩ = (q, ⟨[]⟩) := by
  intro q
  induction q with
  | nil =>
    intro fuel hf _
    obtain ⟨n, rfl⟩ : ∃ n, fuel = n + 1 := ⟨fuel - 1, by simp at hf; omega⟩
    have e : Dev.sbumpc t ⟨[]⟩ = (⟨[]⟩, eofCode) := by simp only [Dev.sbumpc, Dev.read, charResult_peek]; rfl
    simp [Dev.readAll, e]
  | cons b r ih =>
    intro fuel hf hb
    obtain ⟨n, rfl⟩ : ∃ n, fuel = n + 1 := ⟨fuel - 1, by simp at hf; omega⟩
    have e : Dev.sbumpc t ⟨b :: r⟩ = (⟨r⟩, t.promote b) := by simp only [Dev.sbumpc, Dev.read, charResult_peek]; rfl
    have hne : t.promote b ≠ eofCode := hb b (by simp)
    simp only [Dev.readAll, e, hne, if_false, toChar_promote]
    rw [ih n (by simp at hf; omega) (fun x hx => hb x (by simp [hx]))]

/-- **Violation.**  Under the standard traits a byte read from a device is not what `to_int_type` makes of the character
(and so not what a span or string buffer holding it returns): the two agree exactly for bytes below 0x80, where `char` is
signed. -/
theorem device_int_type (b : Ch) (r : List Ch) :
    Dev.sgetc ⟨false, true⟩ ⟨b :: r⟩ = (Traits.toInt ⟨false, true⟩ b) ↔ b.toNat < 128 := by
  simp only [Dev.sgetc, charResult_peek, Traits.promote, Traits.toInt, if_true, Bool.false_eq_true, if_false]
  rw [BitVec.toInt_eq_toNat_cond]
  have := b.isLt
  split <;> omega

/-- Skipping forward drops that many bytes (or all there are). -/
theorem device_gbump (n : Nat) : ∀ (q : List Ch) (fuel : Nat), n < fuel → Dev.gbump fuel ⟨q⟩ n = some ⟨q.drop n⟩ := by
  induction n with
  | zero =>
    intro q fuel hf
    obtain ⟨f, rfl⟩ : ∃ f, fuel = f + 1 := ⟨fuel - 1, by omega⟩
    simp [Dev.gbump]
  | succ n ih =>
    intro q fuel hf
    obtain ⟨f, rfl⟩ : ∃ f, fuel = f + 1 := ⟨fuel - 1, by omega⟩
    rw [Dev.gbump, if_neg (by omega), show ((n + 1 : Nat) : Int) - 1 = n by omega, Dev.read, ih _ f (by omega)]
    cases q <;> simp

/-- **Violation.**  Skipping backward never ends (and eats the input as it comes). -/
theorem device_gbump_negative (fuel : Nat) : ∀ (d : Dev) (n : Int), n < 0 → Dev.gbump fuel d n = none := by
  induction fuel with
  | zero => intro d n _; rfl
  | succ f ih =>
    intro d n hn
    rw [Dev.gbump, if_neg (by omega)]
    exact ih _ _ (by omega)

/-! ## Output -/

/-- Arduino `Print`: the bytes taken so far, and how many have been offered -/
structure Pr where
  sent : List Ch
  offers : Nat
  deriving DecidableEq, Repr

/-- `Print::write(byte)`; `dev k` is whether the device takes the `k`th byte offered -/
def Pr.write1 (dev : Nat → Bool) (p : Pr) (ch : Ch) : Pr × Bool :=
  if dev p.offers then (⟨p.sent ++ [ch], p.offers + 1⟩, true) else (⟨p.sent, p.offers + 1⟩, false)

/-- `Print::write(buf, n)`: until one is refused -/
def Pr.writeN (dev : Nat → Bool) : Pr → List Ch → Pr × Nat
  | p, [] => (p, 0)
  | p, ch :: r =>
    if (p.write1 dev ch).2 then (((p.write1 dev ch).1.writeN dev r).1, ((p.write1 dev ch).1.writeN dev r).2 + 1)
    else ((p.write1 dev ch).1, 0)

/-- `arduino_ostreambuf`, port/arduino/streambuf.h:38-49; `overflow` and `sync` are the defaults, base.h:65, 87-90 -/
def deviceOut (t : Traits) (dev : Nat → Bool) : OutImpl Pr where
  xsputn p text := .ok (p.writeN dev text)
  overflow := noOverflow
  sputc p ch := .ok ((p.write1 dev ch).1, if (p.write1 dev ch).2 then t.toInt ch else eofCode)
  sync := noSync

theorem writeN_spec (dev : Nat → Bool) (text : List Ch) : ∀ p : Pr,
    (p.writeN dev text).2 ≤ text.length ∧ (p.writeN dev text).1.sent = p.sent ++ text.take (p.writeN dev text).2 := by
  induction text with
  | nil => intro p; simp [Pr.writeN]
  | cons ch r ih =>
    intro p
    by_cases h : dev p.offers
    · have := ih ⟨p.sent ++ [ch], p.offers + 1⟩
      simp only [Pr.writeN, Pr.write1, h, if_true, List.length_cons, List.take_succ_cons]
      exact ⟨by omega, by rw [this.2]; simp⟩
    · simp [Pr.writeN, Pr.write1, h]

/-- **Output to a device**: whatever the device takes and refuses, after any history it has received exactly the
characters the results say were accepted, in order.  Missing: single characters that read as `eof()`
(`device_out_ff`). -/
theorem device_out_partial (t : Traits) (dev : Nat → Bool) (ops : List OutOp) (ht : ∀ ch, OutOp.putc ch ∈ ops → t.Tellable ch) :
    ∀ p : Pr, ∃ p' rs, (deviceOut t dev).run t p ops = .ok (p', rs) ∧ p'.sent = p.sent ++ Spec.acceptedAll ops rs := by
  induction ops with
  | nil => intro p; exact ⟨p, [], rfl, by simp [Spec.acceptedAll]⟩
  | cons o ops ih =>
    intro p
    have hstep : ∃ p1 r, (deviceOut t dev).step t p o = .ok (p1, r) ∧ p1.sent = p.sent ++ Spec.accepted o r := by
      cases o with
      | putc ch =>
        have htc := ht ch (by simp)
        unfold Traits.Tellable at htc
        refine ⟨(p.write1 dev ch).1, .int (if (p.write1 dev ch).2 then t.toInt ch else eofCode), rfl, ?_⟩
        by_cases h : dev p.offers
        · simp [Pr.write1, h, Spec.accepted, htc]
        · simp [Pr.write1, h, Spec.accepted]
      | putn text =>
        have hd : ∃ p1 n, (deviceOut t dev).sputn t p text = .ok (p1, n) := by
          unfold OutImpl.sputn
          simp only [deviceOut, Res.bind_ok]
          split
          · next hw =>
            rw [rd_lt hw]
            exact ⟨_, _, rfl⟩
          · exact ⟨_, _, rfl⟩
        obtain ⟨p1, n, hd⟩ := hd
        have hh := sputn_honest t (deviceOut t dev) Pr.sent
          (fun s x s' m h => by
            simp only [deviceOut, Res.ok.injEq] at h
            have := writeN_spec dev x s
            rw [h] at this; exact this)
          (fun s ch s' r h => by
            simp only [deviceOut, noOverflow, Res.ok.injEq, Prod.mk.injEq] at h
            rw [← h.1, ← h.2]; simp) p text p1 n hd
        exact ⟨p1, .count n, by simp [OutImpl.step, hd], hh.2⟩
      | sync => exact ⟨p, .int 0, rfl, by simp [Spec.accepted]⟩
    obtain ⟨p1, r, e1, e2⟩ := hstep
    obtain ⟨p2, rs, e3, e4⟩ := ih (fun ch h => ht ch (by simp [h])) p1
    exact ⟨p2, r :: rs, by simp [OutImpl.run, e1, e3], by rw [e4, e2, Spec.acceptedAll, List.append_assoc]⟩

example : (deviceOut ⟨true, true⟩ (fun k => k != 2)).run ⟨true, true⟩ ⟨[], 0⟩ [.putc 97, .putn [98, 99, 100], .putc 101, .sync]
    = .ok (⟨[97, 98, 101], 4⟩, [.int 97, .count 1, .int 101, .int 0]) := by decide +kernel

/-- A bulk put stops at the first refusal: of `n` bytes offered to a device that takes `k` more, `min n k` arrive. -/
theorem device_putn_stops (dev : Nat → Bool) (k : Nat) (text : List Ch) : ∀ (p : Pr),
    (∀ j, p.offers ≤ j → (dev j = true ↔ j < p.offers + k)) →
    (p.writeN dev text).2 = min text.length k ∧ (p.writeN dev text).1.sent = p.sent ++ text.take k := by
  induction text generalizing k with
  | nil => intro p _; simp [Pr.writeN]
  | cons ch r ih =>
    intro p hd
    have h0 := hd p.offers (Nat.le_refl _)
    cases k with
    | zero =>
      have : dev p.offers = false := by
        cases hb : dev p.offers
        · rfl
        · have := h0.mp hb; omega
      simp [Pr.writeN, Pr.write1, this]
    | succ k =>
      have hb : dev p.offers = true := h0.mpr (by omega)
      have := ih k ⟨p.sent ++ [ch], p.offers + 1⟩ (fun j hj => by
        simp only at hj ⊢
        rw [hd j (by omega)]; omega)
      simp only [Pr.writeN, Pr.write1, hb, if_true, List.length_cons, List.take_succ_cons]
      exact ⟨by rw [this.1]; omega, by rw [this.2]; simp⟩

/-- **Violation.**  With the library's own traits and signed `char`, a 0xFF byte the device took is reported as refused:
the two outcomes return the same. -/
theorem device_out_ff (dev : Nat → Bool) (p : Pr) :
    (deviceOut ⟨true, true⟩ dev).sputc p 0xFF = .ok ((p.write1 dev 0xFF).1, eofCode) := by
  show DynArray.Res.ok _ = _
  cases h : (p.write1 dev 0xFF).2
  · rfl
  · rfl

end Verif.Streams
