import Verif.Streams.BipOut
import Verif.Streams.InProps

/-!
# C59: input buffered through a bip buffer

Modelled from `src/estd/internal/impl/streambuf/bipbuf.h` (`in_buffered_bipbuf`) over the bip buffer of C31, under the
wrapper `streambuf<Impl>` of C36; a character is one byte.  `none` is undefined behaviour.
-/
namespace Verif.Streams
open Verif Verif.DynArray Verif.Bip

/-! ## The model -/

/-- the wrapped streambuf, as far as it is used: `sgetn(s, count)` gives the characters stored, possibly fewer -/
abbrev Source (σ : Type) := σ → Nat → Option (σ × List Ch)

/-- `in_buffered_bipbuf`, bipbuf.h:133-145: the wrapped streambuf and the bip buffer -/
structure BipIn (σ : Type) where
  src : σ
  buf : Bip.Buf Ch

/-- `xin_avail()`, bipbuf.h:169-172; also `showmanyc()`, bipbuf.h:175-178 -/
def BipIn.xinAvail {σ : Type} (b : BipIn σ) : Nat := u32 (used b.buf)

/-- what `sync()` does with the characters read, which `sgetn` stored at `offer_begin()`: bipbuf.h:160-166 -/
def BipIn.store {σ : Type} (b : BipIn σ) (src' : σ) (got : List Ch) : Option (BipIn σ × Int) :=
  (Bip.memcpy b.buf.data (offerBegin b.buf) got).map fun m =>
    if got.length = 0 then (⟨src', { b.buf with data := m }⟩, -1)
    else (⟨src', offerEnd { b.buf with data := m } got.length⟩, 0)

/-- `sync()`, bipbuf.h:152-167 -/
def BipIn.sync {σ : Type} (G : Source σ) (b : BipIn σ) : Option (BipIn σ × Int) :=
  if u32 (unused b.buf) = 0 then some (b, -1)
  else (G b.src (u32 (unused b.buf))).bind fun r => b.store r.1 r.2

/-- `xsgetc()`, bipbuf.h:222-229: what `peek()` points at -/
def BipIn.xsgetc {σ : Type} (b : BipIn σ) : Option Ch := (Bip.peek b.buf 0).bind (rd b.buf.data)

/-- `underflow()`, bipbuf.h:192-202: the character is converted without `to_int_type` -/
def BipIn.underflow {σ : Type} (t : Traits) (G : Source σ) (b : BipIn σ) : Option (BipIn σ × Int) :=
  if b.xinAvail = 0 then
    (b.sync G).bind fun r => if r.2 = -1 then some (r.1, -1) else (r.1.xsgetc).map fun ch => (r.1, t.promote ch)
  else (b.xsgetc).map fun ch => (b, t.promote ch)

/-- `gbump(count)`, bipbuf.h:217-220 -/
def BipIn.gbump {σ : Type} (b : BipIn σ) (count : Nat) : BipIn σ := { b with buf := (Bip.poll b.buf count).2 }

/-- `uflow()`, bipbuf.h:204-215 -/
def BipIn.uflow {σ : Type} (t : Traits) (G : Source σ) (b : BipIn σ) : Option (BipIn σ × Int) :=
  (b.underflow t G).map fun r => if r.2 ≠ eofCode then (r.1.gbump 1, r.2) else r

/-- `sgetc()`, streambuf.h:157-160, 75-79 -/
def BipIn.sgetc {σ : Type} (t : Traits) (G : Source σ) (b : BipIn σ) : Option (BipIn σ × Int) :=
  if b.xinAvail = 0 then b.underflow t G else (b.xsgetc).map fun ch => (b, t.toInt ch)

/-- `sbumpc()`, streambuf.h:152-155, helpers.h:31-45 -/
def BipIn.sbumpc {σ : Type} (t : Traits) (G : Source σ) (b : BipIn σ) : Option (BipIn σ × Int) :=
  (b.sgetc t G).bind fun r => if r.2 ≠ eofCode then some (r.1.gbump 1, r.2) else r.1.uflow t G

/-- `snextc()`, streambuf.h:167-172 -/
def BipIn.snextc {σ : Type} (t : Traits) (G : Source σ) (b : BipIn σ) : Option (BipIn σ × Int) :=
  (b.sbumpc t G).bind fun r => if r.2 = eofCode then some (r.1, eofCode) else r.1.sgetc t G

/-- the copy of `xsgetn`, bipbuf.h:185, from where `peek()` points; from a null pointer only nothing can be copied -/
def copyFrom (data : List Ch) (n : Nat) (dest : List Ch) : Option Nat → Option (List Ch)
  | none => if n = 0 then some dest else none
  | some p => copyChars data p n dest

/-- `sgetn(s, count)`, streambuf.h:118-122, `xsgetn`, bipbuf.h:180-188 (a negative count is not modelled): the
destination and the count returned -/
def BipIn.sgetn {σ : Type} (b : BipIn σ) (dest : List Ch) (count : Nat) : Option (List Ch × Nat) :=
  let n := if count > b.xinAvail then b.xinAvail else count
  (copyFrom b.buf.data n dest (Bip.peek b.buf 0)).map fun d => (d, n)

/-- the operations of a history; `avail` is `in_avail()` (streambuf.h:184-187), `sync` is `pubsync()` (196-199), `flow` is
`uflow()` itself -/
inductive BipInOp where
  | getc
  | bumpc
  | flow
  | nextc
  | sync
  | avail
  deriving DecidableEq, Repr

def BipIn.step {σ : Type} (t : Traits) (G : Source σ) (b : BipIn σ) : BipInOp → Option (BipIn σ × Int)
  | .getc => b.sgetc t G
  | .bumpc => b.sbumpc t G
  | .flow => b.uflow t G
  | .nextc => b.snextc t G
  | .sync => b.sync G
  | .avail => some (b, b.xinAvail)

def BipIn.run {σ : Type} (t : Traits) (G : Source σ) (b : BipIn σ) : List BipInOp → Option (BipIn σ × List Int)
  | [] => some (b, [])
  | op :: ops => (b.step t G op).bind fun r => (BipIn.run t G r.1 ops).map fun q => (q.1, r.2 :: q.2)

/-! ## The specification -/

/-- the value a stream with `rest` left to read shows: its first character, or end of file -/
def Spec.shows (t : Traits) : List Ch → Int
  | [] => eofCode
  | ch :: _ => t.toInt ch

/-- one operation on a stream with `rest` left: the values it may return and what is left afterwards -/
def Spec.bipRead (t : Traits) (rest : List Ch) (op : BipInOp) (v : Int) (rest' : List Ch) : Prop :=
  match op with
  | .getc => v = Spec.shows t rest ∧ rest' = rest
  | .bumpc | .flow => v = Spec.shows t rest ∧ rest' = rest.tail
  | .nextc => v = Spec.shows t rest.tail ∧ rest' = rest.tail
  | .sync => (v = 0 ∧ rest ≠ [] ∨ v = -1) ∧ rest' = rest
  | .avail => (0 ≤ v ∧ v ≤ rest.length) ∧ rest' = rest

def Spec.bipReads (t : Traits) (rest : List Ch) : List BipInOp → List Int → List Ch → Prop
  | [], vs, rest' => vs = [] ∧ rest' = rest
  | op :: ops, vs, rest' => ∃ v vs' mid, vs = v :: vs' ∧ Spec.bipRead t rest op v mid ∧ Spec.bipReads t mid ops vs' rest'

/-- A source with `rest` left gives, when asked for up to `n ≤ L` characters, some of the next ones, and none only at
the end. -/
def Spec.Supplies {σ : Type} (G : Source σ) (R : σ → List Ch → Prop) (L : Nat) : Prop :=
  ∀ s rest n, R s rest → 0 < n → n ≤ L →
    ∃ s' got rest', G s n = some (s', got) ∧ rest = got ++ rest' ∧ got.length ≤ n ∧ R s' rest' ∧ (got = [] → rest = [])

/-- characters that a plain conversion and `to_int_type` agree on, and that do not look like end of file -/
def Spec.Plain (t : Traits) (ch : Ch) : Prop := t.toInt ch = t.promote ch ∧ t.toInt ch ≠ eofCode

/-! ## Proofs -/

structure BipInRep {σ : Type} (t : Traits) (R : σ → List Ch → Prop) (L : Nat) (b : BipIn σ) (rest : List Ch) : Prop where
  inv : Bip.Inv b.buf
  size : b.buf.size = L
  room : 0 < L
  split : ∃ tail, R b.src tail ∧ rest = contents b.buf ++ tail
  plain : ∀ ch ∈ rest, Spec.Plain t ch

section
variable {σ : Type} {t : Traits} {G : Source σ} {R : σ → List Ch → Prop} {L : Nat} {b : BipIn σ} {rest : List Ch}

theorem BipInRep.bound (h : BipInRep t R L b rest) : (contents b.buf).length ≤ L ∧ L < 2147483648 := by
  have h1 := h.inv.below; have h2 := h.inv.ordered; have h3 := h.inv.fits; have h4 := h.inv.small
  rw [h.size] at h3 h4
  rw [contents_length h.inv]
  omega

theorem BipInRep.avail_eq (h : BipInRep t R L b rest) : b.xinAvail = (contents b.buf).length := by
  have := h.bound
  rw [BipIn.xinAvail, used_exact h.inv, u32_eq (by omega)]

theorem BipInRep.unused_le (h : BipInRep t R L b rest) : ∃ n : Nat, unused b.buf = n ∧ u32 (unused b.buf) = n ∧ n ≤ L := by
  have h0 := h.bound
  obtain ⟨h1, h2⟩ := accounting b.buf h.inv
  rw [h.size, used_exact h.inv] at h2
  refine ⟨(unused b.buf).toNat, by omega, ?_, by omega⟩
  rw [show unused b.buf = ((unused b.buf).toNat : Int) by omega, u32_eq (by omega)]
  omega

theorem BipInRep.sync (h : BipInRep t R L b rest) (hG : Spec.Supplies G R L) :
    ∃ b' v, b.sync G = some (b', v) ∧ BipInRep t R L b' rest ∧
      (v = -1 ∧ (unused b.buf = 0 ∨ rest = contents b.buf) ∧ contents b'.buf = contents b.buf ∨
       v = 0 ∧ contents b'.buf ≠ []) := by
  obtain ⟨n, n1, n2, n3⟩ := h.unused_le
  obtain ⟨tail, r1, r2⟩ := h.split
  by_cases hz : n = 0
  · exact ⟨b, -1, by rw [BipIn.sync, n2, if_pos hz], h, Or.inl ⟨rfl, Or.inl (by rw [n1, hz]; rfl), rfl⟩⟩
  · obtain ⟨s', got, rest', g1, g2, g3, g4, g5⟩ := hG b.src tail n r1 (by omega) n3
    rcases offer_spec b.buf h.inv got with ⟨x, o1, o2, o3, o4, o5⟩ | ⟨o1, -⟩
    · obtain ⟨m, m1, m2⟩ := offer_begin_end b.buf got o1 x o2
      have hs : b.sync G = b.store s' got := by rw [BipIn.sync, n2, if_neg hz, g1]; rfl
      rw [hs, BipIn.store, m1]
      by_cases he : got = []
      · subst he
        simp only [Bip.memcpy, Option.some.injEq] at m1
        subst m1
        refine ⟨⟨s', b.buf⟩, -1, by simp, ⟨h.inv, h.size, h.room, ⟨rest', g4, ?_⟩, h.plain⟩, Or.inl ⟨rfl, Or.inr ?_, rfl⟩⟩
        · rw [r2, g2]; simp
        · rw [r2, g5 rfl]; simp
      · refine ⟨⟨s', x⟩, 0, ?_, ⟨o3, by simp only; rw [o4, h.size], h.room, ⟨rest', g4, ?_⟩, h.plain⟩, Or.inr ⟨rfl, ?_⟩⟩
        · rw [Option.map_some, if_neg (by rwa [List.length_eq_zero_iff]), m2]
        · rw [r2, g2]; simp only; rw [o5]; simp
        · simp only; rw [o5]; simp [he]
    · omega

theorem BipInRep.front (h : BipInRep t R L b rest) (hne : contents b.buf ≠ []) :
    ∃ ch rest', b.xsgetc = some ch ∧ rest = ch :: rest' ∧ BipInRep t R L (b.gbump 1) rest' := by
  obtain ⟨tail, r1, r2⟩ := h.split
  have hc : 1 ≤ contiguous b.buf := by
    rcases Nat.eq_zero_or_pos (contiguous b.buf) with e | e
    · refine absurd ((isEmpty_iff h.inv).mp ?_) hne
      have := h.inv.ordered
      unfold contiguous at e
      simp only [isEmpty, beq_iff_eq]; omega
    · exact e
  obtain ⟨ch, cs, hcs⟩ := List.exists_cons_of_ne_nil hne
  obtain ⟨p, p1, -⟩ := Bip.peek_spec b.buf h.inv 0 (by omega) hne
  obtain ⟨q, b', q1, -, q2, q3, q4, q5⟩ := poll_spec b.buf h.inv 1 hc hne
  have hp : p = b.buf.aStart := by
    unfold Bip.peek at p1
    split at p1
    · cases p1
    · split at p1
      · cases p1
      · cases p1; rfl
  refine ⟨ch, cs ++ tail, ?_, by rw [r2, hcs]; rfl, ?_⟩
  · have := take_contents 1 hc h.inv
    rw [hcs] at this
    simp only [List.take_succ_cons, List.take_zero] at this
    rw [BipIn.xsgetc, p1, hp, Option.bind_some, rd]
    have e := congrArg (fun l => l[0]?) this
    simp only [List.getElem?_take, List.getElem?_drop] at e
    simpa using e
  · rw [BipIn.gbump, q1]
    refine ⟨q3, by simp only; rw [q4, h.size], h.room, ⟨tail, r1, ?_⟩, fun c hc => h.plain c ?_⟩
    · simp only; rw [q5, hcs]; rfl
    · rw [r2, hcs]; exact List.mem_cons_of_mem _ hc

theorem BipInRep.underflow (h : BipInRep t R L b rest) (hG : Spec.Supplies G R L) :
    ∃ b', b.underflow t G = some (b', Spec.shows t rest) ∧ BipInRep t R L b' rest ∧
      (rest ≠ [] → contents b'.buf ≠ []) := by
  have look : ∀ b : BipIn σ, BipInRep t R L b rest → contents b.buf ≠ [] →
      (b.xsgetc).map (fun ch => (b, t.promote ch)) = some (b, Spec.shows t rest) := by
    intro b h hne
    obtain ⟨ch, rest', f1, f2, -⟩ := h.front hne
    rw [f1, Option.map_some, ← (h.plain ch (by rw [f2]; simp)).1, f2]
    rfl
  rw [BipIn.underflow, h.avail_eq]
  by_cases hz : (contents b.buf).length = 0
  · have hz' := List.length_eq_zero_iff.mp hz
    rw [if_pos hz]
    obtain ⟨b', v, s1, s2, s3⟩ := h.sync hG
    rw [s1, Option.bind_some]
    rcases s3 with ⟨rfl, s3, s4⟩ | ⟨rfl, s3⟩
    · have hr : rest = [] := by
        rcases s3 with s3 | s3
        · have := empty_accepts b.buf h.inv hz'
          rw [h.size] at this
          have := h.room
          omega
        · rw [s3, hz']
      exact ⟨b', by simp [hr, Spec.shows, eofCode], s2, fun hn => absurd hr hn⟩
    · exact ⟨b', by simp only; rw [if_neg (by decide), look b' s2 s3], s2, fun _ => s3⟩
  · have hz' : contents b.buf ≠ [] := fun e => hz (by rw [e]; rfl)
    rw [if_neg hz]
    exact ⟨b, look b h hz', h, fun _ => hz'⟩

theorem BipInRep.sgetc (h : BipInRep t R L b rest) (hG : Spec.Supplies G R L) :
    ∃ b', b.sgetc t G = some (b', Spec.shows t rest) ∧ BipInRep t R L b' rest ∧
      (rest ≠ [] → contents b'.buf ≠ []) := by
  rw [BipIn.sgetc]
  by_cases hz : b.xinAvail = 0
  · rw [if_pos hz]; exact h.underflow hG
  · rw [if_neg hz]
    have hne : contents b.buf ≠ [] := fun e => hz (by rw [h.avail_eq, e]; rfl)
    obtain ⟨ch, rest', f1, f2, -⟩ := h.front hne
    exact ⟨b, by rw [f1, f2]; rfl, h, fun _ => hne⟩

theorem Spec.shows_eof {t : Traits} {rest : List Ch} (hp : ∀ ch ∈ rest, Spec.Plain t ch) :
    Spec.shows t rest = eofCode ↔ rest = [] := by
  cases rest with
  | nil => simp [Spec.shows]
  | cons c r => simpa [Spec.shows] using (hp c (by simp)).2

theorem BipInRep.sbumpc (h : BipInRep t R L b rest) (hG : Spec.Supplies G R L) :
    ∃ b', b.sbumpc t G = some (b', Spec.shows t rest) ∧ BipInRep t R L b' rest.tail := by
  obtain ⟨b1, s1, s2, s3⟩ := h.sgetc hG
  rw [BipIn.sbumpc, s1, Option.bind_some]
  by_cases hr : rest = []
  · rw [if_neg (by simp [hr, Spec.shows])]
    obtain ⟨b2, u1, u2, -⟩ := s2.underflow hG
    refine ⟨b2, ?_, by rw [hr] at u2 ⊢; exact u2⟩
    rw [BipIn.uflow, u1, Option.map_some, if_neg (by simp [hr, Spec.shows])]
  · rw [if_pos (by simp only [ne_eq]; rw [Spec.shows_eof h.plain]; exact hr)]
    obtain ⟨ch, rest', f1, f2, f3⟩ := s2.front (s3 hr)
    exact ⟨_, rfl, by rw [f2]; exact f3⟩

theorem BipInRep.uflow (h : BipInRep t R L b rest) (hG : Spec.Supplies G R L) :
    ∃ b', b.uflow t G = some (b', Spec.shows t rest) ∧ BipInRep t R L b' rest.tail := by
  obtain ⟨b1, s1, s2, s3⟩ := h.underflow hG
  rw [BipIn.uflow, s1, Option.map_some]
  by_cases hr : rest = []
  · rw [if_neg (by simp [hr, Spec.shows])]
    exact ⟨b1, rfl, by rw [hr] at s2 ⊢; exact s2⟩
  · rw [if_pos (by simp only [ne_eq]; rw [Spec.shows_eof h.plain]; exact hr)]
    obtain ⟨ch, rest', f1, f2, f3⟩ := s2.front (s3 hr)
    exact ⟨_, rfl, by rw [f2]; exact f3⟩

theorem BipInRep.step (h : BipInRep t R L b rest) (hG : Spec.Supplies G R L) (op : BipInOp) :
    ∃ b' v rest', b.step t G op = some (b', v) ∧ Spec.bipRead t rest op v rest' ∧ BipInRep t R L b' rest' := by
  cases op with
  | getc =>
    obtain ⟨b', s1, s2, -⟩ := h.sgetc hG
    exact ⟨b', _, rest, s1, ⟨rfl, rfl⟩, s2⟩
  | bumpc =>
    obtain ⟨b', s1, s2⟩ := h.sbumpc hG
    exact ⟨b', _, rest.tail, s1, ⟨rfl, rfl⟩, s2⟩
  | flow =>
    obtain ⟨b', s1, s2⟩ := h.uflow hG
    exact ⟨b', _, rest.tail, s1, ⟨rfl, rfl⟩, s2⟩
  | nextc =>
    obtain ⟨b1, s1, s2⟩ := h.sbumpc hG
    simp only [BipIn.step, BipIn.snextc, s1, Option.bind_some]
    by_cases hr : rest = []
    · rw [if_pos (by simp [hr, Spec.shows])]
      exact ⟨b1, eofCode, rest.tail, rfl, ⟨by simp [hr, Spec.shows], rfl⟩, s2⟩
    · rw [if_neg (by rw [Spec.shows_eof h.plain]; exact hr)]
      obtain ⟨b2, g1, g2, -⟩ := s2.sgetc hG
      exact ⟨b2, _, rest.tail, g1, ⟨rfl, rfl⟩, g2⟩
  | sync =>
    obtain ⟨b', v, s1, s2, s3⟩ := h.sync hG
    refine ⟨b', v, rest, s1, ⟨?_, rfl⟩, s2⟩
    rcases s3 with ⟨rfl, -, -⟩ | ⟨rfl, s3⟩
    · exact Or.inr rfl
    · refine Or.inl ⟨rfl, ?_⟩
      obtain ⟨tail, -, r2⟩ := s2.split
      rw [r2]; simp [s3]
  | avail =>
    obtain ⟨tail, -, r2⟩ := h.split
    refine ⟨b, _, rest, rfl, ⟨⟨by omega, ?_⟩, rfl⟩, h⟩
    rw [h.avail_eq, r2, List.length_append]; omega

/-- **C59, input (partial).**  Whatever source is wrapped (as long as it gives nothing only at its end; short reads are
fine) and whatever the size of the buffer, every history of single-character reads, `pubsync` and `in_avail` delivers
exactly the characters of the source, in order, and then end of file, with no undefined behaviour.
Not covered, because the code gets them wrong: block reads (`bip_getn_repeats`, `bip_getn_empty`, `bip_getn_wrap`) and
characters the code confuses (`bip_sign_extends`, `bip_ff_is_eof`). -/
theorem bip_in_history_partial (hG : Spec.Supplies G R L) (ops : List BipInOp) (b : BipIn σ) (rest : List Ch)
    (h : BipInRep t R L b rest) :
    ∃ b' vs rest', b.run t G ops = some (b', vs) ∧ Spec.bipReads t rest ops vs rest' ∧ BipInRep t R L b' rest' := by
  induction ops generalizing b rest with
  | nil => exact ⟨b, [], rest, rfl, ⟨rfl, rfl⟩, h⟩
  | cons op ops ih =>
    obtain ⟨b1, v, r1, s1, s2, s3⟩ := h.step hG op
    obtain ⟨b2, vs, r2, t1, t2, t3⟩ := ih b1 r1 s3
    exact ⟨b2, v :: vs, r2, by simp [BipIn.run, s1, t1], ⟨v, vs, r1, rfl, s2, t2⟩, t3⟩

/-- a fresh buffer over a source -/
theorem bipIn_init (s : σ) (rest : List Ch) (mem : List Ch) (hR : R s rest) (hm : mem.length = L) (h0 : 0 < L)
    (hL : L < 2147483648) (hp : ∀ ch ∈ rest, Spec.Plain t ch) : BipInRep t R L ⟨s, Bip.init L mem⟩ rest :=
  ⟨inv_init L mem hm hL, rfl, h0, ⟨rest, hR, by simp [contents, Bip.init]⟩, hp⟩

/-- `pubsync()` fails exactly when there is no room or the source has nothing more -/
theorem bip_sync_fails (h : BipInRep t R L b rest) (hG : Spec.Supplies G R L) :
    ∃ b' v, b.sync G = some (b', v) ∧ (v = -1 ∨ v = 0) ∧
      (v = -1 → unused b.buf = 0 ∨ rest = contents b.buf) := by
  obtain ⟨b', v, s1, s2, s3⟩ := h.sync hG
  refine ⟨b', v, s1, ?_, ?_⟩
  · rcases s3 with ⟨rfl, -⟩ | ⟨rfl, -⟩ <;> simp
  · rcases s3 with ⟨rfl, h, -⟩ | ⟨rfl, -⟩
    · exact fun _ => h
    · intro h; cases h

/-! ### Over the span and string buffers of C36 -/

/-- the streambufs of C36 as sources -/
def inSource (c : InCfg) : Source In := fun s n =>
  (s.sgetn c (List.replicate n 0) n).map fun r => (r.1, r.2.1.take r.2.2.toNat)

theorem inSource_supplies (c : InCfg) (L : Nat) (hk : ∀ W, c.kind = .string W → L < W ∧ (65536 < W → L + 65536 ≤ W)) :
    Spec.Supplies (inSource c)
      (fun s rest => Spec.Readable c s.data ∧ s.pos ≤ s.data.length ∧ rest = s.data.drop s.pos) L := by
  intro s rest n ⟨r1, r2, r3⟩ hn hL
  have ha : Spec.allowed c ⟨s.data, s.pos⟩ (.getn n) := by
    unfold Spec.allowed
    cases hc : c.kind with
    | span => trivial
    | string W => have := hk W hc; simp only; omega
  refine ⟨⟨s.data, min (s.pos + n) s.data.length⟩, rest.take n, rest.drop n, ?_, by simp, by simp; omega,
    ⟨r1, by simp only; omega, ?_⟩, ?_⟩
  · rw [inSource, sgetn_spec r1 r2 _ n (by simp) ha, Option.map_some]
    simp only [Int.toNat_natCast, r3]
    rw [List.take_append_of_le_length (by simp), List.take_of_length_le (by simp)]
  · rw [r3, List.drop_drop]
    simp only
    rcases Nat.le_total (s.pos + n) s.data.length with e | e
    · rw [Nat.min_eq_left e]
    · rw [Nat.min_eq_right e, List.drop_eq_nil_of_le e, List.drop_length]
  · intro e
    rcases List.take_eq_nil_iff.mp e with e | e
    · omega
    · exact e

/-- Non-vacuity: four characters through a buffer of two over a span buffer. -/
example : BipInRep ⟨false, true⟩
    (fun s rest => Spec.Readable ⟨⟨false, true⟩, .span⟩ s.data ∧ s.pos ≤ s.data.length ∧ rest = s.data.drop s.pos) 2
    ⟨In.init [10, 20, 30, 40], Bip.init 2 [0, 0]⟩ [10, 20, 30, 40] ∧
    (BipIn.run ⟨false, true⟩ (inSource ⟨⟨false, true⟩, .span⟩) ⟨In.init [10, 20, 30, 40], Bip.init 2 [0, 0]⟩
      [.avail, .getc, .avail, .bumpc, .sync, .nextc, .bumpc, .bumpc, .bumpc, .bumpc]).map (·.2) =
      some [0, 10, 2, 10, 0, 30, 30, 40, -1, -1] := by
  refine ⟨bipIn_init _ _ _ ⟨⟨by decide, fun W h => (by cases h), by decide⟩, by decide, rfl⟩ rfl (by decide) (by decide) ?_,
    by decide +kernel⟩
  unfold Spec.Plain; decide

/-! ### Violations -/

/-- **Violation.**  Block reads do not advance: reading twice gives the same characters twice. -/
theorem bip_getn_repeats (h : BipInRep t R L b rest) (n : Nat) (hn : n ≤ contiguous b.buf) (hne : contents b.buf ≠ [])
    (dest : List Ch) (hd : n ≤ dest.length) :
    b.sgetn dest n = some ((contents b.buf).take n ++ dest.drop n, n) ∧
    b.sgetc t G = some (b, Spec.shows t rest) := by
  have hb := h.bound
  have hl := contents_length h.inv
  obtain ⟨p, p1, -⟩ := Bip.peek_spec b.buf h.inv 0 (by omega) hne
  have hp : p = b.buf.aStart := by
    unfold Bip.peek at p1
    split at p1
    · cases p1
    · split at p1
      · cases p1
      · cases p1; rfl
  have hcl : n ≤ (contents b.buf).length := by unfold contiguous at hn; omega
  refine ⟨?_, ?_⟩
  · simp only [BipIn.sgetn, h.avail_eq]
    rw [if_neg (by omega), p1, hp]
    have := h.inv.len; have := h.inv.fits; have := h.inv.ordered
    unfold contiguous at hn
    rw [copyFrom, copyChars_spec _ _ _ _ (by omega) hd, Option.map_some, take_contents n hn h.inv]
  · have hz : b.xinAvail ≠ 0 := by
      rw [h.avail_eq]; intro e; exact hne (List.length_eq_zero_iff.mp e)
    obtain ⟨ch, rest', f1, f2, -⟩ := h.front hne
    rw [BipIn.sgetc, if_neg hz, f1, f2]; rfl

/-- **Violation.**  A block read never refills: on an empty buffer it reads nothing, whatever the source holds. -/
theorem bip_getn_empty (h : BipInRep t R L b rest) (he : contents b.buf = []) (n : Nat) (dest : List Ch) :
    b.sgetn dest n = some (dest, 0) := by
  have hz : b.xinAvail = 0 := by rw [h.avail_eq, he]; rfl
  have hn : Bip.peek b.buf 0 = none := by
    rw [Bip.peek, (isEmpty_iff h.inv).mpr he]; simp
  simp only [BipIn.sgetn, hz, hn]
  by_cases h0 : n = 0
  · simp [h0, copyFrom]
  · rw [if_pos (by omega)]; simp [copyFrom]

/-- **Violation.**  A block read of wrapped contents runs past the end of the array. -/
theorem bip_getn_wrap (h : BipInRep t R L b rest) (hw : L < b.buf.aStart + (contents b.buf).length) (dest : List Ch) :
    b.sgetn dest (contents b.buf).length = none := by
  have hb := h.bound
  have h3 := h.inv.fits; have h4 := h.inv.ordered; have h5 := h.inv.len
  rw [h.size] at h3 h5
  have hne : contents b.buf ≠ [] := by
    intro e; rw [e] at hw; simp at hw; omega
  have hlen : (contents b.buf).length ≠ 0 := fun e => hne (List.length_eq_zero_iff.mp e)
  obtain ⟨p, p1, -⟩ := Bip.peek_spec b.buf h.inv 0 (by omega) hne
  have hp : p = b.buf.aStart := by
    unfold Bip.peek at p1
    split at p1
    · cases p1
    · split at p1
      · cases p1
      · cases p1; rfl
  simp only [BipIn.sgetn, h.avail_eq, Nat.lt_irrefl, gt_iff_lt, if_false]
  rw [p1, hp, copyFrom, copyChars, if_neg hlen, if_neg (by omega)]
  rfl

/-- Non-vacuity: after one character and a `pubsync` the contents are wrapped. -/
example : ((BipIn.run ⟨false, true⟩ (inSource ⟨⟨false, true⟩, .span⟩) ⟨In.init [10, 20, 30, 40], Bip.init 2 [0, 0]⟩
      [.bumpc, .sync]).map fun r => (r.1.buf.aStart, contents r.1.buf)) = some (1, [20, 30]) ∧
    ((BipIn.run ⟨false, true⟩ (inSource ⟨⟨false, true⟩, .span⟩) ⟨In.init [10, 20, 30, 40], Bip.init 2 [0, 0]⟩
      [.bumpc, .sync]).bind fun r => r.1.sgetn [0, 0] 2) = none := by decide +kernel

end

theorem Spec.plain_unsigned (ch : Ch) : Spec.Plain ⟨false, false⟩ ch := by
  simp only [Spec.Plain, Traits.toInt, Traits.promote, eofCode, Bool.false_eq_true, if_false, true_and]
  omega

section
variable {σ : Type} {G : Source σ} {R : σ → List Ch → Prop} {L : Nat} {b : BipIn σ} {rest : List Ch}

/-- an empty buffer filled from a source with `ch :: rest` left (the representation is that of a stream whatever its
characters are: with unsigned `char` and the standard traits all of them are plain) -/
theorem bip_refill (h : BipInRep ⟨false, false⟩ R L b rest) (hG : Spec.Supplies G R L) (he : contents b.buf = [])
    (ch : Ch) (rest' : List Ch) (hr : rest = ch :: rest') (t : Traits) :
    ∃ b', b.underflow t G = some (b', t.promote ch) ∧ b.sgetc t G = some (b', t.promote ch) ∧
      b'.sgetc t G = some (b', t.toInt ch) ∧ b'.underflow t G = some (b', t.promote ch) ∧
      BipInRep ⟨false, false⟩ R L b' rest ∧ contents b'.buf ≠ [] := by
  have hz : b.xinAvail = 0 := by rw [h.avail_eq, he]; rfl
  obtain ⟨b', v, s1, s2, s3⟩ := h.sync hG
  rcases s3 with ⟨-, hh, -⟩ | ⟨rfl, hne⟩
  · exfalso
    rcases hh with hh | hh
    · have := h.room
      have hs := h.size
      have hc := congrArg List.length he
      rw [contents_length h.inv] at hc
      have h1 := h.inv.ordered
      have h2 := h.inv.fits
      have h3 := h.inv.empty
      have h4 := h.inv.below
      rw [unused_eq h.inv] at hh
      simp only [List.length_nil] at hc
      obtain ⟨h5, h6⟩ := h3 (by omega)
      rw [h6] at hh
      simp only [Bool.false_eq_true, if_false] at hh
      omega
    · rw [he, hr] at hh; cases hh
  · obtain ⟨ch', r', f1, f2, -⟩ := s2.front hne
    have : ch' = ch := by rw [hr] at f2; cases f2; rfl
    subst this
    have hz' : b'.xinAvail ≠ 0 := by
      rw [s2.avail_eq]
      exact fun h0 => hne (List.length_eq_zero_iff.mp h0)
    have hu : b.underflow t G = some (b', t.promote ch') := by
      rw [BipIn.underflow, if_pos hz, s1, Option.bind_some, if_neg (by simp), f1]; rfl
    refine ⟨b', hu, ?_, ?_, ?_, s2, hne⟩
    · rw [BipIn.sgetc, if_pos hz, hu]
    · rw [BipIn.sgetc, if_neg hz', f1]; rfl
    · rw [BipIn.underflow, if_neg hz', f1]; rfl

/-- **Violation.**  With the standard traits and signed `char`, the first character after a refill is sign-extended: every
character from 0x80 on is delivered as a negative number the first time it is looked at, and as itself the second time. -/
theorem bip_sign_extends (h : BipInRep ⟨false, false⟩ R L b rest) (hG : Spec.Supplies G R L) (he : contents b.buf = [])
    (ch : Ch) (rest' : List Ch) (hr : rest = ch :: rest') (hc : 0x80 ≤ ch.toNat) :
    (b.run ⟨false, true⟩ G [.getc, .getc]).map (·.2) = some [(ch.toNat : Int) - 256, ch.toNat] := by
  obtain ⟨b', -, h1, h2, -⟩ := bip_refill h hG he ch rest' hr ⟨false, true⟩
  have e1 : (⟨false, true⟩ : Traits).promote ch = (ch.toNat : Int) - 256 := by
    simp only [Traits.promote, if_true, BitVec.toInt_eq_toNat_cond]
    split <;> omega
  have e2 : (⟨false, true⟩ : Traits).toInt ch = ch.toNat := by simp [Traits.toInt]
  rw [e1] at h1
  rw [e2] at h2
  rw [BipIn.run, BipIn.step, h1, Option.bind_some, BipIn.run, BipIn.step]
  clear e1 e2
  generalize ((BitVec.toNat ch : Nat) : Int) = x at *
  show Option.map _ (Option.map _ ((BipIn.sgetc _ G b').bind _)) = _
  rw [h2]
  rfl

/-- **Violation.**  With the library's own traits and signed `char` 0xFF reads as end of file; `sbumpc` then does not advance
past it, however often it is called. -/
theorem bip_ff_is_eof (h : BipInRep ⟨false, false⟩ R L b rest) (hG : Spec.Supplies G R L) (he : contents b.buf = [])
    (rest' : List Ch) (hr : rest = 0xFF :: rest') (n : Nat) :
    ∃ b', b.run ⟨true, true⟩ G (List.replicate (n + 1) .bumpc) = some (b', List.replicate (n + 1) eofCode) ∧
      BipInRep ⟨false, false⟩ R L b' rest := by
  obtain ⟨b', hu, h1, h2, h3, h4, -⟩ := bip_refill h hG he 0xFF rest' hr ⟨true, true⟩
  have e1 : (⟨true, true⟩ : Traits).promote 0xFF = eofCode := by decide +kernel
  have e2 : (⟨true, true⟩ : Traits).toInt 0xFF = eofCode := by decide +kernel
  rw [e1] at h1 h3 hu
  rw [e2] at h2
  have hb : b'.sbumpc ⟨true, true⟩ G = some (b', eofCode) := by
    rw [BipIn.sbumpc, h2, Option.bind_some, if_neg (by simp), BipIn.uflow, h3, Option.map_some, if_neg (by simp)]
  have h0 : b.sbumpc ⟨true, true⟩ G = some (b', eofCode) := by
    rw [BipIn.sbumpc, h1, Option.bind_some, if_neg (by simp), BipIn.uflow, h3, Option.map_some, if_neg (by simp)]
  have hrun : ∀ n, b'.run ⟨true, true⟩ G (List.replicate n .bumpc) = some (b', List.replicate n eofCode) := by
    intro n
    induction n with
    | zero => rfl
    | succ n ih => simp only [List.replicate_succ, BipIn.run, BipIn.step, hb, ih, Option.bind_some, Option.map_some]
  exact ⟨b', by simp only [List.replicate_succ, BipIn.run, BipIn.step, h0, hrun n, Option.bind_some, Option.map_some], h4⟩
end

/-- the state both theorems start from -/
example : BipInRep ⟨false, false⟩
    (fun (s : In) rest => Spec.Readable ⟨⟨false, true⟩, .span⟩ s.data ∧ s.pos ≤ s.data.length ∧ rest = s.data.drop s.pos) 2
    ⟨In.init [0xFF, 65], Bip.init 2 [0, 0]⟩ [0xFF, 65] :=
  bipIn_init _ _ _ ⟨⟨by decide, (by intro W h; cases h), fun x _ => toInt_ne_eof _ (Or.inl rfl) x⟩, by simp [In.init], rfl⟩ rfl (by decide) (by decide)
    (fun ch _ => Spec.plain_unsigned ch)

/-- 0xE9 is delivered as -23 the first time it is looked at and as 233 the second time -/
example :
    (BipIn.run ⟨false, true⟩ (inSource ⟨⟨false, true⟩, .span⟩) ⟨In.init [0xE9], Bip.init 2 [0, 0]⟩ [.getc, .getc]).map (·.2) =
      some [-23, 233] := by decide +kernel

example :
    (BipIn.run ⟨true, true⟩ (inSource ⟨⟨true, true⟩, .span⟩) ⟨In.init [0xFF, 65], Bip.init 2 [0, 0]⟩ [.bumpc, .bumpc, .avail]).map
      (·.2) = some [-1, -1, 2] := by decide +kernel

/-- with the standard traits the first `sbumpc` already loses the sign, but still delivers it: `-1`, then the next -/
theorem bip_ff_std :
    (BipIn.run ⟨false, true⟩ (inSource ⟨⟨false, true⟩, .span⟩) ⟨In.init [0xFF, 65], Bip.init 2 [0, 0]⟩ [.getc, .getc]).map
      (·.2) = some [-1, 255] := by decide +kernel

end Verif.Streams
