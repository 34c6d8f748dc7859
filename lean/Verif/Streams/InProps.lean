import Verif.Streams.In

/-!
# C36: reading characters

Specification: a cursor in a text.
-/
namespace Verif.Streams
open Verif

/-! ## Specification -/

/-- a text and how many of its characters have been read -/
structure Spec.Cursor where
  text : List Ch
  at_ : Nat
  deriving DecidableEq, Repr

/-- what a read reports: a character or end of file (`none`); the characters stored by a block read -/
inductive Spec.Res where
  | char (c : Option Ch)
  | block (l : List Ch)
  | unit
  deriving DecidableEq, Repr

/-- where a seek leads -/
def Spec.target (k : Spec.Cursor) : Dir → Int → Int
  | .beg, off => off
  | .cur, off => k.at_ + off
  | .end_, off => k.text.length + off

/-- the reading operations: look, look and advance, advance and look, take a block, step back, go elsewhere -/
def Spec.read (k : Spec.Cursor) : InOp → Spec.Cursor × Spec.Res
  | .getc => (k, .char k.text[k.at_]?)
  | .bumpc => (⟨k.text, min (k.at_ + 1) k.text.length⟩, .char k.text[k.at_]?)
  | .nextc => (⟨k.text, min (k.at_ + 1) k.text.length⟩, .char k.text[k.at_ + 1]?)
  | .getn n => (⟨k.text, min (k.at_ + n) k.text.length⟩, .block ((k.text.drop k.at_).take n))
  | .ungetc => if k.at_ = 0 then (k, .char none) else (⟨k.text, k.at_ - 1⟩, .char k.text[k.at_ - 1]?)
  | .seek d off => (⟨k.text, (Spec.target k d off).toNat⟩, .unit)

def Spec.reads (k : Spec.Cursor) : List InOp → Spec.Cursor × List Spec.Res
  | [] => (k, [])
  | op :: r =>
    let p := Spec.read k op
    let q := Spec.reads p.1 r
    (q.1, p.2 :: q.2)

/-- seeks stay inside the text (the code does not check: span.h:98 "currently undefined if pos ends up outside
boundaries"), and only a string buffer knows `end`; a block read fits `size_type` -/
def Spec.allowed (c : InCfg) (k : Spec.Cursor) : InOp → Prop
  | .seek d off => 0 ≤ Spec.target k d off ∧ Spec.target k d off ≤ k.text.length ∧ (d = .end_ → c.kind ≠ .span)
  | .getn n => match c.kind with
    | .span => True
    | .string W => n < W ∧ (65536 < W → n + 65536 ≤ W)
  | _ => True

def Spec.allAllowed (c : InCfg) (k : Spec.Cursor) : List InOp → Prop
  | [] => True
  | op :: r => Spec.allowed c k op ∧ Spec.allAllowed c (Spec.read k op).1 r

/-- the return values of the code: characters through `to_int_type`, end of file as `eof()` -/
def Spec.render (t : Traits) : Spec.Res → InRes
  | .char none => .code eofCode
  | .char (some c) => .code (t.toInt c)
  | .block l => .chars l
  | .unit => .unit

/-- the texts the code can handle: positions fit in the `unsigned short`, lengths in `size_type`, and no character
looks like `eof()` -/
structure Spec.Readable (c : InCfg) (text : List Ch) : Prop where
  short : text.length < 65536
  fits : ∀ W, c.kind = .string W → text.length < W
  chars : ∀ x ∈ text, c.tr.toInt x ≠ eofCode

/-! ## Theorems -/

/-- With the standard traits, or unsigned `char`, no character looks like `eof()`. -/
theorem toInt_ne_eof (t : Traits) (h : t.own = false ∨ t.charSigned = false) (c : Ch) : t.toInt c ≠ eofCode := by
  rcases h with h | h <;> simp [Traits.toInt, Traits.promote, h, eofCode] <;> omega

/-- With the library's own traits and signed `char`, exactly the character 0xFF does. -/
theorem toInt_eof_iff (c : Ch) : (⟨true, true⟩ : Traits).toInt c = eofCode ↔ c = 0xFF := by
  revert c; decide

theorem toInt_inj (t : Traits) (a b : Ch) (h : t.toInt a = t.toInt b) : a = b := by
  unfold Traits.toInt Traits.promote at h
  split at h
  · split at h
    · exact BitVec.eq_of_toInt_eq h
    · exact BitVec.eq_of_toNat_eq (by omega)
  · exact BitVec.eq_of_toNat_eq (by omega)

theorem avail_zero {c : InCfg} {s : In} (h : Spec.Readable c s.data) (hp : s.pos ≤ s.data.length) :
    s.xinAvail c = (s.data.length : Int) - s.pos := by
  unfold In.xinAvail
  cases hk : c.kind with
  | span => rfl
  | string W =>
    have := h.fits W hk
    simp only
    rw [Int.emod_eq_of_lt (by omega) (by omega)]

theorem gbump_pos (s : In) (k : Int) (h0 : 0 ≤ s.pos + k) (h1 : s.pos + k < 65536) :
    s.gbump k = ⟨s.data, (s.pos + k).toNat⟩ := by
  unfold In.gbump; rw [Int.emod_eq_of_lt h0 h1]

theorem sgetc_spec {c : InCfg} {s : In} (h : Spec.Readable c s.data) (hp : s.pos ≤ s.data.length) :
    s.sgetc c = some (match s.data[s.pos]? with | some x => c.tr.toInt x | none => eofCode) := by
  unfold In.sgetc
  rw [avail_zero h hp]
  by_cases he : s.pos = s.data.length
  · simp [he]
  · rw [if_neg (by omega)]
    have : s.pos < s.data.length := by omega
    simp [In.xsgetc, rd, this]

theorem sbumpc_spec {c : InCfg} {s : In} (h : Spec.Readable c s.data) (hp : s.pos ≤ s.data.length) :
    s.sbumpc c = some (⟨s.data, min (s.pos + 1) s.data.length⟩,
      match s.data[s.pos]? with | some x => c.tr.toInt x | none => eofCode) := by
  unfold In.sbumpc
  rw [sgetc_spec h hp]
  by_cases he : s.pos = s.data.length
  · have : min (s.pos + 1) s.data.length = s.pos := by omega
    simp [he]
    rw [← he]
  · have hlt : s.pos < s.data.length := by omega
    have hx := h.chars _ (List.getElem_mem hlt)
    have hs := h.short
    simp only [List.getElem?_eq_getElem hlt]
    rw [if_pos hx, gbump_pos s 1 (by omega) (by omega)]
    have : min (s.pos + 1) s.data.length = s.pos + 1 := by omega
    rw [this]; rfl

theorem copyChars_spec (src : List Ch) (pos n : Nat) (dest : List Ch) (h : n ≠ 0 → pos + n ≤ src.length)
    (hd : n ≤ dest.length) : copyChars src pos n dest = some ((src.drop pos).take n ++ dest.drop n) := by
  unfold copyChars
  split
  · next h0 => subst h0; simp
  · next h0 => rw [if_pos ⟨h h0, hd⟩]

/-- `sgetn(s, n)` stores the next `min n (what is left)` characters at the front of the destination, leaves the rest of
it alone, advances by as much and returns the number. -/
theorem sgetn_spec {c : InCfg} {s : In} (h : Spec.Readable c s.data) (hp : s.pos ≤ s.data.length) (dest : List Ch)
    (n : Nat) (hd : n ≤ dest.length) (hk : Spec.allowed c ⟨s.data, s.pos⟩ (.getn n)) :
    In.sgetn c s dest (n : Int) = some ((⟨s.data, min (s.pos + n) s.data.length⟩ : In),
      (s.data.drop s.pos).take n ++ dest.drop (min n (s.data.length - s.pos)),
      ((min n (s.data.length - s.pos) : Nat) : Int)) := by
  have hs := h.short
  have hmin : ∀ k : Nat, k = min n (s.data.length - s.pos) →
      s.gbump (k : Int) = ⟨s.data, min (s.pos + n) s.data.length⟩ := by
    intro k hk
    rw [gbump_pos s k (by omega) (by omega)]
    congr 1; omega
  have htk : (s.data.drop s.pos).take (min n (s.data.length - s.pos)) = (s.data.drop s.pos).take n := by
    rw [← List.take_take, ← List.length_drop, List.take_length]
  unfold In.sgetn
  cases hkind : c.kind with
  | span =>
    simp only
    rw [avail_zero h hp]
    have e : min (n : Int) ((s.data.length : Int) - s.pos) = ((min n (s.data.length - s.pos) : Nat) : Int) := by omega
    rw [e, if_neg (by omega), Int.toNat_natCast, copyChars_spec _ _ _ _ (by omega) (by omega), htk]
    simp only [hmin _ rfl]
  | string W =>
    have hW := h.fits W hkind
    simp only [Spec.allowed, hkind] at hk
    have e1 : ((n : Int) % W).toNat = n := by rw [Int.emod_eq_of_lt (by omega) (by omega)]; simp
    have e2 : s.pos % W = s.pos := Nat.mod_eq_of_lt (by omega)
    have e3 : sizeAdd W s.pos n = s.pos + n := by
      unfold sizeAdd; split
      · rfl
      · exact Nat.mod_eq_of_lt (by omega)
    have e4 : (((s.data.length : Int) - s.pos) % W).toNat = s.data.length - s.pos := by
      rw [Int.emod_eq_of_lt (by omega) (by omega)]; omega
    simp only [e1, e2, e3, e4]
    have e5 : (if s.pos + n > s.data.length then s.data.length - s.pos else n) = min n (s.data.length - s.pos) := by
      split <;> omega
    rw [e5, copyChars_spec _ _ _ _ (by omega) (by omega), htk]
    simp only [hmin _ rfl]

/-- One operation: the state and the return value are the specification's. -/
theorem step_refines {c : InCfg} {s : In} (h : Spec.Readable c s.data) (hp : s.pos ≤ s.data.length) (op : InOp)
    (hop : Spec.allowed c ⟨s.data, s.pos⟩ op) :
    s.step c op = some (⟨(Spec.read ⟨s.data, s.pos⟩ op).1.text, (Spec.read ⟨s.data, s.pos⟩ op).1.at_⟩,
      Spec.render c.tr (Spec.read ⟨s.data, s.pos⟩ op).2) := by
  have hs := h.short
  cases op with
  | getc =>
    simp only [In.step, sgetc_spec h hp, Option.map_some, Spec.read]
    cases hx : s.data[s.pos]? <;> rfl
  | bumpc =>
    simp only [In.step, sbumpc_spec h hp, Option.map_some, Spec.read]
    cases hx : s.data[s.pos]? <;> rfl
  | nextc =>
    simp only [In.step, In.snextc, sbumpc_spec h hp, Spec.read]
    by_cases he : s.pos = s.data.length
    · have e1 : s.data[s.pos]? = none := by simp [he]
      have e2 : s.data[s.pos + 1]? = none := by simp; omega
      simp [e1, e2, Spec.render]
    · have hlt : s.pos < s.data.length := by omega
      have hx := h.chars _ (List.getElem_mem hlt)
      have e : min (s.pos + 1) s.data.length = s.pos + 1 := by omega
      simp only [List.getElem?_eq_getElem hlt, if_neg hx, e]
      rw [sgetc_spec (s := ⟨s.data, s.pos + 1⟩) h (by simp; omega)]
      simp only [Option.map_some]
      cases hy : s.data[s.pos + 1]? <;> rfl
  | getn n =>
    simp only [In.step, sgetn_spec h hp (List.replicate n 0) n (by simp) hop, Option.map_some, Spec.read, Spec.render]
    congr 3
    rw [Int.toNat_natCast, List.take_append_of_le_length (by simp), List.take_take]
    by_cases hc : n ≤ s.data.length - s.pos
    · congr 1; omega
    · rw [List.take_of_length_le (by simp; omega), List.take_of_length_le (by simp; omega)]
  | ungetc =>
    simp only [In.step, In.sungetc, Spec.read]
    by_cases h0 : s.pos = 0
    · simp [h0, Spec.render]; rw [← h0]
    · rw [if_pos (by omega), if_neg h0, gbump_pos s (-1) (by omega) (by omega)]
      have e : ((s.pos : Int) + -1).toNat = s.pos - 1 := by omega
      have hlt : s.pos - 1 < s.data.length := by omega
      simp [e, In.xsgetc, rd, hlt, Spec.render]
  | seek d off =>
    obtain ⟨h1, h2, h3⟩ := hop
    simp only [In.step, Spec.read, Spec.render, In.seek]
    cases d with
    | beg => simp only [Spec.target] at h1 h2 ⊢; rw [Int.emod_eq_of_lt h1 (by omega)]
    | cur => simp only [Spec.target] at h1 h2 ⊢; rw [gbump_pos s off h1 (by omega)]
    | end_ =>
      cases hk : c.kind with
      | span => exact absurd hk (h3 rfl)
      | string W => simp only [Spec.target] at h1 h2 ⊢; rw [Int.emod_eq_of_lt h1 (by omega)]

theorem read_text (k : Spec.Cursor) (op : InOp) : (Spec.read k op).1.text = k.text := by
  cases op <;> simp only [Spec.read] <;> split <;> rfl

theorem read_bound {c : InCfg} (k : Spec.Cursor) (op : InOp) (hk : k.at_ ≤ k.text.length) (hop : Spec.allowed c k op) :
    (Spec.read k op).1.at_ ≤ (Spec.read k op).1.text.length := by
  cases op with
  | seek d off => obtain ⟨h1, h2, _⟩ := hop; simp only [Spec.read]; omega
  | ungetc => simp only [Spec.read]; split <;> simp <;> omega
  | getc => exact hk
  | bumpc => simp only [Spec.read]; omega
  | nextc => simp only [Spec.read]; omega
  | getn n => simp only [Spec.read]; omega

/-- For every history of reads, steps back and seeks inside the text, every return value is the one the cursor
specification gives, no character is read outside the buffer, and the position ends where the specification's does.
Restricted to texts the code can handle (`Spec.Readable`): shorter than 65536 characters and free of a character that
looks like `eof()`; see `ff_reads_as_eof` and `long_text_never_ends` for what happens otherwise. -/
theorem in_refines_partial (c : InCfg) (text : List Ch) (h : Spec.Readable c text) (ops : List InOp) (n : Nat)
    (hn : n ≤ text.length) (hops : Spec.allAllowed c ⟨text, n⟩ ops) :
    In.run c ⟨text, n⟩ ops =
      some (⟨text, (Spec.reads ⟨text, n⟩ ops).1.at_⟩, (Spec.reads ⟨text, n⟩ ops).2.map (Spec.render c.tr)) := by
  induction ops generalizing n with
  | nil => rfl
  | cons op r ih =>
    obtain ⟨h1, h2⟩ := hops
    have hb := read_bound ⟨text, n⟩ op hn h1
    have ht := read_text ⟨text, n⟩ op
    simp only [In.run, Spec.reads]
    rw [step_refines (s := ⟨text, n⟩) h hn op h1]
    obtain ⟨⟨⟨t', n'⟩, res⟩, hr⟩ : ∃ p, Spec.read ⟨text, n⟩ op = p := ⟨_, rfl⟩
    simp only [hr] at hb ht h2 ⊢
    subst ht
    rw [ih n' hb h2]
    rfl

/-- a span and a string, read to the end and a little back -/
example : Spec.Readable ⟨⟨false, true⟩, .span⟩ [104, 105] ∧
    Spec.allAllowed ⟨⟨false, true⟩, .span⟩ ⟨[104, 105], 0⟩ [.bumpc, .getn 3, .getc, .ungetc, .bumpc, .seek .beg 1] := by
  refine ⟨⟨by decide, by simp, by decide⟩, ?_⟩
  simp [Spec.allAllowed, Spec.allowed, Spec.target, Spec.read]

example : In.run ⟨⟨true, true⟩, .string 256⟩ (In.init [104, 105]) [.bumpc, .getn 3, .getc, .ungetc, .nextc] =
    some (⟨[104, 105], 2⟩, [.code 104, .chars [105], .code (-1), .code 105, .code (-1)]) := by decide +kernel

/-- the characters an operation takes out of the stream -/
def Spec.taken : Spec.Res → List Ch
  | .char (some c) => [c]
  | .char none => []
  | .block l => l
  | .unit => []

/-- No loss and no duplication: reading with `sbumpc` and `sgetn` only, in any mixture, the characters obtained are, in
order, exactly those between the old and the new position. -/
theorem taken_in_order (k : Spec.Cursor) (ops : List InOp) (hk : k.at_ ≤ k.text.length)
    (hops : ∀ op ∈ ops, op = .bumpc ∨ ∃ n, op = .getn n) :
    k.at_ ≤ (Spec.reads k ops).1.at_ ∧
    ((Spec.reads k ops).2.map Spec.taken).flatten =
      (k.text.drop k.at_).take ((Spec.reads k ops).1.at_ - k.at_) := by
  have step : ∀ (k : Spec.Cursor) (op : InOp), k.at_ ≤ k.text.length → (op = .bumpc ∨ ∃ n, op = .getn n) →
      k.at_ ≤ (Spec.read k op).1.at_ ∧ (Spec.read k op).1.at_ ≤ k.text.length ∧
      Spec.taken (Spec.read k op).2 = (k.text.drop k.at_).take ((Spec.read k op).1.at_ - k.at_) := by
    intro k op hk ho
    rcases ho with rfl | ⟨n, rfl⟩
    · simp only [Spec.read]
      refine ⟨by omega, by omega, ?_⟩
      by_cases he : k.at_ = k.text.length
      · have : k.text[k.at_]? = none := by simp [he]
        rw [this]; simp [Spec.taken, he]
      · have hlt : k.at_ < k.text.length := by omega
        have e : min (k.at_ + 1) k.text.length - k.at_ = 1 := by omega
        rw [e, List.drop_eq_getElem_cons hlt, List.getElem?_eq_getElem hlt]
        rfl
    · simp only [Spec.read, Spec.taken]
      refine ⟨by omega, by omega, ?_⟩
      by_cases hc : k.at_ + n ≤ k.text.length
      · congr 1; omega
      · rw [List.take_of_length_le (by simp; omega), List.take_of_length_le (by simp; omega)]
  induction ops generalizing k with
  | nil => simp [Spec.reads]
  | cons op r ih =>
    have ht := read_text k op
    obtain ⟨h1, h2, h3⟩ := step k op hk (hops op (by simp))
    have := ih (Spec.read k op).1 (by rw [ht]; exact h2) (fun o ho => hops o (by simp [ho]))
    simp only [Spec.reads, List.map_cons, List.flatten_cons]
    refine ⟨by omega, ?_⟩
    rw [this.2, h3, ht]
    generalize hA : (Spec.read k op).1.at_ = a at *
    generalize hB : (Spec.reads (Spec.read k op).1 r).1.at_ = b at *
    have e : b - k.at_ = (a - k.at_) + (b - a) := by omega
    rw [e, List.take_add, List.drop_drop]
    congr 3; omega

/-- The same about the code itself: reading a whole text by `sbumpc`/`sgetn`. -/
theorem no_loss_partial (c : InCfg) (text : List Ch) (h : Spec.Readable c text) (ops : List InOp)
    (hops : ∀ op ∈ ops, op = .bumpc ∨ ∃ n, op = .getn n) (hall : Spec.allAllowed c ⟨text, 0⟩ ops) :
    ∃ (s : In) (rs : List InRes) (got : List Spec.Res), In.run c (In.init text) ops = some (s, rs) ∧ rs = got.map (Spec.render c.tr) ∧
      (got.map Spec.taken).flatten = text.take s.pos := by
  refine ⟨_, _, (Spec.reads ⟨text, 0⟩ ops).2, in_refines_partial c text h ops 0 (by simp) hall, rfl, ?_⟩
  have := (taken_in_order ⟨text, 0⟩ ops (by simp) hops).2
  simpa using this

example : Spec.allAllowed ⟨⟨false, true⟩, .string 4294967296⟩ ⟨[1, 2, 3, 4, 5], 0⟩ [.bumpc, .getn 3, .bumpc, .bumpc] := by
  simp [Spec.allAllowed, Spec.allowed]

/-- End of file is reported exactly at the end. -/
theorem eof_exactly_at_end (c : InCfg) (s : In) (h : Spec.Readable c s.data) (hp : s.pos ≤ s.data.length) :
    s.sgetc c = some eofCode ↔ s.pos = s.data.length := by
  rw [sgetc_spec h hp]
  constructor
  · intro he
    by_cases hq : s.pos = s.data.length
    · exact hq
    · have hlt : s.pos < s.data.length := by omega
      simp only [List.getElem?_eq_getElem hlt, Option.some.injEq] at he
      exact absurd he (h.chars _ (List.getElem_mem hlt))
  · intro he; simp [he]

/-- `in_avail()` is the number of characters left, or -1 at the end -- for at most 32767 left with the library's own
traits. -/
theorem in_avail_partial (c : InCfg) (s : In) (h : Spec.Readable c s.data) (hp : s.pos ≤ s.data.length)
    (hs : c.tr.own = true → s.data.length - s.pos < 32768) :
    s.inAvail c = if s.pos = s.data.length then -1 else (s.data.length : Int) - s.pos := by
  have hl := h.short
  have e : c.tr.intType (s.xinAvail c) = (s.data.length : Int) - s.pos := by
    rw [avail_zero h hp]
    unfold Traits.intType
    by_cases ho : c.tr.own = true
    · have := hs ho
      rw [if_pos ho]; omega
    · rw [if_neg ho]; omega
  unfold In.inAvail
  simp only [e]
  split <;> split <;> omega

example : (⟨[1, 2, 3], 1⟩ : In).inAvail ⟨⟨true, true⟩, .span⟩ = 2 := by decide

/-- With more than that, `in_avail()` claims the end has been reached. -/
theorem in_avail_large (text : List Ch) (hl : text.length = 40000) :
    (In.init text).inAvail ⟨⟨true, true⟩, .span⟩ = -1 := by
  simp [In.inAvail, In.xinAvail, In.init, Traits.intType, hl]

/-- With the library's own traits and a signed `char`, a stream never gets past a 0xFF character: every read there
reports end of file and stays where it is. -/
theorem ff_reads_as_eof (k : Kind) (s : In) (hp : s.pos < s.data.length) (hx : s.data[s.pos]? = some 0xFF)
    (hk : ∀ W, k = .string W → s.data.length < W) :
    s.sgetc ⟨⟨true, true⟩, k⟩ = some eofCode ∧ s.sbumpc ⟨⟨true, true⟩, k⟩ = some (s, eofCode) ∧
    s.snextc ⟨⟨true, true⟩, k⟩ = some (s, eofCode) := by
  have ha : s.xinAvail ⟨⟨true, true⟩, k⟩ ≠ 0 := by
    unfold In.xinAvail
    cases k with
    | span => simp; omega
    | string W => have := hk W rfl; simp only; rw [Int.emod_eq_of_lt (by omega) (by omega)]; omega
  have h1 : s.sgetc ⟨⟨true, true⟩, k⟩ = some eofCode := by
    unfold In.sgetc; rw [if_neg ha]; simp only [In.xsgetc, rd, hx, Option.map_some]; decide
  have h2 : s.sbumpc ⟨⟨true, true⟩, k⟩ = some (s, eofCode) := by unfold In.sbumpc; rw [h1]; simp
  exact ⟨h1, h2, by unfold In.snextc; rw [h2]; simp⟩

example : ([65, 0xFF, 66] : List Ch)[1]? = some 0xFF := by decide

/-- A span of 65536 characters or more never ends: from every position within `unsigned short`, `sbumpc` returns a
character, and after the 65536th the reading starts over at the first. -/
theorem long_text_never_ends (t : Traits) (ht : t.own = false ∨ t.charSigned = false) (s : In)
    (hl : 65536 ≤ s.data.length) (hp : s.pos < 65536) :
    ∃ x, s.data[s.pos]? = some x ∧
      s.sbumpc ⟨t, .span⟩ = some (⟨s.data, if s.pos = 65535 then 0 else s.pos + 1⟩, t.toInt x) ∧ t.toInt x ≠ eofCode := by
  have hlt : s.pos < s.data.length := by omega
  refine ⟨s.data[s.pos], by simp [hlt], ?_, toInt_ne_eof t ht _⟩
  unfold In.sbumpc In.sgetc
  rw [if_neg (by simp [In.xinAvail]; omega)]
  simp only [In.xsgetc, rd, List.getElem?_eq_getElem hlt, Option.map_some]
  rw [if_pos (toInt_ne_eof t ht _)]
  simp only [In.gbump]
  congr 3
  split
  · next h => simp [h]
  · omega

/-- A block read with a negative count from a span runs outside the buffers. -/
theorem sgetn_negative (t : Traits) (s : In) (dest : List Ch) (n : Int) (hn : n < 0) :
    s.sgetn ⟨t, .span⟩ dest n = none := by
  simp only [In.sgetn]; rw [if_pos (by omega)]

end Verif.Streams
