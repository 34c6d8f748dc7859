import Verif.Streams.OstreamProps

/-!
# C101: streams over C files, and output through the virtual streambuf interface

Modelled from `src/estd/internal/streambuf.h:15-60` (`basic_streambuf_wrapped`, the virtual wrapper that
`experimental::wrapped_ostream` and `experimental::convert`, `src/estd/ostream.h:127-187`, put a stream over),
`src/estd/internal/impl/streambuf.h:58-80` (the abstract `basic_streambuf`) and
`src/estd/port/posix/streambuf.{h,cpp}` (`posix_streambuf`, over a C `FILE`).

The C library's `FILE` is modelled from the C standard: a stream holds characters back in a buffer, sends them to the
device according to its buffering mode, and only `fflush` forces them out.  Simplifications: a device with no room left
refuses the character at `fputc` (a real one may report it when the buffer is sent); reading and writing the same `FILE`
is not modelled; `convert` is modelled with the copy of its result elided (otherwise the stream points at a dead object).
-/
namespace Verif.Streams
open Verif Verif.DynArray

/-! ## The virtual wrapper -/

/-- `basic_streambuf_wrapped`, internal/streambuf.h:31-54, under the abstract `basic_streambuf`,
internal/impl/streambuf.h:67-79: `xsputn` and `sync` are forwarded; `overflow(ch)` calls the wrapped `overflow()`, whose
default argument is `eof()` (base.h:87-90); `sputc(ch)` is `overflow(ch)`. -/
def wrapOut {σ : Type} (I : OutImpl σ) : OutImpl σ where
  xsputn := I.xsputn
  overflow s _ := I.overflow s eofCode
  sputc s _ := I.overflow s eofCode
  sync := I.sync

/-- What reaches the wrapped streambuf of one insertion: the numeral and the text, but no fill, no single character and
no newline. -/
inductive Spec.Arrives : Spec.Fmt → Item → List Ch → Prop where
  | int (f : Spec.Fmt) (signed : Bool) (bits : Nat) (v : Int) (text : List Ch) : Spec.Shows f.base f.upper v text →
      Spec.Arrives f (.int signed bits v) text
  | chr (f : Spec.Fmt) (ch : Ch) : Spec.Arrives f (.chr ch) []
  | str (f : Spec.Fmt) (text : List Ch) : Spec.Arrives f (.str text) text
  | setw (f : Spec.Fmt) (n : Nat) : Spec.Arrives f (.setw n) []
  | setfill (f : Spec.Fmt) (ch : Ch) : Spec.Arrives f (.setfill ch) []
  | setbase (f : Spec.Fmt) (b : Nat) : Spec.Arrives f (.setbase b) []
  | upper (f : Spec.Fmt) (on : Bool) : Spec.Arrives f (.upper on) []
  | adjust (f : Spec.Fmt) (toLeft : Bool) : Spec.Arrives f (.adjust toLeft) []
  | endl (f : Spec.Fmt) : Spec.Arrives f .endl []

/-- a chain of insertions: what should be emitted (as in `Spec.Chain`) beside what arrives -/
inductive Spec.Thinned (t : Traits) (c : IosCfg) : Spec.Fmt → List Item → List Ch → List Ch → Spec.Fmt → Prop where
  | nil (f : Spec.Fmt) : Spec.Thinned t c f [] [] [] f
  | cons (f f' f'' : Spec.Fmt) (i : Item) (is : List Item) (text rest arrives more : List Ch) : Spec.Sound t c f i →
      Spec.Emits f i text f' → Spec.Arrives f i arrives → Spec.Thinned t c f' is rest more f'' →
      Spec.Thinned t c f (i :: is) (text ++ rest) (arrives ++ more) f''

/-- what should be emitted is what the ordinary specification says -/
theorem Spec.Thinned.chain {t : Traits} {c : IosCfg} {f f' : Spec.Fmt} {is : List Item} {text arrives : List Ch}
    (h : Spec.Thinned t c f is text arrives f') : Spec.Chain t c f is text f' := by
  induction h with
  | nil f => exact .nil f
  | cons f f' f'' i is text rest arrives more hs he _ _ ih => exact .cons _ _ _ _ _ _ _ hs he ih

section
variable {σ : Type} {t : Traits} {c : IosCfg} {I : OutImpl σ} {R : σ → List Ch → Prop} {ok : Ch → Prop} {N : Nat}

theorem eofbit_not_good (c : IosCfg) (ios : Ios) : (ios.setstate c eofbit).good = false := by
  have key : ∀ (a : Bool) (x : BitVec 8), ((IosCfg.truncState ⟨a⟩ (x ||| eofbit)) == goodbit) = false := by decide +kernel
  exact key c.aggressive ios.state

theorem eofbit_twice (c : IosCfg) (ios : Ios) : (ios.setstate c eofbit).setstate c eofbit = ios.setstate c eofbit := by
  have key : ∀ (a : Bool) (x : BitVec 8), IosCfg.truncState ⟨a⟩ (IosCfg.truncState ⟨a⟩ (x ||| eofbit) ||| eofbit) =
      IosCfg.truncState ⟨a⟩ (x ||| eofbit) := by decide +kernel
  unfold Ios.setstate
  simp only [Ios.mk.injEq, true_and, and_true]
  exact key c.aggressive ios.state

/-- the state after single characters were put: `eof` as soon as there was one -/
def lost (c : IosCfg) (any : Bool) (ios : Ios) : Ios := if any then ios.setstate c eofbit else ios

theorem lost_lost (c : IosCfg) (a b : Bool) (ios : Ios) : lost c b (lost c a ios) = lost c (a || b) ios := by
  cases a <;> cases b <;> simp [lost, eofbit_twice]

/-- **Violation.**  A character put through the virtual interface never reaches the wrapped streambuf, whatever it is and
however much room there is: the stream only goes `eof`. -/
theorem virtual_put_lost (hI : I.overflow = noOverflow) (os : OS σ) (ch : Ch) (bypass : Bool) :
    os.put c (wrapOut I) ch bypass = .ok { os with ios := os.ios.setstate c eofbit } := by
  unfold OS.put wrapOut
  rw [hI]
  simp only [noOverflow, Res.bind_ok, if_true]
  cases bypass with
  | true => rfl
  | false =>
    simp only [Bool.false_eq_true, if_false, OS.sentry, eofbit_not_good, Bool.and_false]

theorem virtual_putMany (hI : I.overflow = noOverflow) (ch : Ch) : ∀ (n : Nat) (os : OS σ),
    os.putMany c (wrapOut I) ch n = .ok { os with ios := lost c (decide (0 < n)) os.ios } := by
  intro n
  induction n with
  | zero => intro os; rfl
  | succ n ih =>
    intro os
    rw [OS.putMany, virtual_put_lost hI, Res.bind_ok, ih]
    simp only [lost]
    by_cases h : 0 < n <;> simp [h, eofbit_twice]

theorem virtual_write (hI : I.overflow = noOverflow) (os : OS σ) (text : List Ch) :
    os.write t c (wrapOut I) text = os.write t c I text := by
  unfold OS.write OutImpl.sputn
  simp only [wrapOut, hI, noOverflow]
  rfl

theorem virtual_endl (hI : I.overflow = noOverflow) (hK : Accepts t I R ok N) (os : OS σ) (l : List Ch) (hR : R os.buf l) :
    ∃ b, os.endl c (wrapOut I) = .ok { os with buf := b, ios := os.ios.setstate c eofbit } ∧ R b l := by
  obtain ⟨b2, r, e3, e4, e5⟩ := hK.sync _ _ hR
  refine ⟨b2, ?_, e5⟩
  unfold OS.endl
  rw [virtual_put_lost hI]
  simp only [Res.bind_ok, OS.flush, wrapOut, e3, e4, if_false]

theorem virtual_writeFilled (hI : I.overflow = noOverflow) (hK : Accepts t I R ok N) (os : OS σ) (l text : List Ch)
    (hR : R os.buf l) (toLeft : Bool) (hadj : Spec.Adjusted os.ios.flags toLeft) (hN : l.length + text.length ≤ N)
    (hok : ∀ ch ∈ text, ok ch) :
    ∃ b, os.writeFilled t c (wrapOut I) text =
        .ok { os with buf := b, ios := lost c (decide (text.length < os.ios.width)) { os.ios with width := 0 } } ∧
      R b (l ++ text) := by
  obtain ⟨hL, hRt⟩ := adjusted_bits _ _ hadj
  have hpad : (os.ios.getWidth - text.length).toNat = os.ios.width - text.length := by unfold Ios.getWidth; omega
  have hdec : decide (0 < os.ios.width - text.length) = decide (text.length < os.ios.width) := by
    by_cases h : text.length < os.ios.width <;> simp [h] <;> omega
  have hfl : ∀ b ios, (lost c b ios).flags = ios.flags := by intro b ios; cases b <;> rfl
  unfold OS.writeFilled
  simp only [Ios.setWidth, truncWidth_zero]
  cases toLeft with
  | false =>
    rw [if_pos (hRt.mpr rfl)]
    unfold OS.fillN
    rw [virtual_putMany hI, hpad, hdec]
    simp only [Res.bind_ok]
    rw [virtual_write hI]
    obtain ⟨b2, e3, e4⟩ := write_ok (c := c) hK
      ({ os with ios := lost c (decide (text.length < os.ios.width)) { os.ios with width := 0 } } : OS σ) l text hR hN hok
    rw [e3]
    simp only [Res.bind_ok]
    rw [hfl, if_neg (fun h => by simpa using hL.mp h)]
    exact ⟨b2, rfl, e4⟩
  | true =>
    rw [if_neg (fun h => by simpa using hRt.mp h)]
    simp only [Res.bind_ok]
    rw [virtual_write hI]
    obtain ⟨b2, e3, e4⟩ := write_ok (c := c) hK ({ os with ios := { os.ios with width := 0 } } : OS σ) l text hR hN hok
    rw [e3]
    simp only [Res.bind_ok]
    rw [if_pos (hL.mpr rfl)]
    unfold OS.fillN
    rw [virtual_putMany hI, hpad, hdec]
    exact ⟨b2, rfl, e4⟩

theorem virtual_int (hI : I.overflow = noOverflow) (hK : Accepts t I R ok N) (os : OS σ) (l : List Ch) (hR : R os.buf l)
    (signed : Bool) (bits : Nat) (v : Int)
    (hbits : bits = 8 ∨ bits = 16 ∨ bits = 32 ∨ bits = 64) (hv : Charconv.InRange (intTy signed bits) v)
    (hmin : ¬ (signed = true ∧ v = (intTy signed bits).min))
    (hoct : ¬ Spec.OctalTooLong (getBase os.ios.flags) signed bits v) (text : List Ch)
    (ht : Spec.Shows (getBase os.ios.flags) (os.ios.flags &&& uppercase != 0) v text) (toLeft : Bool)
    (hadj : Spec.Adjusted os.ios.flags toLeft) (hN : l.length + text.length ≤ N) (hok : ∀ ch ∈ text, ok ch) :
    ∃ b, os.outInt t c (wrapOut I) signed bits v =
        .ok { os with buf := b, ios := lost c (decide (text.length < os.ios.width)) { os.ios with width := 0 } } ∧
      R b (l ++ text) := by
  obtain ⟨codes, h1, rfl⟩ := ht
  obtain ⟨m, p, e1, e2⟩ := (integerPut_spec signed bits os.ios.flags v (List.replicate (octLength signed bits + 1) 0) (by simp) hbits
    hv hmin codes h1).1 hoct
  have e3 : (m.drop p).map (BitVec.ofNat 8) = codes.map fun k => BitVec.ofNat 8 (Spec.cased (os.ios.flags &&& uppercase != 0) k) := by
    rw [e2, List.map_map]; rfl
  unfold OS.outInt
  rw [e1]
  simp only [Res.ofOption_some, Res.bind_ok, if_true]
  rw [e3]
  exact virtual_writeFilled hI hK os l _ hR toLeft hadj hN hok

/-- one numeral: a number is shown by one text -/
theorem shows_unique (base : Nat) (hb : 2 ≤ base) (upper : Bool) (v : Int) (a b : List Ch) (ha : Spec.Shows base upper v a)
    (hb' : Spec.Shows base upper v b) : a = b := by
  obtain ⟨x, hx, rfl⟩ := ha
  obtain ⟨y, hy, rfl⟩ := hb'
  rw [Charconv.isNumeral_iff base v hb] at hx hy
  rw [hx, hy]

theorem fmt_lost {os : OS σ} {f : Spec.Fmt} (b : σ) (any : Bool) (ios : Ios) (h : FmtRep t { os with ios := ios } f) :
    FmtRep t ({ os with buf := b, ios := lost c any ios } : OS σ) f := by
  cases any <;> exact ⟨h.base, h.upper, h.adj, h.width, h.fill⟩

theorem arrives_le {f f' : Spec.Fmt} {i : Item} {text arrives : List Ch} (hb : 2 ≤ f.base) (he : Spec.Emits f i text f')
    (ha : Spec.Arrives f i arrives) : arrives.length ≤ text.length := by
  cases he with
  | int signed bits v text h1 =>
    cases ha with
    | int _ _ _ arr h2 => rw [shows_unique _ hb _ _ _ _ h1 h2, Spec.field_length]; omega
  | str text => cases ha; rw [Spec.field_length]; omega
  | _ => cases ha; simp

theorem virtual_insert (hI : I.overflow = noOverflow) (hK : Accepts t I R ok N) (os : OS σ) (f f' : Spec.Fmt)
    (l text arrives : List Ch) (i : Item) (hF : FmtRep t os f) (hR : R os.buf l) (hs : Spec.Sound t c f i)
    (he : Spec.Emits f i text f') (ha : Spec.Arrives f i arrives) (hN : l.length + arrives.length ≤ N)
    (hok : ∀ ch ∈ arrives, ok ch) :
    ∃ os', os.insert t c (wrapOut I) i = .ok os' ∧ R os'.buf (l ++ arrives) ∧ FmtRep t os' f' ∧
      os'.ios.state = (lost c (decide (arrives.length < text.length)) os.ios).state := by
  have hb2 : 2 ≤ f.base := by
    rw [← hF.base]; unfold getBase; split
    · omega
    · split <;> omega
  have stay : ∀ os' : OS σ, FmtRep t os' f' → os'.buf = os.buf → os'.ios.state = os.ios.state → text = [] → arrives = [] →
      os.insert t c I i = .ok os' → os.insert t c (wrapOut I) i = os.insert t c I i →
      ∃ os', os.insert t c (wrapOut I) i = .ok os' ∧ R os'.buf (l ++ arrives) ∧ FmtRep t os' f' ∧
        os'.ios.state = (lost c (decide (arrives.length < text.length)) os.ios).state := by
    intro os' h1 h2 h3 h4 h5 h6 h7
    subst h4; subst h5
    exact ⟨os', h7.trans h6, by rw [h2, List.append_nil]; exact hR, h1, by simpa [lost] using h3⟩
  have old : ∀ j, j = i → text = [] → arrives = [] → (os.insert t c (wrapOut I) j = os.insert t c I j) → (∀ x, os.insert t c I j = .ok x → x.buf = os.buf) →
      ∃ os', os.insert t c (wrapOut I) i = .ok os' ∧ R os'.buf (l ++ arrives) ∧ FmtRep t os' f' ∧
        os'.ios.state = (lost c (decide (arrives.length < text.length)) os.ios).state := by
    intro j hj h1 h2 h3 h4
    subst hj
    obtain ⟨x, g1, _, g3, g4⟩ := insert_ok (c := c) hK os f f' l text j hF hR hs he (by rw [h1]; rw [h2] at hN; exact hN)
      (by rw [h1]; intro ch hm; cases hm)
    exact stay x g3 (h4 x g1) g4 h1 h2 g1 h3
  obtain ⟨hb, hu, hadj, hw, hf⟩ := hF
  cases he with
  | int signed bits v text hsh =>
    cases ha with
    | int _ _ _ arr hsh2 =>
    have := shows_unique _ hb2 _ _ _ _ hsh hsh2
    subst this
    obtain ⟨h1, h2, h3, h4⟩ := hs
    obtain ⟨b, e1, e2⟩ := virtual_int (c := c) hI hK os l hR signed bits v h1 h2 h3 (by rw [hb]; exact h4) text
      (by rw [hb, hu]; exact hsh) f.toLeft hadj hN hok
    refine ⟨_, e1, e2, fmt_lost _ _ _ ⟨hb, hu, hadj, rfl, hf⟩, ?_⟩
    rw [Spec.field_length, hw]
    have : decide (text.length < max f.width text.length) = decide (text.length < f.width) := by
      by_cases h : text.length < f.width
      · rw [decide_eq_true h, decide_eq_true (by omega)]
      · rw [decide_eq_false h, decide_eq_false (by omega)]
    rw [this]
    cases decide (text.length < f.width) <;> rfl
  | chr ch =>
    cases ha
    refine ⟨{ os with ios := lost c true { os.ios with width := 0 } }, ?_, by rw [List.append_nil]; exact hR,
      fmt_lost (os := os) os.buf true _ ⟨hb, hu, hadj, rfl, hf⟩, ?_⟩
    · simp only [OS.insert, OS.outChar, OS.fillN]
      rw [virtual_putMany hI]
      simp only [Res.bind_ok, Ios.setWidth, truncWidth_zero]
      rw [virtual_put_lost hI]
      simp only [lost]
      split
      · simp only [if_true]
        congr 2
        exact eofbit_twice c { os.ios with width := 0 }
      · rfl
    · rw [Spec.field_length]
      have : ([] : List Ch).length < max f.width [ch].length := by simp; omega
      rw [decide_eq_true this]; rfl
  | str =>
    cases ha
    have hs : f.width = 0 := hs
    have hfield : Spec.field f.width f.fill f.toLeft arrives = arrives := by unfold Spec.field; rw [hs]; simp
    rw [hfield]
    obtain ⟨b, e1, e2⟩ := write_ok (c := c) hK os l arrives hR hN hok
    refine ⟨_, (virtual_write hI os arrives).trans e1, e2, ⟨hb, hu, hadj, by show os.ios.width = 0; omega, hf⟩, by simp [lost]⟩
  | setw n => cases ha; exact old _ rfl rfl rfl rfl (by intro x hx; simp only [OS.insert, Res.ok.injEq] at hx; rw [← hx]; rfl)
  | setfill ch => cases ha; exact old _ rfl rfl rfl rfl (by intro x hx; simp only [OS.insert, Res.ok.injEq] at hx; rw [← hx]; rfl)
  | setbase b => cases ha; exact old _ rfl rfl rfl rfl (by intro x hx; simp only [OS.insert, Res.ok.injEq] at hx; rw [← hx]; rfl)
  | upper on => cases ha; exact old _ rfl rfl rfl rfl (by intro x hx; simp only [OS.insert, Res.ok.injEq] at hx; rw [← hx])
  | adjust tl => cases ha; exact old _ rfl rfl rfl rfl (by intro x hx; simp only [OS.insert, Res.ok.injEq] at hx; rw [← hx])
  | endl =>
    cases ha
    obtain ⟨b, e1, e2⟩ := virtual_endl (c := c) hI hK os l hR
    exact ⟨_, e1, by rw [List.append_nil]; exact e2, ⟨hb, hu, hadj, hw, hf⟩, by simp [lost]⟩

/-- **Violation (exactly what is lost).**  For every chain of insertions, over any accepting streambuf behind the virtual
interface: only the numerals and the texts arrive — fills, single characters and newlines do not — the stream is `eof`
exactly if something was lost, and nothing else tells. -/
theorem virtual_chain (hI : I.overflow = noOverflow) (hK : Accepts t I R ok N) (f f' : Spec.Fmt) (is : List Item)
    (text arrives : List Ch) (hc : Spec.Thinned t c f is text arrives f') :
    ∀ (os : OS σ) (l : List Ch), FmtRep t os f → R os.buf l → l.length + arrives.length ≤ N → (∀ ch ∈ arrives, ok ch) →
    arrives.length ≤ text.length ∧
    ∃ os', os.insertAll t c (wrapOut I) is = .ok os' ∧ R os'.buf (l ++ arrives) ∧ FmtRep t os' f' ∧
      os'.ios.state = if arrives.length < text.length then (os.ios.setstate c eofbit).state else os.ios.state := by
  induction hc with
  | nil f => intro os l hF hR _ _; exact ⟨Nat.le_refl _, os, rfl, by simpa using hR, hF, rfl⟩
  | cons f f1 f2 i is text rest arrives more hs he ha _ ih =>
    intro os l hF hR hN hok
    rw [List.length_append] at hN
    have hb2 : 2 ≤ f.base := by
      rw [← hF.base]; unfold getBase; split
      · omega
      · split <;> omega
    have hle := arrives_le hb2 he ha
    obtain ⟨os1, e1, e2, e3, e4⟩ := virtual_insert hI hK os f f1 l text arrives i hF hR hs he ha (by omega)
      (fun ch hm => hok ch (List.mem_append.mpr (.inl hm)))
    obtain ⟨hle2, os2, g1, g2, g3, g4⟩ := ih os1 _ e3 e2 (by simp; omega) (fun ch hm => hok ch (List.mem_append.mpr (.inr hm)))
    refine ⟨by simp; omega, os2, by rw [OS.insertAll, e1]; exact g1, by rw [← List.append_assoc]; exact g2, g3, ?_⟩
    rw [g4]
    simp only [List.length_append]
    have hst : ∀ a b : Ios, a.state = b.state → (a.setstate c eofbit).state = (b.setstate c eofbit).state := by
      intro a b h; simp only [Ios.setstate, h]
    have hfin : (os1.ios.setstate c eofbit).state = (os.ios.setstate c eofbit).state := by
      rw [hst _ _ e4]
      by_cases h : arrives.length < text.length <;> simp [lost, h, eofbit_twice]
    by_cases h2 : more.length < rest.length
    · rw [if_pos h2, if_pos (by omega), hfin]
    · rw [if_neg h2, e4]
      by_cases h1 : arrives.length < text.length
      · rw [if_pos (by omega)]; simp [lost, h1]
      · rw [if_neg (by omega)]; simp [lost, h1]

/-- an insertion of which nothing is lost: no single character, no newline, no field wider than the numeral -/
def Spec.Whole (f : Spec.Fmt) : Item → Prop
  | .chr _ | .endl => False
  | .int _ _ _ => f.width = 0
  | _ => True

/-- a chain that only inserts such -/
inductive Spec.WholeChain (t : Traits) (c : IosCfg) : Spec.Fmt → List Item → List Ch → Spec.Fmt → Prop where
  | nil (f : Spec.Fmt) : Spec.WholeChain t c f [] [] f
  | cons (f f' f'' : Spec.Fmt) (i : Item) (is : List Item) (text rest : List Ch) : Spec.Sound t c f i → Spec.Whole f i →
      Spec.Emits f i text f' → Spec.WholeChain t c f' is rest f'' → Spec.WholeChain t c f (i :: is) (text ++ rest) f''

theorem wholeChain_thinned {f f' : Spec.Fmt} {is : List Item} {text : List Ch} (h : Spec.WholeChain t c f is text f') :
    Spec.Thinned t c f is text text f' := by
  induction h with
  | nil f => exact .nil f
  | cons f f' f'' i is text rest hs hw he _ ih =>
    refine .cons f f' f'' i is text rest text rest hs he ?_ ih
    cases he with
    | int signed bits v text hsh =>
      have hw : f.width = 0 := hw
      have : Spec.field f.width f.fill f.toLeft text = text := by unfold Spec.field; rw [hw]; simp
      rw [this]; exact .int _ _ _ _ _ hsh
    | chr ch => exact hw.elim
    | str text =>
      have hs : f.width = 0 := hs
      have : Spec.field f.width f.fill f.toLeft text = text := by unfold Spec.field; rw [hs]; simp
      rw [this]; exact .str _ _
    | setw n => exact .setw _ _
    | setfill ch => exact .setfill _ _
    | setbase b => exact .setbase _ _
    | upper on => exact .upper _ _
    | adjust tl => exact .adjust _ _
    | endl => exact hw.elim

/-- **C101 through the virtual interface, partial**: a chain of texts and unpadded numbers (in any base and case) arrives
whole and leaves the error state alone.  Missing: single characters, newlines and fills (`virtual_chain`). -/
theorem virtual_texts_partial (hI : I.overflow = noOverflow) (hK : Accepts t I R ok N) (f f' : Spec.Fmt) (is : List Item)
    (text : List Ch) (hc : Spec.WholeChain t c f is text f') (os : OS σ) (l : List Ch) (hF : FmtRep t os f) (hR : R os.buf l)
    (hN : l.length + text.length ≤ N) (hok : ∀ ch ∈ text, ok ch) :
    ∃ os', os.insertAll t c (wrapOut I) is = .ok os' ∧ R os'.buf (l ++ text) ∧ FmtRep t os' f' ∧
      os'.ios.state = os.ios.state := by
  obtain ⟨_, os', h1, h2, h3, h4⟩ := virtual_chain hI hK f f' is text text (wholeChain_thinned hc) os l hF hR hN hok
  exact ⟨os', h1, h2, h3, by simpa using h4⟩

end

/-- `os << 'a' << "bc" << setw(4) << 42 << endl` through the virtual interface over a string: `bc42` arrives -/
theorem sample_thinned : Spec.Thinned ⟨false, true⟩ ⟨true⟩ ⟨10, false, false, 0, 0x20⟩
    [.chr 97, .str [98, 99], .setw 4, .int true 32 42, .endl] [97, 98, 99, 0x20, 0x20, 52, 50, 10] [98, 99, 52, 50]
    ⟨10, false, false, 0, 0x20⟩ := by
  have h : Spec.Shows 10 false 42 [52, 50] :=
    ⟨[52, 50], (Charconv.isNumeral_iff 10 42 (by omega) _).mpr (by decide +kernel), by decide⟩
  refine .cons _ ⟨10, false, false, 0, 0x20⟩ _ _ _ [97] _ [] _ (.inl rfl) (.chr _ _) (.chr _ _) ?_
  refine .cons _ ⟨10, false, false, 0, 0x20⟩ _ _ _ [98, 99] _ [98, 99] _ rfl (.str ⟨10, false, false, 0, 0x20⟩ _) (.str _ _) ?_
  refine .cons _ ⟨10, false, false, 4, 0x20⟩ _ _ _ [] _ [] _ (by decide : (4 : Nat) < 16) (.setw _ 4) (.setw _ _) ?_
  refine .cons _ ⟨10, false, false, 0, 0x20⟩ _ _ _ [0x20, 0x20, 52, 50] _ [52, 50] _
    ⟨by simp, ⟨by decide, by decide⟩, by decide, by unfold Spec.OctalTooLong; simp⟩
    (.int ⟨10, false, false, 4, 0x20⟩ true 32 42 _ h) (.int _ _ _ _ _ h) ?_
  exact .cons _ _ _ _ _ [10] _ [] _ trivial (.endl _) (.endl _) (.nil _)

example : (OS.init (⟨List.replicate 32 0, 0⟩ : OutSpan)).insertAll ⟨false, true⟩ ⟨true⟩ (wrapOut (spanOut ⟨false, true⟩))
    [.chr 97, .str [98, 99], .setw 4, .int true 32 42, .endl] =
    .ok ⟨⟨[98, 99, 52, 50] ++ List.replicate 28 0, 4⟩, ⟨dec ||| right, eofbit, 0⟩, 0⟩ := by rfl

/-! ## C files -/

/-- the buffering modes of a C stream (`setvbuf`): none, by line, or in full buffers of `cap` characters -/
inductive Buffering where
  | unbuffered
  | line (cap : Nat)
  | full (cap : Nat)
  deriving DecidableEq, Repr

/-- a C `FILE` open for writing: what has reached the device, what is held in the stream's buffer, and how many more
characters the device takes (port/posix/streambuf.h:69, 80-99 keeps a `FILE&`) -/
structure File where
  device : List Ch
  pending : List Ch
  room : Nat
  deriving DecidableEq, Repr

/-- `fflush` (not called by port/posix/streambuf.cpp:1-48) -/
def File.fflush (f : File) : File := { f with device := f.device ++ f.pending, pending := [] }

/-- what the C library does once a character is in the buffer (setvbuf modes; used by port/posix/streambuf.cpp:14, 28) -/
def File.settle (m : Buffering) (f : File) (ch : Ch) : File :=
  match m with
  | .unbuffered => f.fflush
  | .line cap => if ch = 10 ∨ cap ≤ f.pending.length then f.fflush else f
  | .full cap => if cap ≤ f.pending.length then f.fflush else f

/-- `fputc`, called by `posix_streambuf::sputc`, port/posix/streambuf.cpp:26-29: the character as `unsigned char`, or
`EOF` when it could not be written -/
def File.fputc (m : Buffering) (f : File) (ch : Ch) : File × Int :=
  if f.room = 0 then (f, eofCode)
  else (File.settle m { f with pending := f.pending ++ [ch], room := f.room - 1 } ch, ch.toNat)

/-- `fwrite` of single characters, called by `posix_streambuf::xsputn`, port/posix/streambuf.cpp:11-15: as by `fputc`, up
to the first that cannot be written; returns how many were -/
def File.fwrite (m : Buffering) : File → List Ch → File × Nat
  | f, [] => (f, 0)
  | f, ch :: r =>
    let p := f.fputc m ch
    if p.2 = eofCode then (p.1, 0)
    else
      let q := File.fwrite m p.1 r
      (q.1, q.2 + 1)

/-- `posix_streambuf`, port/posix/streambuf.h:80-99: `overflow` and `sync` are the defaults of impl/streambuf/base.h:65,
87-90 -/
def fileOut (m : Buffering) : OutImpl File where
  xsputn f text := let p := f.fwrite m text; .ok (p.1, p.2)
  overflow := noOverflow
  sputc f ch := let p := f.fputc m ch; .ok (p.1, p.2)
  sync := noSync

/-- all the characters given to the file -/
def File.all (f : File) : List Ch := f.device ++ f.pending

theorem ch_ne_eof (ch : Ch) : (ch.toNat : Int) ≠ eofCode := by unfold eofCode; omega

theorem settle_spec (m : Buffering) (f : File) (ch : Ch) :
    (f.settle m ch).all = f.all ∧ (f.settle m ch).room = f.room := by
  unfold File.settle
  cases m <;> simp only
  · simp [File.fflush, File.all]
  · split <;> simp [File.fflush, File.all]
  · split <;> simp [File.fflush, File.all]

theorem fputc_spec (m : Buffering) (f : File) (ch : Ch) (h : 0 < f.room) :
    (f.fputc m ch).2 = ch.toNat ∧ (f.fputc m ch).1.all = f.all ++ [ch] ∧ (f.fputc m ch).1.room = f.room - 1 := by
  unfold File.fputc
  rw [if_neg (by omega)]
  obtain ⟨h1, h2⟩ := settle_spec m { f with pending := f.pending ++ [ch], room := f.room - 1 } ch
  refine ⟨rfl, ?_, h2⟩
  simp only
  rw [h1]
  simp [File.all]

/-- as much as there is room for is written, in order -/
theorem fwrite_spec (m : Buffering) : ∀ (text : List Ch) (f : File),
    (f.fwrite m text).2 = min text.length f.room ∧ (f.fwrite m text).1.all = f.all ++ text.take f.room ∧
      (f.fwrite m text).1.room = f.room - text.length := by
  intro text
  induction text with
  | nil => intro f; simp [File.fwrite]
  | cons ch r ih =>
    intro f
    rw [File.fwrite]
    by_cases h : f.room = 0
    · have : f.fputc m ch = (f, eofCode) := by unfold File.fputc; rw [if_pos h]
      simp [this, h]
    · obtain ⟨h1, h2, h3⟩ := fputc_spec m f ch (by omega)
      obtain ⟨k1, k2, k3⟩ := ih (f.fputc m ch).1
      simp only [h1, ch_ne_eof, if_false]
      rw [k1, k2, k3, h2, h3]
      obtain ⟨n, hn⟩ : ∃ n, f.room = n + 1 := ⟨f.room - 1, by omega⟩
      rw [hn]
      refine ⟨by simp, by simp, by simp⟩

theorem file_sputn (t : Traits) (m : Buffering) (f : File) (text : List Ch) :
    (fileOut m).sputn t f text = .ok ((f.fwrite m text).1, min text.length f.room) := by
  obtain ⟨h1, _, _⟩ := fwrite_spec m text f
  unfold OutImpl.sputn
  simp only [fileOut, Res.bind_ok, h1]
  split
  · next h =>
    rw [rd, List.getElem?_eq_getElem h]
    simp [noOverflow]
  · rfl

/-- A file that takes `T` characters in all accepts any number `N` up to that, whatever they are, and keeps a property `P`
of its state that each of these characters keeps. -/
theorem file_accepts_with (t : Traits) (m : Buffering) (N T : Nat) (hT : N ≤ T) (P : File → Prop)
    (hP : ∀ f ch, P f → 0 < f.room → f.all.length < N → P (f.fputc m ch).1) :
    Accepts t (fileOut m) (fun f l => f.all = l ∧ f.room + l.length = T ∧ P f) (fun _ => True) N where
  text := by
    rintro f l text ⟨h1, h2, h3⟩ hf _
    obtain ⟨k1, k2, k3⟩ := fwrite_spec m text f
    refine ⟨_, by rw [file_sputn]; congr 2; omega, ?_, ?_, ?_⟩
    · rw [k2, h1, List.take_of_length_le (by omega)]
    · rw [k3]; simp; omega
    · have key : ∀ (text : List Ch) (f : File), P f → f.all.length + text.length ≤ N → text.length ≤ f.room →
          P (f.fwrite m text).1 := by
        intro text
        induction text with
        | nil => intro f h _ _; exact h
        | cons ch r ih =>
          intro f h hN hr
          simp only [List.length_cons] at hN hr
          obtain ⟨e1, e2, e3⟩ := fputc_spec m f ch (by omega)
          rw [File.fwrite]
          simp only [e1, ch_ne_eof, if_false]
          refine ih _ (hP f ch h (by omega) (by omega)) ?_ ?_
          · rw [e2]; simp; omega
          · rw [e3]; omega
      exact key text f h3 (by rw [h1]; omega) (by omega)
  char := by
    rintro f l ch ⟨h1, h2, h3⟩ hf _
    obtain ⟨e1, e2, e3⟩ := fputc_spec m f ch (by omega)
    refine ⟨_, _, rfl, by rw [e1]; exact ch_ne_eof ch, by rw [e2, h1], by rw [e3]; simp; omega, hP f ch h3 (by omega) (by rw [h1]; omega)⟩
  sync := fun f l h => ⟨f, 0, rfl, by decide, h⟩

/-- **C101 for files, output, partial**: a chain of insertions into a file with room for them gives the file exactly the
concatenation of the fields the specification gives, in order, for every buffering mode.  Missing: that `endl` and
`flush` send them to the device (`file_flush_ignored`), and the insertions of C38 that are not `Spec.Sound`. -/
theorem file_chain_partial (t : Traits) (c : IosCfg) (m : Buffering) (f f' : Spec.Fmt) (is : List Item) (text : List Ch)
    (hc : Spec.Chain t c f is text f') (os : OS File) (hF : FmtRep t os f) (hroom : text.length ≤ os.buf.room) :
    ∃ os', os.insertAll t c (fileOut m) is = .ok os' ∧ os'.buf.device ++ os'.buf.pending = os.buf.device ++ os.buf.pending ++ text ∧
      os'.buf.room = os.buf.room - text.length ∧ FmtRep t os' f' ∧ os'.ios.state = os.ios.state := by
  obtain ⟨os', h1, ⟨h2, h3, _⟩, h4, h5⟩ := chain_partial (file_accepts_with t m _ (os.buf.room + os.buf.all.length) (Nat.le_refl _) (fun _ => True)
    (fun _ _ _ _ _ => trivial)) f f' is text hc os os.buf.all hF ⟨rfl, rfl, trivial⟩ (by omega) (fun _ _ => trivial)
  exact ⟨os', h1, h2, by simp at h3; omega, h4, h5⟩

/-- **A full file**: what there is room for is written, and the stream fails. -/
theorem file_full (t : Traits) (c : IosCfg) (m : Buffering) (os : OS File) (text : List Ch) (h : os.buf.room < text.length) :
    ∃ f, os.write t c (fileOut m) text = .ok { os with buf := f, ios := os.ios.setstate c failbit } ∧
      f.device ++ f.pending = os.buf.device ++ os.buf.pending ++ text.take os.buf.room ∧ f.room = 0 := by
  obtain ⟨k1, k2, k3⟩ := fwrite_spec m text os.buf
  refine ⟨(os.buf.fwrite m text).1, ?_, k2, by omega⟩
  unfold OS.write
  rw [file_sputn]
  simp only [Res.bind_ok]
  rw [if_neg (by omega)]
  have key : ∀ (a : Bool) (x : BitVec 8), ((IosCfg.truncState ⟨a⟩ (x ||| failbit)) == goodbit) = false := by decide +kernel
  have hg : (os.ios.setstate c failbit).good = false := key c.aggressive os.ios.state
  simp [OS.sentry, hg]

/-- **Violation.**  `flush()` on a file stream does nothing, so it never moves what the C library holds back. -/
theorem file_flush_ignored (c : IosCfg) (m : Buffering) (os : OS File) : os.flush c (fileOut m) = .ok os := by
  simp [OS.flush, fileOut, noSync]

/-- **Violation (whole programs).**  With a fully buffered file whose buffer is larger than the text, no chain of
insertions — however many `endl`s it has, and with `unitbuf` set or not — sends a character to the device. -/
theorem file_endl_does_not_flush (t : Traits) (c : IosCfg) (cap : Nat) (f f' : Spec.Fmt) (is : List Item) (text : List Ch)
    (hc : Spec.Chain t c f is text f') (os : OS File) (hF : FmtRep t os f) (hroom : text.length ≤ os.buf.room)
    (hcap : os.buf.pending.length + text.length < cap) :
    ∃ os', os.insertAll t c (fileOut (.full cap)) is = .ok os' ∧ os'.buf.device = os.buf.device ∧
      os'.buf.pending = os.buf.pending ++ text := by
  obtain ⟨os', h1, ⟨h2, h3, h6⟩, h4, h5⟩ := chain_partial (file_accepts_with t (.full cap) (os.buf.all.length + text.length)
      (os.buf.room + os.buf.all.length) (by omega) (fun g => g.device = os.buf.device) (by
    intro g ch hg hr hN
    have hp : (g.pending ++ [ch]).length < cap := by
      simp only [File.all, List.length_append, hg, List.length_singleton] at hN ⊢; omega
    unfold File.fputc File.settle
    rw [if_neg (by omega)]
    simp only
    rw [if_neg (by simp at hp ⊢; omega)]
    exact hg)) f f' is text hc os os.buf.all
      hF ⟨rfl, rfl, rfl⟩ (by omega) (fun _ _ => trivial)
  refine ⟨os', h1, h6, ?_⟩
  simp only [File.all, h6, List.append_assoc] at h2
  exact List.append_cancel_left h2

/-- **Partial: unbuffered and line-buffered files.**  Without buffering everything inserted is on the device, and with
line buffering everything up to the last newline is, as the C library sees to that itself. -/
theorem file_device_partial (t : Traits) (c : IosCfg) (m : Buffering) (hm : ∀ cap, m ≠ .full cap) (f f' : Spec.Fmt)
    (is : List Item) (text : List Ch) (hc : Spec.Chain t c f is text f') (os : OS File) (hF : FmtRep t os f)
    (hroom : text.length ≤ os.buf.room) (hp : os.buf.pending = []) :
    ∃ os', os.insertAll t c (fileOut m) is = .ok os' ∧
      os'.buf.device ++ os'.buf.pending = os.buf.device ++ text ∧
      (m = .unbuffered → os'.buf.device = os.buf.device ++ text) ∧
      10 ∉ os'.buf.pending := by
  obtain ⟨os', h1, ⟨h2, _, h6, h7⟩, _, _⟩ := chain_partial (file_accepts_with t m _ (os.buf.room + os.buf.all.length) (Nat.le_refl _)
      (fun g => (m = .unbuffered → g.pending = []) ∧ 10 ∉ g.pending) (by
    rintro g ch ⟨hg1, hg2⟩ hr _
    unfold File.fputc File.settle
    rw [if_neg (by omega)]
    cases m with
    | unbuffered => simp [File.fflush]
    | line cap =>
      simp only
      split
      · simp [File.fflush]
      · next h => simp only [List.mem_append, List.mem_singleton, not_or]
                  exact ⟨by simp, hg2, fun e => h (.inl e.symm)⟩
    | full cap => exact absurd rfl (hm cap))) f f' is text hc os os.buf.all
      hF ⟨rfl, rfl, fun _ => hp, by rw [hp]; simp⟩ (by omega) (fun _ _ => trivial)
  simp only [File.all, hp, List.append_nil] at h2
  refine ⟨os', h1, h2, ?_, h7⟩
  intro e
  rw [h6 e, List.append_nil] at h2
  exact h2

/-- `hi` and a newline into a file with a 4096-character buffer: nothing on the device; into a terminal: all of it -/
example : (OS.init (⟨[], [], 100⟩ : File)).insertAll ⟨false, true⟩ ⟨true⟩ (fileOut (.full 4096)) [.str [104, 105], .endl] =
      .ok (OS.init ⟨[], [104, 105, 10], 97⟩) ∧
    (OS.init (⟨[], [], 100⟩ : File)).insertAll ⟨false, true⟩ ⟨true⟩ (fileOut (.line 1024)) [.str [104, 105], .endl] =
      .ok (OS.init ⟨[104, 105, 10], [], 97⟩) := ⟨rfl, rfl⟩

/-- the chain and the state meet the hypotheses -/
example : Spec.Chain ⟨false, true⟩ ⟨true⟩ ⟨10, false, false, 0, 0x20⟩ [.str [104, 105], .endl] [104, 105, 10]
      ⟨10, false, false, 0, 0x20⟩ ∧ FmtRep ⟨false, true⟩ (OS.init (⟨[], [], 100⟩ : File)) ⟨10, false, false, 0, 0x20⟩ :=
  ⟨.cons _ ⟨10, false, false, 0, 0x20⟩ _ _ _ [104, 105] _ rfl (.str ⟨10, false, false, 0, 0x20⟩ _)
    (.cons _ _ _ _ _ [10] _ trivial (.endl _) (.nil _)), fmt_init _ _⟩

/-! ## Reading files -/

/-- an input stream over a C `FILE`: what is left of the file, `ios_base` and `_gcount` (internal/istream.h:137-165) -/
structure FileIn where
  rest : List Ch
  ios : Ios
  gcount : Int

/-- `fread` of single characters, called by `posix_streambuf::xsgetn`, port/posix/streambuf.cpp:19-23: up to `n`
characters, and how many -/
def fread (rest : List Ch) (n : Nat) : List Ch × List Ch × Nat := (rest.drop n, rest.take n, (rest.take n).length)

/-- `showmanyc()`, impl/streambuf/base.h:68, which is `in_avail()`, streambuf.h:184-187: `posix_streambuf` has none of
its own -/
def fileAvail : Nat := 0

/-- `read(s, n)`, internal/istream.h:151-165 over `sgetn`, streambuf.h:118-122: the stream and what was read -/
def FileIn.read (c : IosCfg) (s : FileIn) (n : Nat) : FileIn × List Ch :=
  let (rest, got, k) := fread s.rest n
  (⟨rest, if k ≠ n then s.ios.setstate c eofbit else s.ios, n⟩, got)

/-- `readsome(s, n)`, internal/istream.h:137-149: the stream, what was read and the count returned -/
def FileIn.readsome (s : FileIn) (n : Nat) : FileIn × List Ch × Nat :=
  let m := min n fileAvail
  let (rest, got, k) := fread s.rest m
  (⟨rest, s.ios, m⟩, got, k)

/-- a program of reads: the stream at the end and the blocks -/
def FileIn.reads (c : IosCfg) : FileIn → List Nat → FileIn × List (List Ch)
  | s, [] => (s, [])
  | s, n :: r =>
    let p := s.read c n
    let q := FileIn.reads c p.1 r
    (q.1, p.2 :: q.2)

/-- **C101 for files, input**: however a file is cut into reads, the blocks read are the file from where it stood, in
order, nothing skipped or repeated; each block is as long as asked for unless the file ended, and the stream is `eof`
exactly if more was asked for than there was. -/
theorem file_reads (c : IosCfg) : ∀ (ns : List Nat) (s : FileIn),
    (s.reads c ns).2.flatten ++ (s.reads c ns).1.rest = s.rest ∧
    (s.reads c ns).2.flatten = s.rest.take ns.sum ∧ (s.reads c ns).2.length = ns.length ∧
    (s.reads c ns).1.ios = if s.rest.length < ns.sum then s.ios.setstate c eofbit else s.ios := by
  intro ns
  induction ns with
  | nil => intro s; simp [FileIn.reads]
  | cons n r ih =>
    intro s
    obtain ⟨h1, h2, h3, h4⟩ := ih (s.read c n).1
    have hr : (s.read c n).1.rest = s.rest.drop n := rfl
    have hg : (s.read c n).2 = s.rest.take n := rfl
    have hi : (s.read c n).1.ios = if s.rest.length < n then s.ios.setstate c eofbit else s.ios := by
      show (if (s.rest.take n).length ≠ n then _ else _) = _
      rw [List.length_take]
      by_cases h : s.rest.length < n
      · rw [if_pos h, if_pos (by omega)]
      · rw [if_neg h, if_neg (by omega)]
    rw [hr] at h1 h2 h4
    obtain ⟨S, hS, hS'⟩ : ∃ S : Nat, (n :: r).sum = S ∧ S = n + r.sum := ⟨_, rfl, List.sum_cons⟩
    rw [hS]
    simp only [FileIn.reads, List.flatten_cons, List.length_cons, h3]
    refine ⟨?_, ?_, trivial, ?_⟩
    · rw [List.append_assoc, h1, hg, List.take_append_drop]
    · rw [h2, hg, hS', List.take_add]
    · rw [h4, hi, List.length_drop]
      by_cases h : s.rest.length < n
      · rw [if_pos h, if_pos (show s.rest.length < S by omega), eofbit_twice]; split <;> rfl
      · rw [if_neg h]
        by_cases h' : s.rest.length < S
        · rw [if_pos (by omega), if_pos h']
        · rw [if_neg (by omega), if_neg h']

/-- **Violation.**  `readsome` never reads anything from a file, however much is there; nothing tells. -/
theorem file_readsome_nothing (s : FileIn) (n : Nat) : s.readsome n = (⟨s.rest, s.ios, 0⟩, [], 0) := by
  simp [FileIn.readsome, fileAvail, fread]

/-- five characters read as 2 and 4 -/
example : (FileIn.mk [1, 2, 3, 4, 5] Ios.init 0).reads ⟨true⟩ [2, 4] =
    (⟨[], ⟨dec ||| right, eofbit, 0⟩, 4⟩, [[1, 2], [3, 4, 5]]) := rfl

end Verif.Streams
