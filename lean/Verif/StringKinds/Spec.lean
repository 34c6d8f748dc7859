import Verif.StringKinds.Model
/-!
# What strings over shared characters promise (C96)

Texts are plain lists; the only thing taken from the model is the shape of a string object (where it starts, how many
characters fit, how its length is kept) and the names of the calls.
-/
namespace Verif.StringKinds.Spec
open Verif.StringKinds (Str Op)

universe u
variable {α : Type u}

/-- the characters `l` are in the memory from position `p` on -/
def Chars (m : List α) (p : Nat) (l : List α) : Prop := l <+: m.drop p

/-- the string object `s` stands for the text `t`: its characters are there and its length is recorded, by a
terminator that does not occur in the text or by a count -/
def Holds (z : α) (m : List α) (s : Str) (t : List α) : Prop :=
  Chars m s.ptr t ∧ t.length < s.modulus ∧
    (s.term = true → z ∉ t ∧ Chars m (s.ptr + t.length) [z]) ∧ (s.term = false → s.msize = t.length)

/-- a text of `n` characters fits: in what the string says its capacity is, in its size type and, with the
terminator if there is one, in the memory -/
def Fits (m : List α) (s : Str) (n : Nat) : Prop :=
  n ≤ s.cap ∧ n < s.modulus ∧ s.ptr + n < m.length

/-- nothing but the `n` cells from `p` on has changed -/
def OnlyChanged (m m' : List α) (p n : Nat) : Prop :=
  m'.length = m.length ∧ ∀ j, (j < p ∨ p + n ≤ j) → m'[j]? = m[j]?

/-! ## A family of strings: one text per buffer -/

/-- which buffer a string refers to (named by where it starts), its capacity and the modulus of its size type -/
structure Ref where
  buf : Nat
  cap : Nat
  modulus : Nat
  deriving DecidableEq, Repr

/-- the strings, and the text each buffer holds -/
structure State (α : Type u) where
  refs : List Ref
  text : Nat → List α

/-- the text of one buffer is replaced -/
def State.set (a : State α) (b : Nat) (t : List α) : State α :=
  { a with text := fun c => if c = b then t else a.text c }

/-- the new text fits the buffer (`room` cells) and the string it is written through -/
def fits (room : Nat → Nat) (r : Ref) (t : List α) : Bool :=
  decide (t.length < room r.buf ∧ t.length ≤ r.cap ∧ t.length < r.modulus)

/-- the string's size type can express the text of its buffer -/
def sees (a : State α) (r : Ref) : Bool := decide ((a.text r.buf).length < r.modulus)

/-- write a new text through string `r` -/
def write (room : Nat → Nat) (a : State α) (r : Ref) (t : List α) : Option (State α) :=
  if sees a r && fits room r t then some (a.set r.buf t) else none

/-- One call; `none` when it must not be made.  Two strings over one buffer show the same text; a copy made by
assignment between different types copies the text; assignment between referring strings of one type makes the left
one refer to the right one's buffer. -/
def step (room : Nat → Nat) (a : State α) : Op α → Option (State α)
  | .alias2 j cap md =>
    match a.refs[j]? with
    | some r => some { a with refs := a.refs ++ [⟨r.buf, cap, md⟩] }
    | none => none
  | .alias3 j md =>
    match a.refs[j]? with
    | some r => if 0 < r.cap ∧ r.cap ≤ r.modulus ∧ r.cap ≤ md then some { a with refs := a.refs ++ [⟨r.buf, r.cap - 1, md⟩] } else none
    | none => none
  | .assignSame i j =>
    match a.refs[i]?, a.refs[j]? with
    | some _, some r => some { a with refs := a.refs.set i r }
    | _, _ => none
  | .assignStr i j =>
    match a.refs[i]?, a.refs[j]? with
    | some d, some r =>
      if sees a r && (decide (d.buf ≠ r.buf) || (a.text r.buf).isEmpty) then write room a d (a.text r.buf) else none
    | _, _ => none
  | .append i j =>
    match a.refs[i]?, a.refs[j]? with
    | some d, some r => if sees a r then write room a d (a.text d.buf ++ a.text r.buf) else none
    | _, _ => none
  | .insert i k j =>
    match a.refs[i]?, a.refs[j]? with
    | some d, some r =>
      if sees a r && decide (k ≤ (a.text d.buf).length) &&
          (decide (d.buf ≠ r.buf) || decide (k = 0) || decide (k = (a.text d.buf).length)) then
        write room a d ((a.text d.buf).take k ++ a.text r.buf ++ (a.text d.buf).drop k)
      else none
    | _, _ => none
  | .pushOwn i k =>
    match a.refs[i]? with
    | some d =>
      match (a.text d.buf)[k]? with
      | some c => write room a d (a.text d.buf ++ [c])
      | none => none
    | none => none
  | .clear i =>
    match a.refs[i]? with
    | some d => write room a d []
    | none => none

/-- a sequence of calls -/
def run (room : Nat → Nat) (a : State α) : List (Op α) → Option (State α)
  | [] => some a
  | op :: ops => (step room a op).bind fun a' => run room a' ops

/-- the buffers do not overlap and lie in a memory of `size` cells -/
def Apart (room : Nat → Nat) (bufs : List Nat) (size : Nat) : Prop :=
  (∀ b ∈ bufs, b + room b ≤ size) ∧
    ∀ b ∈ bufs, ∀ c ∈ bufs, b ≠ c → b + room b ≤ c ∨ c + room c ≤ b

/-- memory and null-terminated strings show the state: every buffer holds its text, ended by the terminator -/
def Shows (z : α) (room : Nat → Nat) (bufs : List Nat) (m : List α) (strs : List Str) (a : State α) : Prop :=
  strs.map (fun s => (⟨s.ptr, s.cap, s.modulus⟩ : Ref)) = a.refs ∧ (∀ s ∈ strs, s.term = true) ∧
    (∀ r ∈ a.refs, r.buf ∈ bufs) ∧ Apart room bufs m.length ∧
    ∀ b ∈ bufs, z ∉ a.text b ∧ (a.text b).length < room b ∧ Chars m b (a.text b ++ [z])

end Verif.StringKinds.Spec
