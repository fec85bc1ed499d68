/-!
# Outcomes, buffers and the reading/writing monad

Models the parts of the crate every other module rests on: the buffer state of `Bytes`/`Buffer`
(`src/bytes.rs`, `src/buffer.rs`), `Error`/`ErrorKind` (`src/errors.rs`), `ByteOrder`
(`src/byteorder.rs`) and the `Result` plumbing (`?`).
-/

namespace JBytes

/-- One byte (Rust `u8`). -/
abbrev Byte := UInt8

/-- `ByteOrder`, src/byteorder.rs. -/
inductive ByteOrder where
  | be
  | le
  deriving DecidableEq, Repr

/-- `ErrorKind`, src/errors.rs.  The text of `InvalidValue` is dropped (simplification: only the kind is
observed). -/
inductive ErrCode where
  | invalidByteLength
  | subSequence
  | fail
  | invalidPosition (n : Nat)
  | pushFail
  | invalidValue
  deriving DecidableEq, Repr

/-- `Error { position, code }`, src/errors.rs. -/
structure JErr where
  position : Nat
  code : ErrCode
  deriving DecidableEq, Repr

/-- Result of running a piece of Rust code: `Ok`, `Err`, a panic, or (only for the fuelled `while` loop of
`src/decode/impls_vec.rs:22-28`) running out of fuel. -/
inductive Out (α : Type) where
  | ok (a : α)
  | err (e : JErr)
  | panic
  | timeout
  deriving DecidableEq, Repr

/-- A byte buffer with a cursor: `Bytes` (src/bytes.rs:22-26) and `Buffer` (src/buffer.rs:38-42).  The
position lives in a `Cell`, so it can be moved past the end of the data. -/
structure Buf where
  data : List Byte
  pos : Nat
  deriving DecidableEq, Repr

/-- `usize` is 64 bits wide. -/
def usizeMod : Nat := 18446744073709551616

theorem usizeMod_def : usizeMod = 18446744073709551616 := rfl

/-- `a + b` on `usize`, wrapping (`overflow-checks = false`). -/
def wadd (a b : Nat) : Nat := (a + b) % usizeMod

/-- `a - b` on `usize`, wrapping. -/
def wsub (a b : Nat) : Nat := if b ≤ a then a - b else a + (usizeMod - b)

/-- `isize::MAX`, the largest size of a `Vec<u8>`. -/
def isizeMax : Nat := 9223372036854775807

theorem isizeMax_def : isizeMax = 9223372036854775807 := rfl

theorem isizeMax_lt : isizeMax < usizeMod := by decide

attribute [irreducible] usizeMod isizeMax

/-- Code that reads or writes a buffer and returns a `JResult<α>`.  The buffer is returned in every case:
changes made before an `Err` persist, as in Rust. -/
def M (α : Type) : Type := Buf → Out α × Buf

namespace M

/-- `Ok(a)`. -/
def pure {α : Type} (a : α) : M α := fun b => (.ok a, b)

/-- Sequencing with `?`. -/
def bind {α β : Type} (m : M α) (f : α → M β) : M β := fun b =>
  match m b with
  | (.ok a, b') => f a b'
  | (.err e, b') => (.err e, b')
  | (.panic, b') => (.panic, b')
  | (.timeout, b') => (.timeout, b')

instance : Monad M where
  pure := M.pure
  bind := M.bind

/-- `Err(make_error(self.get_position(), code))`, src/errors.rs:61-64. -/
def fail {α : Type} (c : ErrCode) : M α := fun b => (.err ⟨b.pos, c⟩, b)

/-- `Err(make_error(position, code))` with a position saved earlier. -/
def failAt {α : Type} (p : Nat) (c : ErrCode) : M α := fun b => (.err ⟨p, c⟩, b)

/-- A Rust panic. -/
def panic {α : Type} : M α := fun b => (.panic, b)

/-- Out of fuel. -/
def timeout {α : Type} : M α := fun b => (.timeout, b)

/-- `get_position`, src/bytes.rs:52-54, src/buffer.rs:98-100. -/
def getPos : M Nat := fun b => (.ok b.pos, b)

/-- `get_data`, src/bytes.rs:57-59, src/buffer.rs:103-105. -/
def getData : M (List Byte) := fun b => (.ok b.data, b)

/-- `set_position`, src/bytes.rs:62-64, src/buffer.rs:108-110. -/
def setPos (p : Nat) : M Unit := fun b => (.ok (), { b with pos := p })

/-- `advance`, src/bytes.rs:72-74, src/buffer.rs:118-120: `position + nbytes` in wrapping `usize`
arithmetic (`overflow-checks = false`). -/
def advance (n : Nat) : M Unit := fun b => (.ok (), { b with pos := wadd b.pos n })

/-- `remaining`, src/buf_traits.rs:29-31: `get_data().get(position..).unwrap_or(&[])`. -/
def remaining : M (List Byte) := fun b =>
  (.ok (if b.pos ≤ b.data.length then b.data.drop b.pos else []), b)

/-- `&self.get_data()[start..stop]`: panics unless `start <= stop <= len`. -/
def slice (start stop : Nat) : M (List Byte) := fun b =>
  if start ≤ stop ∧ stop ≤ b.data.length then (.ok ((b.data.drop start).take (stop - start)), b)
  else (.panic, b)

/-- `v[0]` on a slice: panics when it is empty. -/
def index0 : List Byte → M Byte
  | [] => panic
  | x :: _ => pure x

/-- Run `m`, turning `Err` into `None` (`m.ok()`, `if let Ok(v) = m`); panics go through. -/
def attempt {α : Type} (m : M α) : M (Option α) := fun b =>
  match m b with
  | (.ok a, b') => (.ok (some a), b')
  | (.err _, b') => (.ok none, b')
  | (.panic, b') => (.panic, b')
  | (.timeout, b') => (.timeout, b')

end M

end JBytes
