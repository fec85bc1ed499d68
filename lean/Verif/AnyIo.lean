import Verif.IoCodecs
import Verif.MutWrite
/-!
# An implementation of `BufRead` and `BufWrite` given by its required methods

`Required` is what an implementation outside the crate has to provide (src/buf_traits.rs:11-25, 1352-1357); `Required.io` adds
the provided methods (src/buf_traits.rs:27-1349, 1359-1994), which are those of `MutRead` and `MutWrite`: the text of the
traits is the same, but for `take_byteorder_uint`, which has a width in `BufRead`.  `bufIo` is the implementation of the
crate.
-/

namespace JBytes

/-- The required methods: `get_position`, `get_data`, `set_position`, `advance` (src/buf_traits.rs:13-25), and
`remaining_mut` (a slice that is read, `none` when it panics, and written back) and `resize` (1354-1356).  Codecs do not
call `reset_position`. -/
structure Required (σ : Type) where
  pos : σ → Nat
  data : σ → List Byte
  setPos : Nat → MS σ Unit
  advance : Nat → MS σ Unit
  remainingMut : σ → Option (List Byte)
  setMut : List Byte → σ → σ
  resize : Nat → MS σ Nat

namespace Required
variable {σ : Type} (I : Required σ)

/-- `remaining`, src/buf_traits.rs:29-31. -/
def remaining (s : σ) : List Byte := if I.pos s ≤ (I.data s).length then (I.data s).drop (I.pos s) else []

/-- The provided methods of `BufRead`, src/buf_traits.rs:27-1349. -/
def toRead : MutImpl σ where
  pos := I.pos
  data := I.data
  advance := I.advance
  remaining := I.remaining
  takeBytes := MutImpl.defaultTakeBytes I.pos I.data I.advance I.remaining

/-- The provided methods of `BufWrite`, src/buf_traits.rs:1359-1994. -/
def toWrite : WriteImpl σ where
  pos := I.pos
  remaining := I.remaining
  advance := I.advance
  remainingMut := I.remainingMut
  setMut := I.setMut
  resize := I.resize

/-- The methods codecs call, on a 64-bit target, without overflow checks. -/
def io : Io σ where
  pos s := (.ok (I.pos s), s)
  setPos := I.setPos
  advance := I.advance
  remaining s := (.ok (I.remaining s), s)
  takeBytes := I.toRead.takeBytes
  takeBytesStarts := I.toRead.takeBytesStarts
  takeU8 := I.toRead.takeU8
  takeBool := I.toRead.takeBool
  takeChar := I.toRead.takeChar
  takeScalar := I.toRead.takeScalar
  takeUint n o := I.toRead.takeN o 8 n
  findSubsequence := I.toRead.findSubsequence
  findSubsequenceNeedle := I.toRead.findSubsequenceNeedle
  findSubsequences := I.toRead.findSubsequences
  push := I.toWrite.push
  pushByteorderArray := I.toWrite.pushByteorderArray
  pushU8 x := I.toWrite.push [x]
  pushBool x := I.toWrite.run (.bool x)
  pushChar x := I.toWrite.run (.char x)
  pushScalar := I.toWrite.pushScalar
  pushUint := I.toWrite.pushUint
  asUsize v := v
  word := 8
  sub a b s := (.ok (wsub a b), s)

end Required

/-- `Bytes` and `Buffer`: the functions of `Basic`, `Read`, `Search` and `Write`. -/
def bufIo : Io Buf where
  pos := M.getPos
  setPos := M.setPos
  advance := M.advance
  remaining := M.remaining
  takeBytes := JBytes.takeBytes
  takeBytesStarts := JBytes.takeBytesStarts
  takeU8 := JBytes.takeU8
  takeBool := JBytes.takeBool
  takeChar := JBytes.takeChar
  takeScalar := JBytes.takeScalar
  takeUint := JBytes.takeUint
  findSubsequence := JBytes.findSubsequence
  findSubsequenceNeedle := JBytes.findSubsequenceNeedle
  findSubsequences := JBytes.findSubsequences
  push := JBytes.push
  pushByteorderArray := JBytes.pushByteorderArray
  pushU8 := JBytes.pushU8
  pushBool := JBytes.pushBool
  pushChar := JBytes.pushChar
  pushScalar := JBytes.pushScalar
  pushUint := JBytes.pushUint
  asUsize v := v
  word := 8
  sub a b s := (.ok (wsub a b), s)

end JBytes
