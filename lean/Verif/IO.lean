import Verif.Write
/-!
# `std::io::{Read, Write, Seek}` for `Buffer` (src/buffer.rs:141-201)
-/

namespace JBytes
open M

/-- Reduction of an integer to the range of `isize` (`as isize`, wrapping arithmetic). -/
def wrapIsize (i : Int) : Int := (i + 9223372036854775808) % 18446744073709551616 - 9223372036854775808

/-- `Read::read` with a destination of `n` bytes, src/buffer.rs:143-156; the bytes copied. -/
def ioRead (n : Nat) : M (List Byte) := do
  let d ← getData
  let p ← getPos
  if d.length ≤ p then
    return []
  else do
    let k := min n (d.length - p)
    let v ← slice p (wadd p k)
    setPos (wadd p k)
    return v

/-- `self.data[a..b].copy_from_slice(buf)`: panics unless `a <= b <= len`; the lengths agree by construction. -/
def copyInto (a b : Nat) (buf : List Byte) : M Unit := fun s =>
  if a ≤ b ∧ b ≤ s.data.length then
    (.ok (), { s with data := s.data.take a ++ buf ++ s.data.drop b })
  else (.panic, s)

/-- `Write::write`, src/buffer.rs:162-174. -/
def ioWrite (buf : List Byte) : M Nat := do
  let p ← getPos
  let d ← getData
  (if wadd p buf.length > d.length then vecResize (wadd p buf.length) else Pure.pure ())
  copyInto p (wadd p buf.length) buf
  setPos (wadd p buf.length)
  return buf.length

/-- `std::io::SeekFrom`: `Start` carries a `u64`, the others an `i64`. -/
inductive SeekFrom where
  | start (offset : Nat)
  | fromEnd (offset : Int)
  | current (offset : Int)
  deriving DecidableEq, Repr

/-- `new_position`, src/buffer.rs:187-191. -/
def seekTarget (p len : Nat) : SeekFrom → Int
  | .start o => wrapIsize o
  | .fromEnd o => wrapIsize (wrapIsize len + wrapIsize o)
  | .current o => wrapIsize (wrapIsize p + wrapIsize o)

/-- `Seek::seek`, src/buffer.rs:184-200: `none` is the `InvalidInput` error; the number returned on success is
the *old* position. -/
def ioSeek (s : SeekFrom) : M (Option Nat) := do
  let p ← getPos
  let d ← getData
  let q := seekTarget p d.length s
  if q < 0 then
    return none
  else do
    setPos q.toNat
    return some p

/-- One io call. -/
inductive IoOp where
  | read (n : Nat)
  | write (buf : List Byte)
  | seek (s : SeekFrom)
  deriving DecidableEq, Repr

/-- What the caller sees: bytes read, bytes written, seek accepted or not. -/
inductive IoOut where
  | bytes (l : List Byte)
  | wrote (n : Nat)
  | seek (ok : Bool)
  deriving DecidableEq, Repr

/-- Run one io call. -/
def IoOp.run : IoOp → M IoOut
  | .read n => do
    let v ← ioRead n
    return .bytes v
  | .write buf => do
    let n ← ioWrite buf
    return .wrote n
  | .seek s => do
    let r ← ioSeek s
    return .seek r.isSome

/-- Run a history of io calls, collecting what the caller sees. -/
def runIo : List IoOp → M (List IoOut)
  | [] => Pure.pure []
  | op :: ops => do
    let o ← op.run
    let os ← runIo ops
    return o :: os

end JBytes
