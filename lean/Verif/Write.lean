import Verif.Read
/-!
# `BufWrite` (src/buf_traits.rs:1352-1993) on `Buffer` (src/buffer.rs:124-138)
-/

namespace JBytes
open M

/-- `Vec::resize(n, 0)`; more than `isize::MAX` bytes is a "capacity overflow" panic. -/
def vecResize (n : Nat) : M Unit := fun b =>
  if n ≤ isizeMax then
    (.ok (), { b with data := b.data.take n ++ List.replicate (n - b.data.length) 0 })
  else (.panic, b)

/-- `BufWrite::resize` for `Buffer`, src/buffer.rs:131-137. -/
def bufResize (n : Nat) : M Nat := do
  let p ← getPos
  let m := wadd p n
  vecResize m
  return m

/-- `self.remaining_mut()[..data_len].clone_from_slice(data)`, src/buffer.rs:126-128 and
src/buf_traits.rs:1368: `&mut data[pos..]` panics when `pos > len`, `[..data_len]` when it is too short. -/
def overwrite (d : List Byte) : M Unit := fun b =>
  if b.pos ≤ b.data.length ∧ d.length ≤ b.data.length - b.pos then
    (.ok (), { b with data := b.data.take b.pos ++ d ++ b.data.drop (b.pos + d.length) })
  else (.panic, b)

/-- `push`, src/buf_traits.rs:1360-1372 (and `push_bytes`, `push_array`, 1376-1384). -/
def push (d : List Byte) : M Nat := do
  let r ← remainingLen
  let m ← (if d.length > r then bufResize d.length else Pure.pure 1)
  if m = 0 then
    fail .pushFail
  else do
    overwrite d
    advance d.length
    return d.length

/-- `push_byteorder_array`, src/buf_traits.rs:1388-1397. -/
def pushByteorderArray (d : List Byte) (o : ByteOrder) : M Nat :=
  match o with
  | .be => push d
  | .le => push d.reverse

/-- `push_char`, src/buf_traits.rs:1401-1403: `value as u8`. -/
def pushChar (c : Nat) : M Nat := push [UInt8.ofNat c]

/-- `push_bool`, src/buf_traits.rs:1407-1409. -/
def pushBool (v : Bool) : M Nat := push [if v then 1 else 0]

/-- `push_u8`, src/buf_traits.rs:1413-1415. -/
def pushU8 (v : Byte) : M Nat := push [v]

/-- `push_byteorder_X`, src/buf_traits.rs:1413-1541, 1582-1842, 1931-1993 (`v` the bit pattern). -/
def pushScalar (s : Scalar) (v : Nat) (o : ByteOrder) : M Nat :=
  match s with
  | .u8 | .i8 => pushU8 (UInt8.ofNat v)
  | s => push (toBytes o s.size v)

/-- `push_byteorder_u24`, src/buf_traits.rs:1545-1578. -/
def pushU24 (v : Nat) (o : ByteOrder) : M Nat :=
  match o with
  | .be => push ((toBE 4 v).drop 1)
  | .le => push ((toLE 4 v).take 3)

/-- `push_be_uint`, src/buf_traits.rs:1852-1859. -/
def pushBeUint (v n : Nat) : M Nat :=
  if n ≤ 8 then push ((toBE 8 v).drop (8 - n)) else fail .invalidByteLength

/-- `push_le_uint`, src/buf_traits.rs:1863-1871. -/
def pushLeUint (v n : Nat) : M Nat :=
  if n ≤ 8 then push ((toLE 8 v).take n) else fail .invalidByteLength

/-- `push_byteorder_uint`, src/buf_traits.rs:1885-1890; `push_byteorder_int` (1894-1927) is the same on the
bit pattern (`value as u64`). -/
def pushUint (v n : Nat) (o : ByteOrder) : M Nat :=
  match o with
  | .be => pushBeUint v n
  | .le => pushLeUint v n

end JBytes
