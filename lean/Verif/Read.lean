import Verif.Num
/-!
# `BufRead` (src/buf_traits.rs:11-1349): reading primitives on `Bytes` and `Buffer`
-/

namespace JBytes
open M

/-- The scalar types with a family of `take_*`, `untake_*` and `push_*` methods. -/
inductive Scalar where
  | u8 | i8 | u16 | i16 | u32 | i32 | u64 | i64 | u128 | i128 | usize | isize | f32 | f64
  deriving DecidableEq, Repr

/-- `core::mem::size_of` (64-bit target). -/
def Scalar.size : Scalar → Nat
  | .u8 | .i8 => 1
  | .u16 | .i16 => 2
  | .u32 | .i32 | .f32 => 4
  | .u64 | .i64 | .usize | .isize | .f64 => 8
  | .u128 | .i128 => 16

/-- `remaining_len`, src/buf_traits.rs:35-37. -/
def remainingLen : M Nat := do
  let r ← remaining
  return r.length

/-- `take_bytes`, src/buf_traits.rs:79-89.  Faithful to the order of operations: check, advance, then index
the data with `position - nbytes .. position` (wrapping subtraction). -/
def takeBytes (n : Nat) : M (List Byte) := do
  let r ← remainingLen
  if r < n then
    fail .invalidByteLength
  else do
    advance n
    let p ← getPos
    slice (wsub p n) p

/-- `untake_bytes`, src/buf_traits.rs:758-766. -/
def untakeBytes (n : Nat) : M (List Byte) := do
  let r ← remainingLen
  if r < n then
    fail .invalidByteLength
  else do
    let p ← getPos
    slice p (wadd p n)

/-- `copy_to_slice` with `take_array::<n>`, src/buf_traits.rs:41-61: never indexes, so it cannot panic. -/
def takeArray (n : Nat) : M (List Byte) := do
  let r ← remaining
  if n ≤ r.length then do
    advance n
    return r.take n
  else
    fail .invalidByteLength

/-- `take_byteorder_array::<n>`, src/buf_traits.rs:65-75. -/
def takeByteorderArray (n : Nat) (o : ByteOrder) : M (List Byte) := do
  let a ← takeArray n
  return (match o with
    | .be => a
    | .le => a.reverse)

/-- `take_bytes_starts`, src/buf_traits.rs:93-107. -/
def takeBytesStarts (p : List Byte) : M Unit := do
  let r ← remaining
  if r.length < p.length then
    fail .invalidByteLength
  else if p.isPrefixOf r then
    advance p.length
  else
    fail .fail

/-- `take_u8`, src/buf_traits.rs:126-128 (and `take_be_u8` .. `take_byteorder_u8`, 132-152). -/
def takeU8 : M Byte := do
  let v ← takeBytes 1
  index0 v

/-- `take_bool`, src/buf_traits.rs:111-113. -/
def takeBool : M Bool := do
  let v ← takeBytes 1
  let x ← index0 v
  return (x != 0)

/-- `take_char`, src/buf_traits.rs:117-122: `char::from_u32` of a byte always succeeds, so the `Fail` branch
is unreachable; the result is the scalar value. -/
def takeChar : M Nat := do
  let v ← takeBytes 1
  let x ← index0 v
  return x.toNat

/-- `macro_take_bytes!(self, T::from_be_bytes)` / `from_le_bytes`, src/buf_mut_traits.rs:12-16. -/
def takeFixed (o : ByteOrder) (size : Nat) : M Nat := do
  let v ← takeBytes size
  return fromBytes o v

/-- `take_byteorder_X` for a scalar type X; `take_X` and `take_be_X` are order `be`, `take_le_X` order `le`,
`take_ne_X` the order of the target.  src/buf_traits.rs:126-248, 289-549, 627-689. -/
def takeScalar (s : Scalar) (o : ByteOrder) : M Nat :=
  match s with
  | .u8 | .i8 => do
    let x ← takeU8
    return x.toNat
  | s => takeFixed o s.size

/-- `macro_take_bytes!(self, T::from_be_bytes, n)`, src/buf_mut_traits.rs:17-28. -/
def takeBeN (size n : Nat) : M Nat :=
  if n ≤ size then do
    let v ← takeBytes n
    return beVal (List.replicate (size - n) 0 ++ v)
  else
    fail .invalidByteLength

/-- `macro_take_bytes!(self, T::from_le_bytes, n)`, src/buf_mut_traits.rs:29-37.  The receiver
`buf[..n]` is evaluated before the argument, so it panics for every `n > size`. -/
def takeLeN (size n : Nat) : M Nat :=
  if n ≤ size then do
    let v ← takeBytes n
    return leVal (v ++ List.replicate (size - n) 0)
  else
    panic

/-- n-byte reads by byte order. -/
def takeN (o : ByteOrder) (size n : Nat) : M Nat :=
  match o with
  | .be => takeBeN size n
  | .le => takeLeN size n

/-- `take_byteorder_u24`, src/buf_traits.rs:252-285. -/
def takeU24 (o : ByteOrder) : M Nat := takeN o 4 3

/-- `take_byteorder_uint`, src/buf_traits.rs:553-586.  Also `take_byteorder_int` (590-623): the `i64` has the
same bit pattern (no sign extension). -/
def takeUint (n : Nat) (o : ByteOrder) : M Nat := takeN o 8 n

/-- `untake_u8`, src/buf_traits.rs:785-787. -/
def untakeU8 : M Byte := do
  let v ← untakeBytes 1
  index0 v

/-- `untake_bool`, src/buf_traits.rs:770-772. -/
def untakeBool : M Bool := do
  let v ← untakeBytes 1
  let x ← index0 v
  return (x != 0)

/-- `untake_char`, src/buf_traits.rs:776-781. -/
def untakeChar : M Nat := do
  let v ← untakeBytes 1
  let x ← index0 v
  return x.toNat

/-- `macro_untake_bytes!(self, T::f)`, src/buf_mut_traits.rs:43-47. -/
def untakeFixed (o : ByteOrder) (size : Nat) : M Nat := do
  let v ← untakeBytes size
  return fromBytes o v

/-- `untake_byteorder_X`, src/buf_traits.rs:785-1348. -/
def untakeScalar (s : Scalar) (o : ByteOrder) : M Nat :=
  match s with
  | .u8 | .i8 => do
    let x ← untakeU8
    return x.toNat
  | s => untakeFixed o s.size

/-- `macro_untake_bytes!(self, T::from_be_bytes, n)`, src/buf_mut_traits.rs:48-59. -/
def untakeBeN (size n : Nat) : M Nat :=
  if n ≤ size then do
    let v ← untakeBytes n
    return beVal (List.replicate (size - n) 0 ++ v)
  else
    fail .invalidByteLength

/-- `macro_untake_bytes!(self, T::from_le_bytes, n)`, src/buf_mut_traits.rs:60-68. -/
def untakeLeN (size n : Nat) : M Nat :=
  if n ≤ size then do
    let v ← untakeBytes n
    return leVal (v ++ List.replicate (size - n) 0)
  else
    panic

/-- n-byte peeks by byte order: `untake_byteorder_uint`/`_int` (size 8), `untake_byteorder_u24` (size 4, n 3). -/
def untakeN (o : ByteOrder) (size n : Nat) : M Nat :=
  match o with
  | .be => untakeBeN size n
  | .le => untakeLeN size n

/-- `untake_byteorder_u24`. -/
def untakeU24 (o : ByteOrder) : M Nat := untakeN o 4 3

/-- `untake_byteorder_uint`/`untake_byteorder_int`, src/buf_traits.rs:1210-1282. -/
def untakeUint (n : Nat) (o : ByteOrder) : M Nat := untakeN o 8 n

end JBytes
