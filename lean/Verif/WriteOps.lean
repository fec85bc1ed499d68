import Verif.Write
/-! # The writing API as a list of operations (src/buf_traits.rs:1352-1993) -/

namespace JBytes
open M

/-- One constructor for each write method of `BufWrite`. -/
inductive WriteOp where
  | bytes (d : List Byte)
  | byteorderArray (d : List Byte) (o : ByteOrder)
  | bool (b : Bool)
  | char (c : Nat)
  | scalar (s : Scalar) (v : Nat) (o : ByteOrder)
  | u24 (v : Nat) (o : ByteOrder)
  | uint (v n : Nat) (o : ByteOrder)
  deriving DecidableEq, Repr

/-- Run a write method; the result is the byte count it returns. -/
def WriteOp.run : WriteOp → M Nat
  | .bytes d => push d
  | .byteorderArray d o => pushByteorderArray d o
  | .bool b => pushBool b
  | .char c => pushChar c
  | .scalar s v o => pushScalar s v o
  | .u24 v o => pushU24 v o
  | .uint v n o => pushUint v n o

/-- Specification: what a write method is documented to write (`none`: it is refused). -/
def WriteOp.payload : WriteOp → Option (List Byte)
  | .bytes d => some d
  | .byteorderArray d .be => some d
  | .byteorderArray d .le => some d.reverse
  | .bool b => some [if b then 1 else 0]
  | .char c => some [UInt8.ofNat c]
  | .scalar s v o => some (toBytes o s.size v)
  | .u24 v o => some (toBytes o 3 v)
  | .uint v n o => if n ≤ 8 then some (toBytes o n v) else none

end JBytes
