import Verif.Search
/-!
# The reading API as a list of operations

One constructor for each reading method of `BufRead` (src/buf_traits.rs:11-1349), so that properties of "every
read" can be stated once.  `take_X`/`take_be_X`/`take_le_X`/`take_ne_X` are the byte-order instances of
`take_byteorder_X`.
-/

namespace JBytes
open M

/-- Result of a read: the union of the return types. -/
inductive RVal where
  | unit
  | bool (b : Bool)
  | num (n : Nat)
  | bytes (l : List Byte)
  deriving DecidableEq, Repr

/-- Read methods that move the position. -/
inductive ReadOp where
  | bytes (n : Nat)
  | array (n : Nat)
  | byteorderArray (n : Nat) (o : ByteOrder)
  | starts (p : List Byte)
  | bool
  | char
  | scalar (s : Scalar) (o : ByteOrder)
  | u24 (o : ByteOrder)
  | uint (n : Nat) (o : ByteOrder)
  | find (needle : List Byte)
  | findNeedle (needle : List Byte) (incl : Bool)
  | finds (needles : List (List Byte))
  | findsNeedle (needles : List (List Byte)) (incl : Bool)
  deriving DecidableEq, Repr

/-- Apply a function to the value of a read. -/
def mapM' {α β : Type} (f : α → β) (m : M α) : M β := do
  let a ← m
  return f a

/-- Run a read method. -/
def ReadOp.run : ReadOp → M RVal
  | .bytes n => mapM' .bytes (takeBytes n)
  | .array n => mapM' .bytes (takeArray n)
  | .byteorderArray n o => mapM' .bytes (takeByteorderArray n o)
  | .starts p => mapM' (fun _ => .unit) (takeBytesStarts p)
  | .bool => mapM' .bool takeBool
  | .char => mapM' .num takeChar
  | .scalar s o => mapM' .num (takeScalar s o)
  | .u24 o => mapM' .num (takeU24 o)
  | .uint n o => mapM' .num (takeUint n o)
  | .find p => mapM' .bytes (findSubsequence p)
  | .findNeedle p i => mapM' .bytes (findSubsequenceNeedle p i)
  | .finds ps => mapM' .bytes (findSubsequences ps)
  | .findsNeedle ps i => mapM' .bytes (findSubsequencesNeedle ps i)

/-- Read methods with an `untake_` twin that leaves the position alone (src/buf_traits.rs:757-1348). -/
inductive PeekOp where
  | bytes (n : Nat)
  | bool
  | char
  | scalar (s : Scalar) (o : ByteOrder)
  | u24 (o : ByteOrder)
  | uint (n : Nat) (o : ByteOrder)
  deriving DecidableEq, Repr

/-- The `untake_` method. -/
def PeekOp.untake : PeekOp → M RVal
  | .bytes n => mapM' .bytes (untakeBytes n)
  | .bool => mapM' .bool untakeBool
  | .char => mapM' .num untakeChar
  | .scalar s o => mapM' .num (untakeScalar s o)
  | .u24 o => mapM' .num (untakeU24 o)
  | .uint n o => mapM' .num (untakeUint n o)

/-- The corresponding `take_` method. -/
def PeekOp.take : PeekOp → ReadOp
  | .bytes n => .bytes n
  | .bool => .bool
  | .char => .char
  | .scalar s o => .scalar s o
  | .u24 o => .u24 o
  | .uint n o => .uint n o

end JBytes
