import Verif.PropCheckedAll
import Verif.IO
/-!
# The same functions on a platform with 32-bit `usize`

The rest of the model has 64-bit `usize` and `isize` (`usizeMod`, `isizeMax`).  Here the function bodies are those of a
32-bit platform: `+` and `-` on `usize` wrap at `2^32`, `as usize` on a `u64` keeps the low 32 bits, a `usize` has four
bytes, and a `Vec<u8>` holds at most `2^31 - 1` of them (`resize` panics with "capacity overflow" above).  Lengths of byte
strings given to the functions are those of byte strings in the memory of such a platform.
-/

namespace JBytes
open M

/-- `2^32`, the number of values of a 32-bit `usize`. -/
def mod32 : Nat := 4294967296

/-- `isize::MAX` on a 32-bit platform. -/
def max32 : Nat := 2147483647

/-- `a + b` on a 32-bit `usize`, wrapping. -/
def add32 (a b : Nat) : Nat := (a + b) % mod32

/-- `a - b` on a 32-bit `usize`, wrapping. -/
def sub32 (a b : Nat) : Nat := if b ≤ a then a - b else a + (mod32 - b)

/-- `advance`, src/bytes.rs:72-74, src/buffer.rs:118-120. -/
def advance32 (n : Nat) : M Unit := fun b => (.ok (), { b with pos := add32 b.pos n })

/-- `take_bytes`, src/buf_traits.rs:79-89. -/
def takeBytes32 (n : Nat) : M (List Byte) := do
  let r ← remainingLen
  if r < n then fail .invalidByteLength
  else do
    advance32 n
    let p ← getPos
    slice (sub32 p n) p

/-- `copy_to_slice` with `take_array::<n>`, src/buf_traits.rs:41-61. -/
def takeArray32 (n : Nat) : M (List Byte) := do
  let r ← remaining
  if n ≤ r.length then do
    advance32 n
    return r.take n
  else fail .invalidByteLength

/-- `take_byteorder_array::<n>`, src/buf_traits.rs:65-75. -/
def takeByteorderArray32 (n : Nat) (o : ByteOrder) : M (List Byte) := do
  let a ← takeArray32 n
  return (match o with
    | .be => a
    | .le => a.reverse)

/-- `take_bytes_starts`, src/buf_traits.rs:93-107. -/
def takeBytesStarts32 (p : List Byte) : M Unit := do
  let r ← remaining
  if r.length < p.length then fail .invalidByteLength
  else if p.isPrefixOf r then advance32 p.length
  else fail .fail

/-- `take_u8`, src/buf_traits.rs:126-128. -/
def takeU832 : M Byte := do
  let v ← takeBytes32 1
  index0 v

/-- `take_bool`, src/buf_traits.rs:111-113. -/
def takeBool32 : M Bool := do
  let v ← takeBytes32 1
  let x ← index0 v
  return (x != 0)

/-- `take_char`, src/buf_traits.rs:117-122. -/
def takeChar32 : M Nat := do
  let v ← takeBytes32 1
  let x ← index0 v
  return x.toNat

/-- `size_of` of a number type: four bytes for `usize` and `isize`. -/
def Scalar.size32 : Scalar → Nat
  | .usize | .isize => 4
  | s => s.size

/-- `take_byteorder_X`, src/buf_traits.rs:126-248, 289-549, 627-689 with src/buf_mut_traits.rs:12-16. -/
def takeScalar32 (s : Scalar) (o : ByteOrder) : M Nat :=
  match s with
  | .u8 | .i8 => do
    let x ← takeU832
    return x.toNat
  | s => do
    let v ← takeBytes32 s.size32
    return fromBytes o v

/-- `take_byteorder_uint`/`_int`/`_u24`, src/buf_mut_traits.rs:17-37; `size` is that of `u64` or `u32`. -/
def takeN32 (o : ByteOrder) (size n : Nat) : M Nat :=
  match o with
  | .be =>
    if n ≤ size then do
      let v ← takeBytes32 n
      return beVal (List.replicate (size - n) 0 ++ v)
    else fail .invalidByteLength
  | .le =>
    if n ≤ size then do
      let v ← takeBytes32 n
      return leVal (v ++ List.replicate (size - n) 0)
    else panic

/-- `find_subsequence`, src/buf_traits.rs:693-702. -/
def findSubsequence32 (needle : List Byte) : M (List Byte) := do
  let p ← getPos
  let r ← remaining
  match findSub needle r with
  | some i => do
    advance32 (add32 i needle.length)
    slice p (add32 p i)
  | none => failAt p .fail

/-- `find_subsequence_needle`, src/buf_traits.rs:706-716. -/
def findSubsequenceNeedle32 (needle : List Byte) (incl : Bool) : M (List Byte) := do
  let p ← getPos
  let r ← remaining
  match findSub needle r with
  | some i => do
    let j := if incl then add32 i needle.length else i
    advance32 j
    slice p (add32 p j)
  | none => failAt p .fail

/-- `find_subsequences`, src/buf_traits.rs:720-735. -/
def findSubsequences32 (needles : List (List Byte)) : M (List Byte) := do
  let p ← getPos
  let r ← remaining
  match acFind needles r with
  | some (s, e) => do
    advance32 e
    slice p (add32 p s)
  | none => failAt p .fail

/-- `find_subsequences_needle`, src/buf_traits.rs:739-755. -/
def findSubsequencesNeedle32 (needles : List (List Byte)) (incl : Bool) : M (List Byte) := do
  let p ← getPos
  let r ← remaining
  match acFind needles r with
  | some (s, e) => do
    let j := if incl then e else s
    advance32 j
    slice p (add32 p j)
  | none => failAt p .fail

/-- Run a read method. -/
def ReadOp.run32 : ReadOp → M RVal
  | .bytes n => mapM' .bytes (takeBytes32 n)
  | .array n => mapM' .bytes (takeArray32 n)
  | .byteorderArray n o => mapM' .bytes (takeByteorderArray32 n o)
  | .starts p => mapM' (fun _ => .unit) (takeBytesStarts32 p)
  | .bool => mapM' .bool takeBool32
  | .char => mapM' .num takeChar32
  | .scalar s o => mapM' .num (takeScalar32 s o)
  | .u24 o => mapM' .num (takeN32 o 4 3)
  | .uint n o => mapM' .num (takeN32 o 8 n)
  | .find p => mapM' .bytes (findSubsequence32 p)
  | .findNeedle p i => mapM' .bytes (findSubsequenceNeedle32 p i)
  | .finds ps => mapM' .bytes (findSubsequences32 ps)
  | .findsNeedle ps i => mapM' .bytes (findSubsequencesNeedle32 ps i)

/-- `Vec::resize(n, 0)`: panics with "capacity overflow" above `isize::MAX`. -/
def vecResize32 (n : Nat) : M Unit := fun b =>
  if n ≤ max32 then (.ok (), { b with data := b.data.take n ++ List.replicate (n - b.data.length) 0 })
  else (.panic, b)

/-- `push`, src/buf_traits.rs:1360-1372 with `resize`, src/buffer.rs:131-137. -/
def push32 (d : List Byte) : M Nat := do
  let r ← remainingLen
  let m ← (if d.length > r then do
      let p ← getPos
      vecResize32 (add32 p d.length)
      return add32 p d.length
    else Pure.pure 1)
  if m = 0 then fail .pushFail
  else do
    overwrite d
    advance32 d.length
    return d.length

/-- The write methods, src/buf_traits.rs:1376-1993. -/
def WriteOp.run32 : WriteOp → M Nat
  | .bytes d => push32 d
  | .byteorderArray d o => push32 (match o with
    | .be => d
    | .le => d.reverse)
  | .bool v => push32 [if v then 1 else 0]
  | .char c => push32 [UInt8.ofNat c]
  | .scalar s v o =>
    match s with
    | .u8 | .i8 => push32 [UInt8.ofNat v]
    | s => push32 (toBytes o s.size32 v)
  | .u24 v o => push32 (match o with
    | .be => (toBE 4 v).drop 1
    | .le => (toLE 4 v).take 3)
  | .uint v n o =>
    if n ≤ 8 then push32 (match o with
      | .be => (toBE 8 v).drop (8 - n)
      | .le => (toLE 8 v).take n)
    else fail .invalidByteLength

/-- `x as isize` on a 32-bit platform. -/
def wrapIsize32 (x : Int) : Int := (x + 2147483648) % 4294967296 - 2147483648

/-- `Seek::seek`, src/buffer.rs:184-200. -/
def ioSeek32 (s : SeekFrom) : M (Option Nat) := do
  let p ← getPos
  let d ← getData
  let q := match s with
    | .start o => wrapIsize32 o
    | .fromEnd o => wrapIsize32 (wrapIsize32 d.length + wrapIsize32 o)
    | .current o => wrapIsize32 (wrapIsize32 p + wrapIsize32 o)
  if q < 0 then return none
  else do
    setPos q.toNat
    return some p

/-- `Bytes` and `Buffer` on a 32-bit platform: src/buf_traits.rs:11-1993, src/bytes.rs:47-75, src/buffer.rs:96-138. -/
def io32 : Io Buf where
  pos := M.getPos
  setPos := M.setPos
  advance := advance32
  remaining := M.remaining
  takeBytes := takeBytes32
  takeBytesStarts := takeBytesStarts32
  takeU8 := takeU832
  takeBool := takeBool32
  takeChar := takeChar32
  takeScalar := takeScalar32
  takeUint n o := takeN32 o 8 n
  findSubsequence := findSubsequence32
  findSubsequenceNeedle := findSubsequenceNeedle32
  findSubsequences := findSubsequences32
  push := push32
  pushByteorderArray d o := (WriteOp.byteorderArray d o).run32
  pushU8 x := push32 [x]
  pushBool x := (WriteOp.bool x).run32
  pushChar x := (WriteOp.char x).run32
  pushScalar s v o := (WriteOp.scalar s v o).run32
  pushUint v n o := (WriteOp.uint v n o).run32
  asUsize v := v % mod32
  word := 4
  sub a b := Pure.pure (sub32 a b)

/-- The modifiers of a field on a 32-bit platform: `(expression) as usize`, derive/src/jbytes/parse.rs:93-95, 113-115, and
decode.rs:11 for `offset`; expressions of variables (a literal that is too large does not compile). -/
def FieldAttrs.at32 {V : Type} (a : FieldAttrs V) : FieldAttrs V :=
  { a with
    branch := a.branch.map fun e env => e env % mod32
    length := a.length.map fun e env => e env % mod32
    count := a.count.map fun e env => e env % mod32
    tryCount := a.tryCount.map fun e env => e env % mod32
    bits := a.bits.map fun e env => e env % mod32
    byteCount := a.byteCount.map fun e env => e env % mod32
    byteCountOutside := a.byteCountOutside.map fun e env => e env % mod32
    offset := a.offset.map fun e env => e env % mod32 }

end JBytes
