import Verif.ReadOps
import Verif.WriteOps
import Verif.IO
import Verif.CodecInt
import Verif.Derive
/-!
# The same functions compiled with `overflow-checks = true`

The crate's own profile switches overflow checks off (Cargo.toml:38-40), and the rest of the model follows it: `+`
and `-` on `usize` wrap.  Cargo takes the profile from the crate at the root of the build, so a user's debug build
has the checks on, and an overflow is a panic there.  These are the same function bodies with the checked operators;
shifts by one, comparisons and the functions of other crates are the same in both.  The byte counts that encoders
add up are not included (they count bytes that are in memory).
-/

namespace JBytes
open M

/-- `a + b` on `usize` with overflow checks. -/
def addC (a b : Nat) : M Nat := if a + b < usizeMod then Pure.pure (a + b) else panic

/-- `a - b` on `usize` with overflow checks. -/
def subC (a b : Nat) : M Nat := if b ≤ a then Pure.pure (a - b) else panic

/-- `a + b` on `isize` with overflow checks. -/
def iaddC (a b : Int) : M Int :=
  if -9223372036854775808 ≤ a + b ∧ a + b ≤ 9223372036854775807 then Pure.pure (a + b) else panic

/-- `advance`, src/bytes.rs:72-74, src/buffer.rs:118-120. -/
def advanceC (n : Nat) : M Unit := do
  let p ← getPos
  let q ← addC p n
  setPos q

/-- `take_bytes`, src/buf_traits.rs:79-89. -/
def takeBytesC (n : Nat) : M (List Byte) := do
  let r ← remainingLen
  if r < n then fail .invalidByteLength
  else do
    advanceC n
    let p ← getPos
    let s ← subC p n
    slice s p

/-- `untake_bytes`, src/buf_traits.rs:758-766. -/
def untakeBytesC (n : Nat) : M (List Byte) := do
  let r ← remainingLen
  if r < n then fail .invalidByteLength
  else do
    let p ← getPos
    let e ← addC p n
    slice p e

/-- `copy_to_slice` with `take_array::<n>`, src/buf_traits.rs:41-61. -/
def takeArrayC (n : Nat) : M (List Byte) := do
  let r ← remaining
  if n ≤ r.length then do
    advanceC n
    return r.take n
  else fail .invalidByteLength

/-- `take_byteorder_array::<n>`, src/buf_traits.rs:65-75. -/
def takeByteorderArrayC (n : Nat) (o : ByteOrder) : M (List Byte) := do
  let a ← takeArrayC n
  return (match o with
    | .be => a
    | .le => a.reverse)

/-- `take_bytes_starts`, src/buf_traits.rs:93-107. -/
def takeBytesStartsC (p : List Byte) : M Unit := do
  let r ← remaining
  if r.length < p.length then fail .invalidByteLength
  else if p.isPrefixOf r then advanceC p.length
  else fail .fail

/-- `take_u8`, src/buf_traits.rs:126-128. -/
def takeU8C : M Byte := do
  let v ← takeBytesC 1
  index0 v

/-- `take_bool`, src/buf_traits.rs:111-113. -/
def takeBoolC : M Bool := do
  let v ← takeBytesC 1
  let x ← index0 v
  return (x != 0)

/-- `take_char`, src/buf_traits.rs:117-122. -/
def takeCharC : M Nat := do
  let v ← takeBytesC 1
  let x ← index0 v
  return x.toNat

/-- `take_byteorder_X`, src/buf_traits.rs:126-248, 289-549, 627-689 with src/buf_mut_traits.rs:12-16. -/
def takeScalarC (s : Scalar) (o : ByteOrder) : M Nat :=
  match s with
  | .u8 | .i8 => do
    let x ← takeU8C
    return x.toNat
  | s => do
    let v ← takeBytesC s.size
    return fromBytes o v

/-- `take_byteorder_uint`/`_int`/`_u24`: `macro_take_bytes!` with a length, src/buf_mut_traits.rs:17-37
(`$type_size - nbytes` is `checked_sub` there). -/
def takeNC (o : ByteOrder) (size n : Nat) : M Nat :=
  match o with
  | .be =>
    if n ≤ size then do
      let v ← takeBytesC n
      return beVal (List.replicate (size - n) 0 ++ v)
    else fail .invalidByteLength
  | .le =>
    if n ≤ size then do
      let v ← takeBytesC n
      return leVal (v ++ List.replicate (size - n) 0)
    else panic

/-- `untake_u8`, src/buf_traits.rs:785-787. -/
def untakeU8C : M Byte := do
  let v ← untakeBytesC 1
  index0 v

/-- `untake_bool`, src/buf_traits.rs:770-772. -/
def untakeBoolC : M Bool := do
  let v ← untakeBytesC 1
  let x ← index0 v
  return (x != 0)

/-- `untake_char`, src/buf_traits.rs:776-781. -/
def untakeCharC : M Nat := do
  let v ← untakeBytesC 1
  let x ← index0 v
  return x.toNat

/-- `untake_byteorder_X`, src/buf_traits.rs:785-1348. -/
def untakeScalarC (s : Scalar) (o : ByteOrder) : M Nat :=
  match s with
  | .u8 | .i8 => do
    let x ← untakeU8C
    return x.toNat
  | s => do
    let v ← untakeBytesC s.size
    return fromBytes o v

/-- `untake_byteorder_uint`/`_int`/`_u24`, src/buf_mut_traits.rs:48-68. -/
def untakeNC (o : ByteOrder) (size n : Nat) : M Nat :=
  match o with
  | .be =>
    if n ≤ size then do
      let v ← untakeBytesC n
      return beVal (List.replicate (size - n) 0 ++ v)
    else fail .invalidByteLength
  | .le =>
    if n ≤ size then do
      let v ← untakeBytesC n
      return leVal (v ++ List.replicate (size - n) 0)
    else panic

/-- `find_subsequence`, src/buf_traits.rs:693-702. -/
def findSubsequenceC (needle : List Byte) : M (List Byte) := do
  let p ← getPos
  let r ← remaining
  match findSub needle r with
  | some i => do
    let k ← addC i needle.length
    advanceC k
    let e ← addC p i
    slice p e
  | none => failAt p .fail

/-- `find_subsequence_needle`, src/buf_traits.rs:706-716. -/
def findSubsequenceNeedleC (needle : List Byte) (incl : Bool) : M (List Byte) := do
  let p ← getPos
  let r ← remaining
  match findSub needle r with
  | some i => do
    let j ← (if incl then addC i needle.length else Pure.pure i)
    advanceC j
    let e ← addC p j
    slice p e
  | none => failAt p .fail

/-- `find_subsequences`, src/buf_traits.rs:720-735. -/
def findSubsequencesC (needles : List (List Byte)) : M (List Byte) := do
  let p ← getPos
  let r ← remaining
  match acFind needles r with
  | some (s, e) => do
    advanceC e
    let t ← addC p s
    slice p t
  | none => failAt p .fail

/-- `find_subsequences_needle`, src/buf_traits.rs:739-755. -/
def findSubsequencesNeedleC (needles : List (List Byte)) (incl : Bool) : M (List Byte) := do
  let p ← getPos
  let r ← remaining
  match acFind needles r with
  | some (s, e) => do
    let j := if incl then e else s
    advanceC j
    let t ← addC p j
    slice p t
  | none => failAt p .fail

/-- Run a read method, checks on. -/
def ReadOp.runC : ReadOp → M RVal
  | .bytes n => mapM' .bytes (takeBytesC n)
  | .array n => mapM' .bytes (takeArrayC n)
  | .byteorderArray n o => mapM' .bytes (takeByteorderArrayC n o)
  | .starts p => mapM' (fun _ => .unit) (takeBytesStartsC p)
  | .bool => mapM' .bool takeBoolC
  | .char => mapM' .num takeCharC
  | .scalar s o => mapM' .num (takeScalarC s o)
  | .u24 o => mapM' .num (takeNC o 4 3)
  | .uint n o => mapM' .num (takeNC o 8 n)
  | .find p => mapM' .bytes (findSubsequenceC p)
  | .findNeedle p i => mapM' .bytes (findSubsequenceNeedleC p i)
  | .finds ps => mapM' .bytes (findSubsequencesC ps)
  | .findsNeedle ps i => mapM' .bytes (findSubsequencesNeedleC ps i)

/-- The `untake_` methods, checks on. -/
def PeekOp.untakeC : PeekOp → M RVal
  | .bytes n => mapM' .bytes (untakeBytesC n)
  | .bool => mapM' .bool untakeBoolC
  | .char => mapM' .num untakeCharC
  | .scalar s o => mapM' .num (untakeScalarC s o)
  | .u24 o => mapM' .num (untakeNC o 4 3)
  | .uint n o => mapM' .num (untakeNC o 8 n)

/-- `push`, src/buf_traits.rs:1360-1372 with `resize`, src/buffer.rs:131-137. -/
def pushC (d : List Byte) : M Nat := do
  let r ← remainingLen
  let m ← (if d.length > r then do
      let p ← getPos
      let m ← addC p d.length
      vecResize m
      return m
    else Pure.pure 1)
  if m = 0 then fail .pushFail
  else do
    overwrite d
    advanceC d.length
    return d.length

/-- The write methods, src/buf_traits.rs:1376-1993, checks on. -/
def WriteOp.runC : WriteOp → M Nat
  | .bytes d => pushC d
  | .byteorderArray d o => pushC (match o with
    | .be => d
    | .le => d.reverse)
  | .bool v => pushC [if v then 1 else 0]
  | .char c => pushC [UInt8.ofNat c]
  | .scalar s v o =>
    match s with
    | .u8 | .i8 => pushC [UInt8.ofNat v]
    | s => pushC (toBytes o s.size v)
  | .u24 v o => pushC (match o with
    | .be => (toBE 4 v).drop 1
    | .le => (toLE 4 v).take 3)
  | .uint v n o =>
    if n ≤ 8 then pushC (match o with
      | .be => (toBE 8 v).drop (8 - n)
      | .le => (toLE 8 v).take n)
    else fail .invalidByteLength

/-- `Read::read`, src/buffer.rs:143-156. -/
def ioReadC (n : Nat) : M (List Byte) := do
  let d ← getData
  let p ← getPos
  if d.length ≤ p then return []
  else do
    let r ← subC d.length p
    let k := min n r
    let e ← addC p k
    let v ← slice p e
    let q ← addC p k
    setPos q
    return v

/-- `Write::write`, src/buffer.rs:162-174. -/
def ioWriteC (buf : List Byte) : M Nat := do
  let p ← getPos
  let d ← getData
  let e ← addC p buf.length
  (if e > d.length then vecResize e else Pure.pure ())
  copyInto p e buf
  setPos e
  return buf.length

/-- `Seek::seek`, src/buffer.rs:184-200. -/
def ioSeekC (s : SeekFrom) : M (Option Nat) := do
  let p ← getPos
  let d ← getData
  let q ← (match s with
    | .start o => Pure.pure (wrapIsize o)
    | .fromEnd o => iaddC (wrapIsize d.length) (wrapIsize o)
    | .current o => iaddC (wrapIsize p) (wrapIsize o))
  if q < 0 then return none
  else do
    setPos q.toNat
    return some p

/-- Run one io call, checks on. -/
def IoOp.runC : IoOp → M IoOut
  | .read n => do
    let v ← ioReadC n
    return .bytes v
  | .write buf => do
    let n ← ioWriteC buf
    return .wrote n
  | .seek s => do
    let r ← ioSeekC s
    return .seek r.isSome

/-- Integers, src/decode/impls_int.rs:15-50. -/
def decIntC (k : IntKind) : Dec Nat := fun ca fa => do
  let o := getByteorder ca fa
  let v ← (match fa.bind (·.length) with
    | some n =>
      if k.size < n then fail .invalidByteLength
      else do
        let v ← takeNC o 8 n
        return fromU64 k v
    | none => takeScalarC k.scalar o)
  match fa.bind (·.bits) with
  | some m => return bitsShr k (8 * k.size) (v &&& fromU64 k m) (fromU64 k m)
  | none => return v

/-- The `bits` part of src/encode/impls_int.rs:21-40. -/
def encBitsC (k : IntKind) (v : Nat) (o : ByteOrder) (fa : Option FAttr) : M Nat :=
  match fa with
  | none => return v
  | some fr =>
    match fr.bits with
    | none => return v
    | some m =>
      let v := bitsShl k (8 * k.size) v (fromU64 k m)
      if fr.bitsStart then return v
      else do
        let p ← getPos
        let q ← subC p k.size
        setPos q
        let prev ← takeNC o 8 k.size
        let p ← getPos
        let q ← subC p k.size
        setPos q
        return (v ||| fromU64 k prev)

/-- Integers, src/encode/impls_int.rs:15-54. -/
def encIntC (k : IntKind) : Enc Nat := fun v ca fa => do
  let o := getByteorder ca fa
  let v ← encBitsC k v o fa
  match fa.bind (·.length) with
  | some n =>
    if k.size < n then fail .invalidByteLength
    else (WriteOp.uint (asU64 k v) n o).runC
  | none => (WriteOp.scalar k.scalar v o).runC

/-- `input.advance((offset) as usize)` of a derived decoder, derive/src/jbytes/decode.rs:8-15. -/
def skipOffsetC (a : FieldAttrs V) (env : Env V) : M Unit :=
  match a.offset with
  | some e => advanceC (e env)
  | none => return ()

end JBytes
