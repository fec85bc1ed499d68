import Verif.ReadOps
/-!
# `BufReadMut` (src/buf_mut_traits.rs:72-1404) and its implementations for `&[u8]` and `Cursor`
(src/impls.rs)

The trait's provided methods are transcribed once over an arbitrary implementation; `&[u8]` overrides
`remaining` and `take_bytes`.  `BufWriteMut` is in `MutWrite`.
-/

namespace JBytes

/-- Code over a reader state `σ`. -/
def MS (σ α : Type) : Type := σ → Out α × σ

instance (σ : Type) : Monad (MS σ) where
  pure a := fun s => (.ok a, s)
  bind m f := fun s =>
    match m s with
    | (.ok a, s') => f a s'
    | (.err e, s') => (.err e, s')
    | (.panic, s') => (.panic, s')
    | (.timeout, s') => (.timeout, s')

/-- An implementation of `BufReadMut`: the required methods, and the two provided methods that `&[u8]`
overrides. -/
structure MutImpl (σ : Type) where
  pos : σ → Nat
  data : σ → List Byte
  advance : Nat → MS σ Unit
  remaining : σ → List Byte
  takeBytes : Nat → MS σ (List Byte)

namespace MutImpl
variable {σ : Type} (I : MutImpl σ)

/-- `Err(make_error(self.get_position(), code))`. -/
def fail {α : Type} (c : ErrCode) : MS σ α := fun s => (.err ⟨I.pos s, c⟩, s)

/-- `&self.get_data()[a..b]`. -/
def slice (a b : Nat) : MS σ (List Byte) := fun s =>
  if a ≤ b ∧ b ≤ (I.data s).length then (.ok (((I.data s).drop a).take (b - a)), s) else (.panic, s)

/-- `v[0]`. -/
def index0 (_ : MutImpl σ) : List Byte → MS σ Byte
  | [] => fun s => (.panic, s)
  | x :: _ => Pure.pure x

/-- The provided `take_bytes`, src/buf_mut_traits.rs:134-144, given the other methods. -/
def defaultTakeBytes (pos : σ → Nat) (data : σ → List Byte) (advance : Nat → MS σ Unit)
    (remaining : σ → List Byte) (n : Nat) : MS σ (List Byte) := fun s =>
  if (remaining s).length < n then (.err ⟨pos s, .invalidByteLength⟩, s)
  else match advance n s with
    | (.ok _, s') =>
      let p := pos s'
      if wsub p n ≤ p ∧ p ≤ (data s').length then
        (.ok (((data s').drop (wsub p n)).take (p - wsub p n)), s')
      else (.panic, s')
    | (.err e, s') => (.err e, s')
    | (.panic, s') => (.panic, s')
    | (.timeout, s') => (.timeout, s')

/-- `copy_to_slice`/`take_array`, src/buf_mut_traits.rs:96-116. -/
def takeArray (n : Nat) : MS σ (List Byte) := fun s =>
  if n ≤ (I.remaining s).length then
    (do I.advance n; return (I.remaining s).take n : MS σ (List Byte)) s
  else I.fail .invalidByteLength s

/-- `take_byteorder_array`, src/buf_mut_traits.rs:120-130. -/
def takeByteorderArray (n : Nat) (o : ByteOrder) : MS σ (List Byte) := do
  let a ← I.takeArray n
  return (match o with
    | .be => a
    | .le => a.reverse)

/-- `take_bytes_starts`, src/buf_mut_traits.rs:148-162. -/
def takeBytesStarts (p : List Byte) : MS σ Unit := fun s =>
  if (I.remaining s).length < p.length then I.fail .invalidByteLength s
  else if p.isPrefixOf (I.remaining s) then I.advance p.length s
  else I.fail .fail s

/-- `take_u8`, src/buf_mut_traits.rs:181-183. -/
def takeU8 : MS σ Byte := do
  let v ← I.takeBytes 1
  I.index0 v

/-- `take_bool`, src/buf_mut_traits.rs:166-168. -/
def takeBool : MS σ Bool := do
  let v ← I.takeBytes 1
  let x ← I.index0 v
  return (x != 0)

/-- `take_char`, src/buf_mut_traits.rs:172-177. -/
def takeChar : MS σ Nat := do
  let v ← I.takeBytes 1
  let x ← I.index0 v
  return x.toNat

/-- `macro_take_bytes!(self, T::f)`, src/buf_mut_traits.rs:12-16. -/
def takeFixed (o : ByteOrder) (size : Nat) : MS σ Nat := do
  let v ← I.takeBytes size
  return fromBytes o v

/-- `take_byteorder_X` of scalar types, src/buf_mut_traits.rs:181-744 (u8 .. f64). -/
def takeScalar (s : Scalar) (o : ByteOrder) : MS σ Nat :=
  match s with
  | .u8 | .i8 => do
    let x ← I.takeU8
    return x.toNat
  | s => I.takeFixed o s.size

/-- `macro_take_bytes!` with a width, src/buf_mut_traits.rs:17-37. -/
def takeN (o : ByteOrder) (size n : Nat) : MS σ Nat :=
  match o with
  | .be =>
    if n ≤ size then do
      let v ← I.takeBytes n
      return beVal (List.replicate (size - n) 0 ++ v)
    else I.fail .invalidByteLength
  | .le =>
    if n ≤ size then do
      let v ← I.takeBytes n
      return leVal (v ++ List.replicate (size - n) 0)
    else fun s => (.panic, s)

/-- `take_byteorder_uint(byteorder)`, src/buf_mut_traits.rs:636-641 (and `take_byteorder_int`, 673-678): there
is no width argument, a full `usize` is read. -/
def takeByteorderUint (o : ByteOrder) : MS σ Nat := I.takeScalar .usize o

/-- `untake_bytes`, src/buf_mut_traits.rs:746-754. -/
def untakeBytes (n : Nat) : MS σ (List Byte) := fun s =>
  if (I.remaining s).length < n then I.fail .invalidByteLength s
  else I.slice (I.pos s) (wadd (I.pos s) n) s

/-- `find_subsequence`, src/buf_mut_traits.rs:1341-1350: the data is indexed *after* advancing. -/
def findSubsequence (needle : List Byte) : MS σ (List Byte) := fun s =>
  match findSub needle (I.remaining s) with
  | some i => (do I.advance (i + needle.length); I.slice (I.pos s) (wadd (I.pos s) i) : MS σ (List Byte)) s
  | none => (.err ⟨I.pos s, .fail⟩, s)

/-- `find_subsequence_needle`, src/buf_mut_traits.rs:1354-1364. -/
def findSubsequenceNeedle (needle : List Byte) (incl : Bool) : MS σ (List Byte) := fun s =>
  match findSub needle (I.remaining s) with
  | some i =>
    let j := if incl then i + needle.length else i
    (do I.advance j; I.slice (I.pos s) (wadd (I.pos s) j) : MS σ (List Byte)) s
  | none => (.err ⟨I.pos s, .fail⟩, s)

/-- `find_subsequences`, src/buf_mut_traits.rs:1368-1383. -/
def findSubsequences (needles : List (List Byte)) : MS σ (List Byte) := fun s =>
  match acFind needles (I.remaining s) with
  | some (a, e) => (do I.advance e; I.slice (I.pos s) (wadd (I.pos s) a) : MS σ (List Byte)) s
  | none => (.err ⟨I.pos s, .fail⟩, s)

/-- `find_subsequences_needle`, src/buf_mut_traits.rs:1387-1403. -/
def findSubsequencesNeedle (needles : List (List Byte)) (incl : Bool) : MS σ (List Byte) := fun s =>
  match acFind needles (I.remaining s) with
  | some (a, e) =>
    let j := if incl then e else a
    (do I.advance j; I.slice (I.pos s) (wadd (I.pos s) j) : MS σ (List Byte)) s
  | none => (.err ⟨I.pos s, .fail⟩, s)

/-- Apply a function to the result. -/
def map (_ : MutImpl σ) {α β : Type} (f : α → β) (m : MS σ α) : MS σ β := do
  let a ← m
  return f a

/-- Run a read method; `uint n o` is `take_be_uint(n)`/`take_le_uint(n)`. -/
def run : ReadOp → MS σ RVal
  | .bytes n => I.map .bytes (I.takeBytes n)
  | .array n => I.map .bytes (I.takeArray n)
  | .byteorderArray n o => I.map .bytes (I.takeByteorderArray n o)
  | .starts p => I.map (fun _ => .unit) (I.takeBytesStarts p)
  | .bool => I.map .bool I.takeBool
  | .char => I.map .num I.takeChar
  | .scalar s o => I.map .num (I.takeScalar s o)
  | .u24 o => I.map .num (I.takeN o 4 3)
  | .uint n o => I.map .num (I.takeN o 8 n)
  | .find p => I.map .bytes (I.findSubsequence p)
  | .findNeedle p i => I.map .bytes (I.findSubsequenceNeedle p i)
  | .finds ps => I.map .bytes (I.findSubsequences ps)
  | .findsNeedle ps i => I.map .bytes (I.findSubsequencesNeedle ps i)

/-- The `untake_` methods, src/buf_mut_traits.rs:746-1337. -/
def untake : PeekOp → MS σ RVal
  | .bytes n => I.map .bytes (I.untakeBytes n)
  | .bool => I.map .bool (do let v ← I.untakeBytes 1; let x ← I.index0 v; return (x != 0))
  | .char => I.map .num (do let v ← I.untakeBytes 1; let x ← I.index0 v; return x.toNat)
  | .scalar s o => I.map .num
      (match s with
       | .u8 | .i8 => do let v ← I.untakeBytes 1; let x ← I.index0 v; return x.toNat
       | s => do let v ← I.untakeBytes s.size; return fromBytes o v)
  | .u24 o => I.map .num (untakeN o 4 3)
  | .uint n o => I.map .num (untakeN o 8 n)
where
  /-- `macro_untake_bytes!` with a width, src/buf_mut_traits.rs:48-68. -/
  untakeN (o : ByteOrder) (size n : Nat) : MS σ Nat :=
    match o with
    | .be =>
      if n ≤ size then do
        let v ← I.untakeBytes n
        return beVal (List.replicate (size - n) 0 ++ v)
      else I.fail .invalidByteLength
    | .le =>
      if n ≤ size then do
        let v ← I.untakeBytes n
        return leVal (v ++ List.replicate (size - n) 0)
      else fun s => (.panic, s)

end MutImpl

/-- `BufReadMut for Cursor<T>`, src/impls.rs:43-58. -/
def cursorImpl : MutImpl Buf where
  pos b := b.pos
  data b := b.data
  advance n := fun b => (.ok (), { b with pos := wadd b.pos n })
  remaining b := if b.pos ≤ b.data.length then b.data.drop b.pos else []
  takeBytes := MutImpl.defaultTakeBytes (fun b => b.pos) (fun b => b.data)
    (fun n b => (.ok (), { b with pos := wadd b.pos n }))
    (fun b => if b.pos ≤ b.data.length then b.data.drop b.pos else [])

/-- `BufReadMut for &[u8]`, src/impls.rs:7-39: the state is the remaining slice, the position always 0, and
`advance` re-slices (panicking past the end). -/
def sliceImpl : MutImpl (List Byte) where
  pos _ := 0
  data l := l
  advance n := fun l => if n ≤ l.length then (.ok (), l.drop n) else (.panic, l)
  remaining l := l
  takeBytes n := fun l =>
    if n ≤ l.length then (.ok (l.take n), l.drop n) else (.err ⟨0, .invalidByteLength⟩, l)

end JBytes
