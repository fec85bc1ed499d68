import Verif.MutRead
import Verif.WriteOps
/-!
# `BufWrite` and `BufWriteMut` over an arbitrary implementation (src/buf_traits.rs:1352-1993, src/buf_mut_traits.rs:1407-2049)

The text of the two traits is the same up to the first line.  `Buffer` is the one implementation of `BufWrite` in the
crate; `BufWriteMut` has none.  Users can write their own.
-/

namespace JBytes

/-- An implementation: the required methods and those of the reader that `push` calls.  `remaining_mut` is a slice that is
read (`none`: it panics) and written back. -/
structure WriteImpl (σ : Type) where
  pos : σ → Nat
  remaining : σ → List Byte
  advance : Nat → MS σ Unit
  remainingMut : σ → Option (List Byte)
  setMut : List Byte → σ → σ
  resize : Nat → MS σ Nat

namespace WriteImpl
variable {σ : Type} (I : WriteImpl σ)

/-- `self.remaining_mut()[..data_len].clone_from_slice(data)`, src/buf_mut_traits.rs:1423. -/
def overwrite (d : List Byte) : MS σ Unit := fun s =>
  match I.remainingMut s with
  | some r => if d.length ≤ r.length then (.ok (), I.setMut (d ++ r.drop d.length) s) else (.panic, s)
  | none => (.panic, s)

/-- `Err(make_error(self.get_position(), code))`. -/
def fail (c : ErrCode) : MS σ Nat := fun s => (.err ⟨I.pos s, c⟩, s)

/-- `data_len > self.remaining_len() && self.resize(data_len) == 0`, src/buf_mut_traits.rs:1419 (0 when it holds). -/
def room (n : Nat) : MS σ Nat := fun s => if n > (I.remaining s).length then I.resize n s else (.ok 1, s)

/-- The rest of `push`, src/buf_mut_traits.rs:1423-1426. -/
def commit (d : List Byte) : MS σ Nat := do
  I.overwrite d
  I.advance d.length
  return d.length

/-- `push`, src/buf_mut_traits.rs:1415-1427 (and `push_bytes`, `push_array`, 1431-1439). -/
def push (d : List Byte) : MS σ Nat := do
  let m ← I.room d.length
  if m = 0 then I.fail .pushFail else I.commit d

/-- `push_byteorder_array`, src/buf_mut_traits.rs:1443-1452. -/
def pushByteorderArray (d : List Byte) (o : ByteOrder) : MS σ Nat :=
  match o with
  | .be => I.push d
  | .le => I.push d.reverse

/-- `push_byteorder_X`, src/buf_mut_traits.rs:1468-1596, 1637-1897, 1986-2049 (`v` the bit pattern). -/
def pushScalar (s : Scalar) (v : Nat) (o : ByteOrder) : MS σ Nat :=
  match s with
  | .u8 | .i8 => I.push [UInt8.ofNat v]
  | s => I.push (toBytes o s.size v)

/-- `push_byteorder_u24`, src/buf_mut_traits.rs:1600-1633. -/
def pushU24 (v : Nat) (o : ByteOrder) : MS σ Nat :=
  match o with
  | .be => I.push ((toBE 4 v).drop 1)
  | .le => I.push ((toLE 4 v).take 3)

/-- `push_be_uint`, `push_le_uint`, `push_byteorder_uint`, src/buf_mut_traits.rs:1907-1945 (`push_int`: 1949-1982). -/
def pushUint (v n : Nat) (o : ByteOrder) : MS σ Nat :=
  if n ≤ 8 then
    match o with
    | .be => I.push ((toBE 8 v).drop (8 - n))
    | .le => I.push ((toLE 8 v).take n)
  else I.fail .invalidByteLength

/-- Run a write method; `push_char` and `push_bool` are src/buf_mut_traits.rs:1456-1464. -/
def run : WriteOp → MS σ Nat
  | .bytes d => I.push d
  | .byteorderArray d o => I.pushByteorderArray d o
  | .bool b => I.push [if b then 1 else 0]
  | .char c => I.push [UInt8.ofNat c]
  | .scalar s v o => I.pushScalar s v o
  | .u24 v o => I.pushU24 v o
  | .uint v n o => I.pushUint v n o

end WriteImpl

/-- `BufWrite for Buffer`, src/buffer.rs:96-138. -/
def bufferImpl : WriteImpl Buf where
  pos b := b.pos
  remaining b := if b.pos ≤ b.data.length then b.data.drop b.pos else []
  advance n := fun b => (.ok (), { b with pos := wadd b.pos n })
  remainingMut b := if b.pos ≤ b.data.length then some (b.data.drop b.pos) else none
  setMut r b := { b with data := b.data.take b.pos ++ r }
  resize n := fun b =>
    let m := wadd b.pos n
    if m ≤ isizeMax then (.ok m, { b with data := b.data.take m ++ List.replicate (m - b.data.length) 0 }) else (.panic, b)

/-- An implementation over memory of a fixed size, which refuses to grow (not in the crate; an instance for the
statements). -/
def fixedImpl : WriteImpl Buf where
  pos b := b.pos
  remaining b := b.data.drop b.pos
  advance n := fun b => (.ok (), { b with pos := b.pos + n })
  remainingMut b := some (b.data.drop b.pos)
  setMut r b := { b with data := b.data.take b.pos ++ r }
  resize _ := fun b => (.ok 0, b)

end JBytes
