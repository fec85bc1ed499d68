import Verif.Basic
/-!
# Numbers and their byte representation

`from_be_bytes`, `from_le_bytes`, `to_be_bytes`, `to_le_bytes` of the Rust integer types, on bit patterns:
a value of an integer type of `n` bytes is a natural number below `256^n` (two's complement pattern for
the signed types, IEEE pattern for floats).
-/

namespace JBytes

/-- `uN::from_be_bytes`. -/
def beVal (l : List Byte) : Nat := l.foldl (fun a b => a * 256 + b.toNat) 0

/-- `uN::from_le_bytes`. -/
def leVal (l : List Byte) : Nat := l.foldr (fun b a => b.toNat + 256 * a) 0

/-- `uN::to_be_bytes` for a type of `n` bytes. -/
def toBE : Nat → Nat → List Byte
  | 0, _ => []
  | n + 1, v => UInt8.ofNat (v / 256 ^ n) :: toBE n v

/-- `uN::to_le_bytes` for a type of `n` bytes. -/
def toLE : Nat → Nat → List Byte
  | 0, _ => []
  | n + 1, v => UInt8.ofNat v :: toLE n (v / 256)

/-- `from_be_bytes`/`from_le_bytes` by byte order. -/
def fromBytes : ByteOrder → List Byte → Nat
  | .be, l => beVal l
  | .le, l => leVal l

/-- `to_be_bytes`/`to_le_bytes` by byte order. -/
def toBytes : ByteOrder → Nat → Nat → List Byte
  | .be, n, v => toBE n v
  | .le, n, v => toLE n v

/-- The integer types: size in bytes and signedness.  `usize`/`isize` are 8 bytes. -/
structure IntKind where
  size : Nat
  signed : Bool
  deriving DecidableEq, Repr

/-- The integer types for which `impls_int.rs` (src/decode, src/encode) instantiates its macro. -/
inductive IntKind.Valid : IntKind → Prop
  | mk (size : Nat) (signed : Bool) (h : size = 1 ∨ size = 2 ∨ size = 4 ∨ size = 8 ∨ size = 16) :
      IntKind.Valid ⟨size, signed⟩

/-- Number of values of an `n`-byte type. -/
def modulus (n : Nat) : Nat := 256 ^ n

/-- The mathematical value of a bit pattern. -/
def IntKind.toInt (k : IntKind) (v : Nat) : Int :=
  if k.signed = true ∧ 2 * v ≥ modulus k.size then (v : Int) - (modulus k.size : Int) else (v : Int)

/-- The bit pattern of a mathematical value (Rust `as`, i.e. reduction modulo `2^bits`). -/
def IntKind.ofInt (k : IntKind) (i : Int) : Nat := (i % (modulus k.size : Int)).toNat

/-- Rust `v as K2` for `v : K1`: sign- or zero-extend, then truncate. -/
def castInt (k1 k2 : IntKind) (v : Nat) : Nat := k2.ofInt (k1.toInt v)

/-- `v as u64`. -/
def asU64 (k : IntKind) (v : Nat) : Nat := castInt k ⟨8, false⟩ v

/-- `v as K` for `v : u64`. -/
def fromU64 (k : IntKind) (v : Nat) : Nat := castInt ⟨8, false⟩ k v

/-- `v >> 1`: logical for unsigned, arithmetic for signed types. -/
def IntKind.shr1 (k : IntKind) (v : Nat) : Nat := k.ofInt (k.toInt v / 2)

/-- `v << 1` (bits shifted out are lost). -/
def IntKind.shl1 (k : IntKind) (v : Nat) : Nat := (2 * v) % modulus k.size

end JBytes
