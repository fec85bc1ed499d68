import Verif.Modifiers
/-!
# Codecs of integers, floats, `bool` and `char`

src/decode/impls_int.rs, impls_float.rs, impls_bool.rs, impls_char.rs and the same files in src/encode.
Values are bit patterns (`Num`).
-/

namespace JBytes
open M

/-- The scalar whose `take_byteorder_T`/`push_byteorder_T` the macro of impls_int.rs is instantiated with
(src/decode/impls_int.rs:65-77, src/encode/impls_int.rs:69-81; `usize`/`isize` behave as `u64`/`i64`). -/
def IntKind.scalar (k : IntKind) : Scalar :=
  match k.size, k.signed with
  | 1, false => .u8
  | 1, true => .i8
  | 2, false => .u16
  | 2, true => .i16
  | 4, false => .u32
  | 4, true => .i32
  | 8, false => .u64
  | 8, true => .i64
  | _, false => .u128
  | _, true => .i128

/-- The loop of src/decode/impls_int.rs:40-45, `n` iterations left: shift value and mask right until the lowest
bit of the mask is set. -/
def bitsShr (k : IntKind) : Nat → Nat → Nat → Nat
  | 0, v, _ => v
  | n + 1, v, m => if m % 2 = 0 then bitsShr k n (k.shr1 v) (k.shr1 m) else bitsShr k n v m

/-- The loop of src/encode/impls_int.rs:25-30. -/
def bitsShl (k : IntKind) : Nat → Nat → Nat → Nat
  | 0, v, _ => v
  | n + 1, v, m => if m % 2 = 0 then bitsShl k n (k.shl1 v) (k.shr1 m) else bitsShl k n v m

/-- The word read by src/decode/impls_int.rs:20-33, before `bits`. -/
def decWord (k : IntKind) (o : ByteOrder) (length : Option Nat) : M Nat :=
  match length with
  | some n =>
    if k.size < n then fail .invalidByteLength
    else do
      let v ← takeUint n o
      return fromU64 k v
  | none => takeScalar k.scalar o

/-- Integers, src/decode/impls_int.rs:15-50. -/
def decInt (k : IntKind) : Dec Nat := fun ca fa => do
  let v ← decWord k (getByteorder ca fa) (fa.bind (·.length))
  match fa.bind (·.bits) with
  | some m => return bitsShr k (8 * k.size) (v &&& fromU64 k m) (fromU64 k m)
  | none => return v

/-- The `bits` part of src/encode/impls_int.rs:21-40: the word to write. -/
def encBits (k : IntKind) (v : Nat) (o : ByteOrder) (fa : Option FAttr) : M Nat :=
  match fa with
  | none => return v
  | some fr =>
    match fr.bits with
    | none => return v
    | some m =>
      let v := bitsShl k (8 * k.size) v (fromU64 k m)
      if fr.bitsStart then return v
      else do
        let p ← getPos
        setPos (wsub p k.size)
        let prev ← takeUint k.size o
        let p ← getPos
        setPos (wsub p k.size)
        return (v ||| fromU64 k prev)

/-- Integers, src/encode/impls_int.rs:15-54. -/
def encInt (k : IntKind) : Enc Nat := fun v ca fa => do
  let o := getByteorder ca fa
  let v ← encBits k v o fa
  match fa.bind (·.length) with
  | some n =>
    if k.size < n then fail .invalidByteLength
    else pushUint (asU64 k v) n o
  | none => pushScalar k.scalar v o

/-- `f32`, src/decode/impls_float.rs:9-20. -/
def decF32 : Dec Nat := fun ca fa => takeScalar .f32 (getByteorder ca fa)

/-- `f64`, src/decode/impls_float.rs:36-47. -/
def decF64 : Dec Nat := fun ca fa => takeScalar .f64 (getByteorder ca fa)

/-- `f32`, src/encode/impls_float.rs:9-20. -/
def encF32 : Enc Nat := fun v ca fa => pushScalar .f32 v (getByteorder ca fa)

/-- `f64`, src/encode/impls_float.rs:32-43. -/
def encF64 : Enc Nat := fun v ca fa => pushScalar .f64 v (getByteorder ca fa)

/-- `bool`, src/decode/impls_bool.rs:8-17. -/
def decBool : Dec Bool := fun _ _ => takeBool

/-- `bool`, src/encode/impls_bool.rs:8-15. -/
def encBool : Enc Bool := fun v _ _ => pushBool v

/-- `char`, src/decode/impls_char.rs:8-17. -/
def decChar : Dec Nat := fun _ _ => takeChar

/-- `char`, src/encode/impls_char.rs:8-15. -/
def encChar : Enc Nat := fun v _ _ => pushChar v

end JBytes
