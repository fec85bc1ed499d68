import Verif.Derive
/-!
# The functions of src/lib.rs and the constructors of `Buffer` and `Bytes`

The codec of the type is a parameter; `fuel` of `while` loops is part of the decoder.
-/

namespace JBytes
open M

variable {α : Type}

/-- `Bytes::new(data)`, src/bytes.rs:31-34, and `Buffer::from(vec)`, src/buffer.rs:73-77: the position is 0. -/
def Buf.ofBytes (data : List Byte) : Buf := ⟨data, 0⟩

/-- `Buffer::new()`, src/buffer.rs:46-54. -/
def Buf.new : Buf := ⟨[], 0⟩

/-- `Buffer::to_bytes`, src/buffer.rs:57-63: a fresh `Bytes` over the same data. -/
def Buf.toBytes (b : Buf) : Buf := Buf.ofBytes b.data

/-- `reset_position`, src/bytes.rs:66-69, src/buffer.rs:112-115. -/
def Buf.reset (b : Buf) : Buf := ⟨b.data, 0⟩

/-- `jbytes::decode(input)`, src/lib.rs:153-156.  What is left of the input is not reported. -/
def decodeTop (d : Dec α) (input : List Byte) : Out α := (d none none (Buf.ofBytes input)).1

/-- `jbytes::decode_borrow(&bytes)` and `decode_borrow2(&buf)`, src/lib.rs:201-210; also `T::decode(&buf)`,
src/decode/mod.rs:58-64, 97-103.  The position of the argument is where decoding starts, and it moves. -/
def decodeAt (d : Dec α) (b : Buf) : Out α × Buf := d none none b

/-- `jbytes::encode(t)` and `encode_borrow(t)`, src/lib.rs:254-261, 306-313. -/
def encodeTop (e : Enc α) (v : α) : Out Buf :=
  match e v none none Buf.new with
  | (.ok _, b) => .ok b
  | (.err x, _) => .err x
  | (.panic, _) => .panic
  | (.timeout, _) => .timeout

/-- `t.encode(&mut buffer)?` for each of `ts`, src/encode/mod.rs:51-54, 82-85. -/
def encodeEach (ts : List (M Nat)) : M Unit :=
  match ts with
  | [] => return ()
  | e :: es => do
    let _ ← e
    encodeEach es

/-- `T::decode(&input)?` for each of the types, src/decode/mod.rs:58-64, 97-103. -/
def decodeEach (ds : List (M α)) : M (List α) :=
  match ds with
  | [] => return []
  | d :: ds => do
    let a ← d
    let as ← decodeEach ds
    return a :: as

end JBytes
