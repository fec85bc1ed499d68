import Verif.Modifiers
/-!
# Codecs of byte strings, text and hex strings

src/decode/impls_bytes.rs, impls_string.rs, impls_hex.rs and the same files in src/encode.
-/

namespace JBytes
open M

/-- `["\r\n", "\n", "\x00"]`, src/decode/impls_bytes.rs:31. -/
def lineNeedles : List (List Byte) := [[13, 10], [10], [0]]

/-- `if let Some(x) = o { _ = input.find_subsequence_needle(x, true)?; }`, src/decode/impls_bytes.rs:15-22. -/
def skipNeedle : Option (List Byte) → M Unit
  | none => return ()
  | some x => do
    let _ ← findSubsequenceNeedle x true
    return ()

/-- `input.take_bytes(input.take_u8()? as usize)?`. -/
def takePrefixed : M (List Byte) := do
  let n ← takeU8
  takeBytes n.toNat

/-- `find_subsequence` of the decoder, src/decode/impls_bytes.rs:10-48; it is the whole codec of `&[u8]`
(51-59), `HexString` and `HexBytes` (src/decode/impls_hex.rs:9-39). -/
def decBytes : Dec (List Byte) := fun ca fa =>
  match fa with
  | none => takePrefixed
  | some fr => do
    skipNeedle fr.key
    skipNeedle fr.split
    match fr.length with
    | some n => takeBytes n
    | none =>
      match fr.byteCount with
      | some k => do
        let n ← takeUint k (getByteorder ca fa)
        takeBytes n
      | none =>
        if fr.linend then findSubsequences lineNeedles
        else
          match fr.linendValue with
          | some x => findSubsequence x
          | none =>
            if fr.remaining then do
              let n ← remainingLen
              takeBytes n
            else takePrefixed

/-- `if let Some(x) = o { r_nbytes += buffer.push(x)?; }`. -/
def pushOpt : Option (List Byte) → M Nat
  | none => return 0
  | some x => push x

/-- The length prefix of src/encode/impls_bytes.rs:24-44. -/
def encBytesPrefix (ca : Option CAttr) (fa : Option FAttr) (len : Nat) : M Nat :=
  match fa with
  | none => pushU8 (UInt8.ofNat len)
  | some fr =>
    match fr.length with
    | some _ => return 0
    | none =>
      match fr.byteCount with
      | some k => pushUint len k (getByteorder ca fa)
      | none =>
        if fr.linend then return 0
        else if fr.linendValue.isSome then return 0
        else if fr.remaining then return 0
        else pushU8 (UInt8.ofNat len)

/-- `linend_value` as set by src/encode/impls_bytes.rs:24-40. -/
def encBytesEnd (fa : Option FAttr) : Option (List Byte) :=
  match fa with
  | none => none
  | some fr =>
    if fr.length.isSome then none
    else if fr.byteCount.isSome then none
    else if fr.linend then some [13, 10]
    else fr.linendValue

/-- `encode_inner` of byte strings, src/encode/impls_bytes.rs:10-53; also `String`, `&str`
(src/encode/impls_string.rs:10-34), `HexString`, `HexBytes` (src/encode/impls_hex.rs:9-42). -/
def encBytes : Enc (List Byte) := fun d ca fa => do
  let n1 ← pushOpt (fa.bind (·.key))
  let n2 ← pushOpt (fa.bind (·.split))
  let n3 ← encBytesPrefix ca fa d.length
  let n4 ← push d
  let n5 ← pushOpt (encBytesEnd fa)
  return (n1 + n2 + n3 + n4 + n5)

/-- Continuation byte of a UTF-8 sequence. -/
def isCont (b : Byte) : Bool := 0x80 ≤ b.toNat && b.toNat ≤ 0xBF

/-- `str::from_utf8(v).is_ok()`: the acceptor of the standard library (table 3-7 of the Unicode standard,
`core/src/str/validations.rs`), external to the crate. -/
def utf8Valid : List Byte → Bool
  | [] => true
  | a :: rest =>
    let x := a.toNat
    if x < 0x80 then utf8Valid rest
    else match rest with
      | [] => false
      | b :: rest =>
        let y := b.toNat
        if 0xC2 ≤ x ∧ x ≤ 0xDF then isCont b && utf8Valid rest
        else match rest with
          | [] => false
          | c :: rest =>
            if x = 0xE0 ∧ 0xA0 ≤ y ∧ y ≤ 0xBF ∨ 0xE1 ≤ x ∧ x ≤ 0xEC ∧ isCont b ∨ x = 0xED ∧ 0x80 ≤ y ∧ y ≤ 0x9F
                ∨ 0xEE ≤ x ∧ x ≤ 0xEF ∧ isCont b then isCont c && utf8Valid rest
            else match rest with
              | [] => false
              | d :: rest =>
                if x = 0xF0 ∧ 0x90 ≤ y ∧ y ≤ 0xBF ∨ 0xF1 ≤ x ∧ x ≤ 0xF3 ∧ isCont b ∨ x = 0xF4 ∧ 0x80 ≤ y ∧ y ≤ 0x8F
                then isCont c && isCont d && utf8Valid rest
                else false

/-- `String`, `&str`, src/decode/impls_string.rs:11-57 (a string is its bytes). -/
def decStr : Dec (List Byte) := fun ca fa => do
  let v ← decBytes ca fa
  if utf8Valid v then return v else fail .fail

end JBytes
