import Verif.CodecAddr
/-!
# Text forms of MAC addresses and hex strings (src/types)

A Rust string is the list of its UTF-8 bytes; the functions below only look at ASCII bytes.
-/

namespace JBytes

/-- `char::to_digit(16)` on one byte of the text, as used by `u8::from_str_radix(v, 16)` (standard library), and
`is_hex`, src/types/hex_string.rs:30-37, which has the same table. -/
def isHex (c : Byte) : Option Nat :=
  let x := c.toNat
  if 0x30 ≤ x ∧ x ≤ 0x39 then some (x - 0x30)
  else if 0x61 ≤ x ∧ x ≤ 0x66 then some (x - 0x57)
  else if 0x41 ≤ x ∧ x ≤ 0x46 then some (x - 0x37)
  else none

/-- Digits of `u8::from_str_radix`, with the overflow check. -/
def radix16Digits : Nat → List Byte → Option Nat
  | acc, [] => some acc
  | acc, c :: cs =>
    match isHex c with
    | none => none
    | some d => if 255 < acc * 16 + d then none else radix16Digits (acc * 16 + d) cs

/-- `u8::from_str_radix(v, 16).ok()` (standard library): a leading `+` is skipped when digits follow. -/
def u8FromRadix16 (v : List Byte) : Option Nat :=
  match v with
  | [] => none
  | [c] => if c = 0x2B ∨ c = 0x2D then none else radix16Digits 0 [c]
  | c :: cs => if c = 0x2B then radix16Digits 0 cs else radix16Digits 0 (c :: cs)

/-- `s.split(':')` (standard library). -/
def splitColon : List Byte → List (List Byte)
  | [] => [[]]
  | c :: cs =>
    if c = 0x3A then [] :: splitColon cs
    else
      match splitColon cs with
      | [] => [[c]]
      | g :: gs => (c :: g) :: gs

/-- The loop of `MacAddress::from_str`, src/types/mac_address.rs:113-126. -/
def macParse : Nat → List Byte → List (List Byte) → Option (List Byte)
  | _, mac, [] => some mac
  | i, mac, v :: vs =>
    if 5 < i ∨ v.length ≠ 2 then none
    else
      match u8FromRadix16 v with
      | some x => macParse (i + 1) (mac.set i (UInt8.ofNat x)) vs
      | none => none

/-- `MacAddress::from_str`, src/types/mac_address.rs:110-129. -/
def macFromStr (s : List Byte) : Option (List Byte) := macParse 0 (List.replicate 6 0) (splitColon s)

/-- `HEX_LOWER`, src/types/hex_string.rs:25, src/types/hex_bytes.rs:29. -/
def hexLower : List Byte :=
  [0x30, 0x31, 0x32, 0x33, 0x34, 0x35, 0x36, 0x37, 0x38, 0x39, 0x61, 0x62, 0x63, 0x64, 0x65, 0x66]

/-- `HEX_UPPER`, src/types/hex_string.rs:26, src/types/hex_bytes.rs:30. -/
def hexUpper : List Byte :=
  [0x30, 0x31, 0x32, 0x33, 0x34, 0x35, 0x36, 0x37, 0x38, 0x39, 0x41, 0x42, 0x43, 0x44, 0x45, 0x46]

/-- The two pushes of src/types/hex_string.rs:91-94 (and 115-118, and hex_bytes.rs:64-67, 87-90). -/
def hexPair (tbl : List Byte) (v : Byte) : List Byte := [tbl.getD (v.toNat >>> 4) 0, tbl.getD (v.toNat &&& 0xf) 0]

/-- `to_hex_lowercase`, src/types/hex_string.rs:88-97, src/types/hex_bytes.rs:61-70; also `Display` of `Hex`
(hex_bytes.rs:97-102) and `hex_string::encode` (hex_string.rs:223-225). -/
def toHexLower (d : List Byte) : List Byte := d.flatMap (hexPair hexLower)

/-- `to_hex_uppercase`, src/types/hex_string.rs:112-121, src/types/hex_bytes.rs:84-93. -/
def toHexUpper (d : List Byte) : List Byte := d.flatMap (hexPair hexUpper)

/-- `write!(f, "{:02x}:...")`, src/types/mac_address.rs:133-139 (`{:02x}` of a `u8` is its two lower-case
digits). -/
def macToStr : List Byte → List Byte
  | [] => []
  | [x] => hexPair hexLower x
  | x :: xs => hexPair hexLower x ++ 0x3A :: macToStr xs

/-- The loop over `chunks(2)` of src/types/hex_string.rs:135-147; an odd rest cannot occur there. -/
def hexParse : List Byte → Option (List Byte)
  | [] => some []
  | [_] => none
  | a :: b :: rest =>
    match isHex a with
    | none => none
    | some x =>
      match isHex b with
      | none => none
      | some y => (hexParse rest).map (UInt8.ofNat (x <<< 4 ||| y) :: ·)

/-- `HexString::from_str`, src/types/hex_string.rs:128-150. -/
def hexFromStr (s : List Byte) : Option (List Byte) :=
  if s.length % 2 ≠ 0 then none else hexParse s

end JBytes
