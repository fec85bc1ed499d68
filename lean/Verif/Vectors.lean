import Verif.Serde
import Verif.Top
import Verif.CodecSeq
import Verif.IO
import Verif.MutRead
import Verif.WriteOps
/-!
# Test vectors of the crate: primitives and codecs

The assertions of the unit tests in /repo/src, restated about the model and evaluated.  They are tests of the
model against expectations written by the authors of the crate; no property rests on them.
-/

namespace JBytes
open M

/-- `T::decode_inner(&Bytes::new(data), ca, fa).unwrap() == v` and then `bytes.remaining_len() == r`. -/
def gives {α : Type} [DecidableEq α] (d : Dec α) (data : List Byte) (v : α) (r : Nat) (fa : Option FAttr := none)
    (ca : Option CAttr := none) : Bool :=
  match d ca fa (Buf.ofBytes data) with
  | (.ok a, b) => a = v && b.data = data && b.data.length - b.pos = r
  | _ => false

/-- `T::decode_inner(&Bytes::new(data), ca, fa).is_err()` and then `bytes.remaining_len() == r`. -/
def refuses {α : Type} (d : Dec α) (data : List Byte) (r : Nat) (fa : Option FAttr := none)
    (ca : Option CAttr := none) : Bool :=
  match d ca fa (Buf.ofBytes data) with
  | (.err _, b) => b.data = data && b.data.length - b.pos = r
  | _ => false

/-- `v.encode_inner(&mut buffer, ca, fa).unwrap() == n` on a new buffer, and then `*buffer == out`. -/
def puts {α : Type} (e : Enc α) (v : α) (n : Nat) (out : List Byte) (fa : Option FAttr := none)
    (ca : Option CAttr := none) : Bool :=
  match e v ca fa Buf.new with
  | (.ok k, b) => k = n && b.data = out && b.pos = out.length
  | _ => false

/-- `v.encode_inner(&mut buffer, ca, fa).is_err()` on a new buffer, and then `buffer.is_empty()`. -/
def putsNothing {α : Type} (e : Enc α) (v : α) (fa : Option FAttr := none) : Bool :=
  match e v none fa Buf.new with
  | (.err _, b) => b.data = []
  | _ => false

/-- The modifiers of a container with `byteorder: Some(ByteOrder::Le)`. -/
def leC : CAttr := { byteorder := some .le }

/-- `u16`. -/
abbrev decU16 : Dec Nat := decInt ⟨2, false⟩
/-- `u16`. -/
abbrev encU16 : Enc Nat := encInt ⟨2, false⟩
/-- `u32`. -/
abbrev decU32 : Dec Nat := decInt ⟨4, false⟩
/-- `u32`. -/
abbrev encU32 : Enc Nat := encInt ⟨4, false⟩

/-! ## src/decode/impls_array.rs:56-84 -/

example : gives (decArray 2 decU16) [0x00, 0x01, 0x00, 0x2] [0x0001, 0x0002] 0 := by decide +kernel
example : gives (decArray 2 decU16) [0x00, 0x01, 0x00, 0x2] [0x0100, 0x0200] 0 none (some leC) := by decide +kernel
example : gives (decArray 2 decU16) [0x00, 0x01, 0x00, 0x2] [0x0001, 0x0002] 0 (some { byteorder := some .be })
    (some leC) := by decide +kernel
example : refuses (decArray 2 decU16) [0x00, 0x01, 0x00] 1 := by decide +kernel

/-! ## src/decode/impls_bool.rs:38-54, impls_char.rs:38-44 -/

example : gives decBool [0x00, 0x01] false 1 := by decide +kernel
example : gives decBool [0x01, 0x01] true 1 := by decide +kernel
example : gives decBool [0x10, 0x01] true 1 := by decide +kernel
example : gives decBool [0xff, 0x01] true 1 := by decide +kernel
example : gives decChar [0x61, 0x62] 'a'.toNat 1 := by decide +kernel
example : gives (decArray 2 decChar) [0x61, 0x62] ['a'.toNat, 'b'.toNat] 0 := by decide +kernel

/-! ## src/decode/impls_bytes.rs:70-140 -/

example : gives decBytes [0x02, 0x01, 0x02, 0x03, 0x04, 0x05] [0x01, 0x02] 3 := by decide +kernel
example : refuses decBytes [0x06, 0x01, 0x02, 0x03, 0x04, 0x05] 5 := by decide +kernel
example : gives decBytes [0x00, 0x01, 0x02, 0x03, 0x04, 0x05, 0x00] [0x00, 0x01, 0x02, 0x03, 0x04] 2
    (some { length := some 5 }) := by decide +kernel
example : gives decBytes [0x00, 0x04, 0x02, 0x03, 0x04, 0x05, 0x00] [0x02, 0x03, 0x04, 0x05] 1
    (some { byteCount := some 2 }) := by decide +kernel
example : gives decBytes [0x00, 0x04, 0x02] [0x00, 0x04, 0x02] 0 (some { remaining := true }) := by decide +kernel
example : gives decBytes [0x00, 0x01, 0x02, 0x03, 0x04, 0x05, 0x00] [0x03, 0x04, 0x05] 0
    (some { key := some [0x00, 0x01], split := some [0x02], linend := true }) := by decide +kernel
example : gives decBytes [0x00, 0x01, 0x02, 0x03, 0x04, 0x05, 0x00] [0x04, 0x05] 0
    (some { key := some [0x00, 0x01], split := some [0x03], linend := true }) := by decide +kernel
example : gives decBytes [0x00, 0x01, 0x02, 0x03, 0x04, 0x05, 0x00] [0x03, 0x04, 0x05] 0
    (some { key := some [0x00, 0x01], split := some [0x02], linendValue := some [0x00] }) := by decide +kernel

/-! ## src/decode/impls_float.rs:71-117: the bit patterns of `0.1_f32` and `0.1_f64` -/

example : gives decF32 [61, 204, 204, 205] 0x3dcccccd 0 := by decide +kernel
example : gives decF32 [205, 204, 204, 61] 0x3dcccccd 0 none (some leC) := by decide +kernel
example : gives decF32 [61, 204, 204, 205] 0x3dcccccd 0 (some { byteorder := some .be }) (some leC) := by
  decide +kernel
example : gives decF64 [63, 185, 153, 153, 153, 153, 153, 154] 0x3fb999999999999a 0 := by decide +kernel
example : gives decF64 [154, 153, 153, 153, 153, 153, 185, 63] 0x3fb999999999999a 0 none (some leC) := by
  decide +kernel
example : gives decF64 [63, 185, 153, 153, 153, 153, 153, 154] 0x3fb999999999999a 0 (some { byteorder := some .be })
    (some leC) := by decide +kernel

/-! ## src/decode/impls_hashmap.rs:148-281 -/

/-- Keys and values of the integer maps of the tests. -/
def intEntries : List (Nat × Nat) := [(1, 2), (3, 4), (5, 6)]

example : gives (decMap decU16 decU16) [0x03, 0x00, 0x01, 0x00, 0x02, 0x00, 0x03, 0x00, 0x04, 0x00, 0x05, 0x00, 0x06]
    intEntries 0 := by decide +kernel
example : gives (decMap decU16 decU16) [0x00, 0x01, 0x00, 0x02, 0x00, 0x03, 0x00, 0x04, 0x00, 0x05, 0x00, 0x06]
    intEntries 0 (some { count := some 3 }) := by decide +kernel
example : gives (decMap decU16 decU16) [0x00, 0x01, 0x00, 0x02, 0x00, 0x03, 0x00, 0x04, 0x00, 0x05, 0x00, 0x06]
    intEntries 0 (some { tryCount := some 10 }) := by decide +kernel
example : gives (decMap decU16 decU16)
    [0x00, 0x03, 0x00, 0x01, 0x00, 0x02, 0x00, 0x03, 0x00, 0x04, 0x00, 0x05, 0x00, 0x06]
    intEntries 0 (some { byteCountOutside := some 2 }) := by decide +kernel
example : gives (decMap decStr decU16) [3, 4, 107, 101, 121, 49, 0, 2, 4, 107, 101, 121, 50, 0, 4, 4, 107, 101, 121, 51, 0, 6]
    [([107, 101, 121, 49], 2), ([107, 101, 121, 50], 4), ([107, 101, 121, 51], 6)] 0 := by decide +kernel
example : gives (decMap decStr decU16) [3, 107, 101, 121, 49, 58, 0, 2, 107, 101, 121, 50, 58, 0, 4, 107, 101, 121, 51, 58, 0, 6]
    [([107, 101, 121, 49], 2), ([107, 101, 121, 50], 4), ([107, 101, 121, 51], 6)] 0 (some { split := some [58] }) := by
  decide +kernel
-- "K1: V1\r\nK2: V2\r\nK3: V3\r\n"
example : gives (decMap decStr decStr) [75, 49, 58, 32, 86, 49, 13, 10, 75, 50, 58, 32, 86, 50, 13, 10, 75, 51, 58, 32, 86, 51, 13, 10]
    [([75, 49], [86, 49]), ([75, 50], [86, 50]), ([75, 51], [86, 51])] 0
    (some { tryCount := some 50, split := some [58, 32], linendValue := some [13, 10] }) := by decide +kernel

/-! ## src/decode/impls_hashset.rs:81-122 -/

example : gives (decSet decU16) [0x02, 0x00, 0x01, 0x00, 0x02] [1, 2] 0 := by decide +kernel
example : gives (decSet decU16) [0x00, 0x01, 0x00, 0x02] [1, 2] 0 (some { count := some 2 }) := by decide +kernel
example : refuses (decSet decU16) [0x00, 0x01] 0 (some { count := some 2 }) := by decide +kernel
example : gives (decSet decU16) [0x00, 0x01, 0x00, 0x02] [1, 2] 0 (some { tryCount := some 10 }) := by decide +kernel
example : gives (decSet decU16) [0x00, 0x02, 0x00, 0x01, 0x00, 0x02] [1, 2] 0 (some { byteCountOutside := some 2 }) := by
  decide +kernel

/-! ## src/decode/impls_hex.rs:49-62 -/

example : gives decBytes [0x03, 0x00, 0x01, 0x02] [0, 1, 2] 0 ∧ toHexLower [0, 1, 2] = [48, 48, 48, 49, 48, 50] := by
  decide +kernel

/-! ## src/decode/impls_int.rs:92-158 -/

example : gives decU32 [0x00, 0x00, 0x00, 0x01] 1 0 := by decide +kernel
example : gives decU32 [0x01, 0x00, 0x00, 0x00] 1 0 none (some leC) := by decide +kernel
example : gives decU32 [0x00, 0x00, 0x00, 0x01] 1 0 (some { byteorder := some .be }) (some leC) := by decide +kernel
example : gives decU32 [0x00, 0x00, 0x01, 0x02] 1 1 (some { length := some 3 }) := by decide +kernel
example : gives decU32 [0x01, 0x00, 0x00, 0x02] 1 1 (some { byteorder := some .le, length := some 3 }) := by
  decide +kernel
example : gives decU32 [0x00, 0x00, 0x01, 0x02] 0 4 (some { length := some 0 }) := by decide +kernel
example : gives decU32 [0x00, 0x00, 0x00, 0x01] 1 0 (some { length := some 4 }) := by decide +kernel
example : refuses decU32 [0x00, 0x00, 0x00, 0x01, 0x00] 5 (some { length := some 5 }) := by decide +kernel

/-! ## src/decode/impls_ipaddress.rs:101-187 -/

/-- `fa80::e74:abff:fe93:56f0`. -/
def someV6 : List Byte := [250, 128, 0, 0, 0, 0, 0, 0, 14, 116, 171, 255, 254, 147, 86, 240]

example : gives decIpv4 [192, 168, 1, 100] [192, 168, 1, 100] 0 := by decide +kernel
example : gives decIpv4 [100, 1, 168, 192] [192, 168, 1, 100] 0 (some { byteorder := some .le }) := by decide +kernel
example : gives decIpv6 someV6 someV6 0 := by decide +kernel
example : gives decIpv6 [240, 86, 147, 254, 255, 171, 116, 14, 0, 0, 0, 0, 0, 0, 128, 250] someV6 0
    (some { byteorder := some .le }) := by decide +kernel
example : gives decIpAddr [192, 168, 1, 100] (.v4 [192, 168, 1, 100]) 0 (some { length := some 4 }) := by decide +kernel
example : gives decIpAddr [100, 1, 168, 192] (.v4 [192, 168, 1, 100]) 0
    (some { length := some 4, byteorder := some .le }) := by decide +kernel
example : refuses decIpAddr [192, 168, 1] 3 (some { length := some 4 }) := by decide +kernel
example : gives decIpv6 someV6 someV6 0 (some { length := some 16 }) := by decide +kernel
example : gives decIpAddr [240, 86, 147, 254, 255, 171, 116, 14, 0, 0, 0, 0, 0, 0, 128, 250] (.v6 someV6) 0
    (some { length := some 16, byteorder := some .le }) := by decide +kernel
example : refuses decIpAddr [192, 168, 1, 100] 4 := by decide +kernel

/-! ## src/decode/impls_macaddress.rs:40-58 -/

example : gives decMac [0x00, 0x01, 0x02, 0x03, 0x04, 0x05] [0, 1, 2, 3, 4, 5] 0
    ∧ macToStr [0, 1, 2, 3, 4, 5] = [48, 48, 58, 48, 49, 58, 48, 50, 58, 48, 51, 58, 48, 52, 58, 48, 53] := by decide +kernel
example : gives decMac [0x00, 0x01, 0x02, 0x03, 0x04, 0x05] [5, 4, 3, 2, 1, 0] 0 (some { byteorder := some .le })
    ∧ macToStr [5, 4, 3, 2, 1, 0] = [48, 53, 58, 48, 52, 58, 48, 51, 58, 48, 50, 58, 48, 49, 58, 48, 48] := by decide +kernel
example : refuses decMac [0x00, 0x01, 0x02, 0x03, 0x04] 5 := by decide +kernel

/-! ## src/decode/impls_netaddress.rs:60-114 (the text of IP addresses is not modelled) -/

example : gives decNet [192, 168, 1, 100] (.v4 [192, 168, 1, 100]) 0 (some { length := some 4 }) := by decide +kernel
example : gives decNet someV6 (.v6 someV6) 0 (some { length := some 16 }) := by decide +kernel
example : gives decNet [0x00, 0x01, 0x02, 0x03, 0x04, 0x05] (.mac [0, 1, 2, 3, 4, 5]) 0 (some { length := some 6 }) := by
  decide +kernel
example : gives decNet [0x01] (.usize 1) 0 (some { length := some 1 }) := by decide +kernel
example : gives decNet [0x00, 0x01] (.usize 1) 0 (some { length := some 2 }) := by decide +kernel
example : decimal 1 = [49] := by rw [decimal]; decide
example : refuses decNet [0x01] 1 (some { length := some 0 }) := by decide +kernel

/-! ## src/decode/impls_option.rs:67-75 -/

example : gives (decOption decU16) [0x01] none 1 := by decide +kernel
example : gives (decOption decU16) [0x00, 0x01] (some 1) 0 := by decide +kernel

/-! ## src/decode/impls_string.rs:68-164 (`String` and `&str`) -/

example : gives decStr [3, 97, 98, 99] [97, 98, 99] 0 := by decide +kernel
example : refuses decStr [5, 97, 98, 99] 3 := by decide +kernel
example : gives decStr [97, 98, 99] [97, 98, 99] 0 (some { length := some 3 }) := by decide +kernel
example : gives decStr [0, 3, 97, 98, 99] [97, 98, 99] 0 (some { byteCount := some 2 }) := by decide +kernel
example : gives decStr [97, 98, 99, 13, 10] [97, 98, 99] 0 (some { linendValue := some [13, 10] }) := by decide +kernel
example : gives decStr [97, 98, 99] [97, 98, 99] 0 (some { remaining := true }) := by decide +kernel

/-! ## src/decode/impls_tuple.rs:70-94 -/

example : gives (decTuple [decInt ⟨1, false⟩, decInt ⟨1, false⟩, decU16]) [0x00, 0x01, 0x00, 0x02] [0, 1, 2] 0 := by
  decide +kernel
example : gives (decTuple [decU16, decU16]) [0x00, 0x01, 0x00, 0x02] [0x0100, 0x0200] 0 none (some leC) := by
  decide +kernel
example : gives (decTuple [decU16, decU16]) [0x00, 0x01, 0x00, 0x02] [0x0001, 0x0002] 0
    (some { byteorder := some .be }) (some leC) := by decide +kernel

/-! ## src/decode/impls_vec.rs:99-165 -/

example : gives (decVec 9 decU16) [0x02, 0x00, 0x01, 0x00, 0x02] [1, 2] 0 := by decide +kernel
example : refuses (decVec 9 decU16) [0x03, 0x00, 0x01, 0x00, 0x02] 0 := by decide +kernel
example : gives (decVec 9 decU16) [0x02, 0x00, 0x01, 0x00, 0x02] [0x0100, 0x0200] 0 (some { byteorder := some .le }) := by
  decide +kernel
example : gives (decVec 9 decU16) [0x00, 0x01, 0x00, 0x02] [1, 2] 0 (some { count := some 2 }) := by decide +kernel
example : refuses (decVec 9 decU16) [0x00, 0x01, 0x00, 0x02] 0 (some { count := some 3 }) := by decide +kernel
example : gives (decVec 9 decU16) [0x00, 0x01, 0x00, 0x02] [1, 2] 0 (some { tryCount := some 10 }) := by decide +kernel
example : gives (decVec 9 decU16) [0x00, 0x02, 0x00, 0x01, 0x00, 0x02] [1, 2] 0
    (some { byteCountOutside := some 2 }) := by decide +kernel
example : gives (decVec 9 decU16) [0x02, 0x00, 0x01, 0x00, 0x02, 0x00] [1, 2] 0
    (some { byteCountOutside := some 2, byteorder := some .le }) := by decide +kernel

/-! ## src/encode/impls_array.rs:46-68 -/

example : puts (encArray encU16) [1, 2] 4 [0x00, 0x01, 0x00, 0x02] := by decide +kernel
example : puts (encArray encU16) [1, 2] 4 [0x01, 0x00, 0x02, 0x00] none (some leC) := by decide +kernel
example : puts (encArray encU16) [1, 2] 4 [0x00, 0x01, 0x00, 0x02] (some { byteorder := some .be }) (some leC) := by
  decide +kernel

/-! ## src/encode/impls_bool.rs:35-43, impls_char.rs:35-40 -/

example : puts encBool false 1 [0x00] := by decide +kernel
example : puts encBool true 1 [0x01] := by decide +kernel
example : puts (encArray encChar) ['a'.toNat, 'b'.toNat] 2 [0x61, 0x62] := by decide +kernel

/-! ## src/encode/impls_bytes.rs:72-120 -/

example : puts encBytes [1, 2] 3 [0x02, 0x01, 0x02] := by decide +kernel
example : puts encBytes [1, 2, 3, 4, 5] 5 [1, 2, 3, 4, 5] (some { length := some 5 }) := by decide +kernel
example : puts encBytes [1, 2, 3, 4, 5] 7 [0, 5, 1, 2, 3, 4, 5] (some { byteCount := some 2 }) := by decide +kernel
example : puts encBytes [1, 2, 3, 4, 5] 5 [1, 2, 3, 4, 5] (some { remaining := true }) := by decide +kernel
example : puts encBytes [1, 2, 3, 4, 5] 9 [0xff, 0xfe, 0xfa, 1, 2, 3, 4, 5, 0xff]
    (some { key := some [0xff, 0xfe], split := some [0xfa], linendValue := some [0xff] }) := by decide +kernel

/-! ## src/encode/impls_float.rs:63-107 -/

example : puts encF32 0x3dcccccd 4 [61, 204, 204, 205] := by decide +kernel
example : puts encF32 0x3dcccccd 4 [205, 204, 204, 61] none (some leC) := by decide +kernel
example : puts encF32 0x3dcccccd 4 [61, 204, 204, 205] (some { byteorder := some .be }) (some leC) := by decide +kernel
example : puts encF64 0x3fb999999999999a 8 [63, 185, 153, 153, 153, 153, 153, 154] := by decide +kernel
example : puts encF64 0x3fb999999999999a 8 [154, 153, 153, 153, 153, 153, 185, 63] none (some leC) := by decide +kernel
example : puts encF64 0x3fb999999999999a 8 [63, 185, 153, 153, 153, 153, 153, 154] (some { byteorder := some .be })
    (some leC) := by decide +kernel

/-! ## src/encode/impls_hashmap.rs:115-166: the tests state only the numbers of bytes -/

/-- The number of bytes an encoder reports. -/
def putsCount {α : Type} (e : Enc α) (v : α) (n : Nat) (fa : Option FAttr := none) : Bool :=
  match e v none fa Buf.new with
  | (.ok k, b) => k = n && b.data.length = n
  | _ => false

example : putsCount (encMap encU16 encU16) intEntries 13 := by decide +kernel
example : putsCount (encMap encU16 encU16) intEntries 12 (some { count := some 3 }) := by decide +kernel
example : putsCount (encMap encU16 encU16) intEntries 12 (some { tryCount := some 10 }) := by decide +kernel
example : putsCount (encMap encU16 encU16) intEntries 14 (some { byteCountOutside := some 2 }) := by decide +kernel
example : putsCount (encMap encBytes encBytes) [([75, 49], [86, 49]), ([75, 50], [86, 50]), ([75, 51], [86, 51])] 24
    (some { tryCount := some 50, split := some [58, 32], linendValue := some [13, 10] }) := by decide +kernel

/-! ## src/encode/impls_hex.rs:44-58 -/

example : puts encBytes [0x00, 0x01, 0x02] 4 [0x03, 0x00, 0x01, 0x02] := by decide +kernel

/-! ## src/encode/impls_int.rs:97-154 -/

example : puts encU32 1 4 [0x00, 0x00, 0x00, 0x01] := by decide +kernel
example : puts encU32 1 4 [0x01, 0x00, 0x00, 0x00] none (some leC) := by decide +kernel
example : puts encU32 1 4 [0x00, 0x00, 0x00, 0x01] (some { byteorder := some .be }) (some leC) := by decide +kernel
example : puts encU32 1 3 [0x00, 0x00, 0x01] (some { byteorder := some .be, length := some 3 }) := by decide +kernel
example : puts encU32 1 3 [0x01, 0x00, 0x00] (some { byteorder := some .le, length := some 3 }) := by decide +kernel
example : puts encU32 1 0 [] (some { byteorder := some .le, length := some 0 }) := by decide +kernel
example : putsNothing encU32 1 (some { byteorder := some .le, length := some 5 }) := by decide +kernel

/-! ## src/encode/impls_ipaddress.rs:82-144 -/

example : puts encIp [192, 168, 1, 100] 4 [192, 168, 1, 100] := by decide +kernel
example : puts encIp [192, 168, 1, 100] 4 [100, 1, 168, 192] (some { byteorder := some .le }) := by decide +kernel
example : puts encIp someV6 16 someV6 := by decide +kernel
example : puts encIp someV6 16 [240, 86, 147, 254, 255, 171, 116, 14, 0, 0, 0, 0, 0, 0, 128, 250]
    (some { byteorder := some .le }) := by decide +kernel
example : puts encIpAddr (.v4 [192, 168, 1, 100]) 4 [192, 168, 1, 100] := by decide +kernel
example : puts encIpAddr (.v4 [192, 168, 1, 100]) 4 [100, 1, 168, 192] (some { byteorder := some .le }) := by
  decide +kernel
example : puts encIpAddr (.v6 someV6) 16 someV6 := by decide +kernel
example : puts encIpAddr (.v6 someV6) 16 [240, 86, 147, 254, 255, 171, 116, 14, 0, 0, 0, 0, 0, 0, 128, 250]
    (some { byteorder := some .le }) := by decide +kernel

/-! ## src/encode/impls_macaddress.rs:33-46, impls_netaddress.rs:49-93 -/

example : puts encMac (macFromBits 0x000102030405) 6 [0, 1, 2, 3, 4, 5] := by decide +kernel
example : puts encMac (macFromBits 0x000102030405) 6 [5, 4, 3, 2, 1, 0] (some { byteorder := some .le }) := by
  decide +kernel
example : puts encNet (.v4 [1, 2, 3, 4]) 4 [1, 2, 3, 4] (some { length := some 4 }) := by decide +kernel
example : puts encNet (.v6 someV6) 16 someV6 (some { length := some 16 }) := by decide +kernel
example : puts encNet (.mac (macFromBits 0x010203040506)) 6 [1, 2, 3, 4, 5, 6] (some { length := some 6 }) := by
  decide +kernel
example : puts encNet (.usize 1) 1 [1] (some { length := some 1 }) := by decide +kernel
example : puts encNet (.usize 1) 2 [0, 1] (some { length := some 2 }) := by decide +kernel

/-! ## src/encode/impls_option.rs:41-52, impls_tuple.rs:72-96 -/

example : puts (encOption encU16) (some 1) 2 [0x00, 0x01] := by decide +kernel
example : puts (encOption encU16) none 0 [] := by decide +kernel
example : puts (encTuple [encInt ⟨1, false⟩, encInt ⟨1, false⟩, encU16]) [0, 1, 2] 4 [0x00, 0x01, 0x00, 0x02] := by
  decide +kernel
example : puts (encTuple [encU16, encU16]) [1, 2] 4 [0x01, 0x00, 0x02, 0x00] none (some leC) := by decide +kernel
example : puts (encTuple [encU16, encU16]) [1, 2] 4 [0x00, 0x01, 0x00, 0x02] (some { byteorder := some .be })
    (some leC) := by decide +kernel

/-! ## src/encode/impls_vec.rs:71-123 -/

example : puts (encVec encU16) [1, 2] 5 [0x02, 0x00, 0x01, 0x00, 0x02] := by decide +kernel
example : puts (encVec encU16) [1, 2] 5 [0x02, 0x01, 0x00, 0x02, 0x00] (some { byteorder := some .le }) := by
  decide +kernel
example : puts (encVec encU16) [1, 2] 4 [0x00, 0x01, 0x00, 0x02] (some { count := some 2 }) := by decide +kernel
example : puts (encVec encU16) [1, 2] 4 [0x00, 0x01, 0x00, 0x02] (some { tryCount := some 10 }) := by decide +kernel
example : puts (encVec encU16) [1, 2] 6 [0x00, 0x02, 0x00, 0x01, 0x00, 0x02] (some { byteCountOutside := some 2 }) := by
  decide +kernel
example : puts (encVec encU16) [1, 2] 6 [0x02, 0x00, 0x01, 0x00, 0x02, 0x00]
    (some { byteCountOutside := some 2, byteorder := some .le }) := by decide +kernel

/-! ## src/types/hex_bytes.rs:142-145, 155-160 -/

example : toHexLower [0x01, 0xab, 0xff] = [48, 49, 97, 98, 102, 102] := by decide +kernel
example : toHexUpper [0x01, 0xab, 0xff] = [48, 49, 65, 66, 70, 70] := by decide +kernel
example : hexBytesSerialize [106, 97, 110, 107, 105, 110, 99, 97, 105] = [54, 97, 54, 49, 54, 101, 54, 98, 54, 57, 54, 101, 54, 51, 54, 49, 54, 57] := by decide +kernel

/-! ## src/types/hex_string.rs:249-296 (`to_string` on valid UTF-8 is the text itself: `lossy` is the identity) -/

example : (hexFromStr [54, 49, 54, 50, 54, 51]).map (hexShow id) = some [97, 98, 99] := by decide +kernel
example : (hexFromStr [48, 57, 97, 102, 65, 70]).map toHexLower = some [48, 57, 97, 102, 97, 102] := by decide +kernel
example : (hexFromStr [48, 57, 97, 102, 65, 70]).map toHexUpper = some [48, 57, 65, 70, 65, 70] := by decide +kernel
example : hexFromStr [48] = none := by decide +kernel
example : hexFromStr [48, 103] = none := by decide +kernel
example : hexFromStr [48, 71] = none := by decide +kernel
example : hexFromStr [48, 122] = none := by decide +kernel
example : hexFromStr [48, 90] = none := by decide +kernel
example : hexFromStr [48, 45] = none := by decide +kernel
example : (hexFromStr [48, 57, 97, 102]).map (fun v => toHexLower (v ++ [0x01, 0x02, 0xff])) = some [48, 57, 97, 102, 48, 49, 48, 50, 102, 102] := by
  decide +kernel
example : hexEncodeText [106, 97, 110, 107, 105, 110, 99, 97, 105] = [54, 97, 54, 49, 54, 101, 54, 98, 54, 57, 54, 101, 54, 51, 54, 49, 54, 57] := by decide +kernel
example : hexEncodeText [106, 97, 110, 107, 105, 110, 99, 97, 105, 0, 255] = [54, 97, 54, 49, 54, 101, 54, 98, 54, 57, 54, 101, 54, 51, 54, 49, 54, 57, 48, 48, 102, 102] := by decide +kernel
example : hexDecodeText id [54, 97, 54, 49, 54, 101, 54, 98, 54, 57, 54, 101, 54, 51, 54, 49, 54, 57] = some [106, 97, 110, 107, 105, 110, 99, 97, 105] := by decide +kernel
example : hexDecodeText id [54, 97, 54, 49, 54, 101, 54, 98, 54, 57, 54, 101, 54, 51, 54, 49, 54, 57, 102, 103] = none := by decide +kernel
example : (hexFromStr [48, 49, 97, 102, 97, 102]).map hexSerialize = some [48, 49, 97, 102, 97, 102] := by decide +kernel
example : hexDeserialize (.borrowed [48, 49, 97, 102, 97, 102]) = hexFromStr [48, 49, 97, 102, 97, 102] := by decide +kernel

/-! ## src/types/mac_address.rs:183-215, 223-233 -/

example : (macFromStr [97, 97, 58, 98, 98, 58, 99, 99, 58, 100, 100, 58, 101, 101, 58, 102, 102]).map macToStr = some [97, 97, 58, 98, 98, 58, 99, 99, 58, 100, 100, 58, 101, 101, 58, 102, 102] := by decide +kernel
example : macFromStr [] = none := by decide +kernel
example : macFromStr [58] = none := by decide +kernel
example : macFromStr [97, 97, 58, 98, 98, 58, 99, 99, 58, 100, 100, 58, 101, 101, 58] = none := by decide +kernel
example : macFromStr [97, 97, 58, 98, 98, 58, 99, 99, 58, 100, 100, 58, 101, 101, 58, 102] = none := by decide +kernel
example : macFromStr [97, 97, 58, 98, 98, 58, 99, 99, 58, 100, 100, 58, 101, 101, 58, 102, 102, 58] = none := by decide +kernel
example : macFromStr [97, 97, 58, 98, 98, 58, 99, 99, 58, 100, 100, 58, 101, 101, 58, 102, 102, 102] = none := by decide +kernel
example : (macFromStr [48, 49, 58, 97, 97, 58, 98, 98, 58, 99, 99, 58, 100, 100]).map macIsUnicast = some false := by decide +kernel
example : (macFromStr [48, 48, 58, 97, 97, 58, 98, 98, 58, 99, 99, 58, 100, 100]).map macIsUnicast = some true := by decide +kernel
example : (macFromStr [48, 99, 58, 55, 51, 58, 101, 98, 58, 57, 50, 58, 53, 51, 58, 102, 48]).map macIsUnicast = some true := by decide +kernel
example : (macFromStr [102, 102, 58, 102, 102, 58, 102, 102, 58, 102, 102, 58, 102, 102, 58, 102, 102]).map macIsBroadcast = some true := by decide +kernel
example : (macFromStr [102, 102, 58, 102, 102, 58, 102, 102, 58, 102, 102, 58, 102, 102, 58, 101, 102]).map macIsBroadcast = some false := by decide +kernel
example : (macFromStr [48, 49, 58, 97, 97, 58, 98, 98, 58, 99, 99, 58, 100, 100]).map macIsMulticast = some true := by decide +kernel
example : (macFromStr [48, 48, 58, 97, 97, 58, 98, 98, 58, 99, 99, 58, 100, 100]).map macIsMulticast = some false := by decide +kernel
example : (macFromStr [102, 102, 58, 102, 102, 58, 102, 102, 58, 102, 102, 58, 102, 102, 58, 101, 102]).map macIsZero = some false := by decide +kernel
example : (macFromStr [48, 48, 58, 48, 48, 58, 48, 48, 58, 48, 48, 58, 48, 48, 58, 48, 48]).map macIsZero = some true := by decide +kernel
example : macToStr [1, 2, 3, 4, 5, 6] = [48, 49, 58, 48, 50, 58, 48, 51, 58, 48, 52, 58, 48, 53, 58, 48, 54] := by decide +kernel
example : macToStr (macFromBits 0xaabbccddeeff) = [97, 97, 58, 98, 98, 58, 99, 99, 58, 100, 100, 58, 101, 101, 58, 102, 102] := by decide +kernel
example : (macFromStr [97, 97, 58, 98, 98, 58, 99, 99, 58, 100, 100, 58, 101, 101, 58, 102, 102]).map macToBits = some 0xaabbccddeeff := by decide +kernel
example : (macFromStr [97, 97, 58, 98, 98, 58, 99, 99, 58, 100, 100, 58, 101, 101, 58, 102, 102]).map macSerialize = some [97, 97, 58, 98, 98, 58, 99, 99, 58, 100, 100, 58, 101, 101, 58, 102, 102] := by decide +kernel
example : macDeserialize (.borrowed [97, 97, 58, 98, 98, 58, 99, 99, 58, 100, 100, 58, 101, 101, 58, 102, 102]) = macFromStr [97, 97, 58, 98, 98, 58, 99, 99, 58, 100, 100, 58, 101, 101, 58, 102, 102] := by decide +kernel

/-! ## src/types/net_address.rs:157-191

The parsers of IP addresses belong to the standard library and are parameters of the model; here they are tables
holding the addresses of the tests. -/

/-- What the standard library says about the texts of the tests. -/
def testIps : IpText where
  parse4 s := if s = [49, 57, 50, 46, 49, 54, 56, 46, 49, 46, 49] then some [192, 168, 1, 1] else none
  parse6 s := if s = [102, 101, 56, 48, 58, 58, 52, 49, 53, 57, 58, 102, 55, 98, 50, 58, 98, 57, 101, 100, 58, 57, 54, 56, 97] then
      some [0xfe, 0x80, 0, 0, 0, 0, 0, 0, 0x41, 0x59, 0xf7, 0xb2, 0xb9, 0xed, 0x96, 0x8a] else none
  show4 _ := []
  show6 _ := []

example : netFromStr testIps [49, 57, 50, 46, 49, 54, 56, 46, 49, 46, 49] = some (.v4 [192, 168, 1, 1]) := by decide +kernel
example : netFromStr testIps [102, 101, 56, 48, 58, 58, 52, 49, 53, 57, 58, 102, 55, 98, 50, 58, 98, 57, 101, 100, 58, 57, 54, 56, 97]
    = some (.v6 [0xfe, 0x80, 0, 0, 0, 0, 0, 0, 0x41, 0x59, 0xf7, 0xb2, 0xb9, 0xed, 0x96, 0x8a]) := by decide +kernel
example : netFromStr testIps [97, 97, 58, 98, 98, 58, 99, 99, 58, 100, 100, 58, 101, 101, 58, 102, 102] = some (.mac [0xaa, 0xbb, 0xcc, 0xdd, 0xee, 0xff]) := by
  decide +kernel
example : netFromStr testIps [49, 50] = some (.usize 12) := by decide +kernel
example : netFromStr testIps [] = none := by decide +kernel
example : netFromStr testIps [58] = none := by decide +kernel
example : netFromStr testIps [97, 97, 58, 98, 98, 58, 99, 99, 58, 100, 100, 58, 101, 101, 58] = none := by decide +kernel
example : netFromStr testIps [97, 97, 58, 98, 98, 58, 99, 99, 58, 100, 100, 58, 101, 101, 58, 102] = none := by decide +kernel
example : netFromStr testIps [97, 97, 58, 98, 98, 58, 99, 99, 58, 100, 100, 58, 101, 101, 58, 102, 102, 58] = none := by decide +kernel
example : netFromStr testIps [97, 97, 58, 98, 98, 58, 99, 99, 58, 100, 100, 58, 101, 101, 58, 102, 102, 102] = none := by decide +kernel
example : netFromStr testIps [49, 57, 50, 46, 49, 54, 56, 46, 49, 46, 49, 51, 52, 53] = none := by decide +kernel
example : netFromStr testIps [49, 57, 50, 46, 49, 54, 56, 46, 49, 46] = none := by decide +kernel
example : netFromStr testIps [97] = none := by decide +kernel

/-! ## src/bytes.rs:91-126 and src/buffer.rs:208-451: sequences of calls on one buffer -/

/-- What a call of a test returned. -/
inductive Ret where
  | num (n : Nat)
  | bytes (l : List Byte)
  | error
  | panic
  deriving DecidableEq, Repr

/-- Calls made one after another; an error ends a call, not the test. -/
def calls : List (M Ret) → Buf → List Ret × Buf
  | [], b => ([], b)
  | m :: ms, b =>
    let r := match (m b).1 with
      | .ok a => a
      | .err _ => .error
      | _ => .panic
    let rest := calls ms (m b).2
    (r :: rest.1, rest.2)

/-- A call returning a number. -/
def askNum (m : M Nat) : M Ret := do
  let n ← m
  return .num n

/-- A call returning bytes. -/
def askBytes (m : M (List Byte)) : M Ret := do
  let l ← m
  return .bytes l

/-- `take_u8()`. -/
def askU8 : M Ret := do
  let x ← takeU8
  return .num x.toNat

/-- A call returning nothing. -/
def askUnit (m : M Unit) : M Ret := do
  m
  return .num 0

example : calls [askU8, askU8, askBytes remaining, askU8, askNum remainingLen, askNum getPos, askU8]
    (Buf.ofBytes [0x01, 0x02, 0x03])
    = ([.num 1, .num 2, .bytes [3], .num 3, .num 0, .num 3, .error], ⟨[1, 2, 3], 3⟩) := by decide +kernel
example : calls [askBytes (takeBytes 2), askBytes (takeBytes 2), askBytes remaining, askBytes (takeBytes 2),
      askBytes (takeBytes 1), askNum getPos] (Buf.ofBytes [1, 2, 3, 4, 5])
    = ([.bytes [1, 2], .bytes [3, 4], .bytes [5], .error, .bytes [5], .num 5], ⟨[1, 2, 3, 4, 5], 5⟩) := by
  decide +kernel
example : calls [askNum remainingLen, askNum (untakeScalar .u32 .be), askNum remainingLen] (Buf.ofBytes [1, 2, 3, 4, 5])
    = ([.num 5, .num 0x01020304, .num 5], ⟨[1, 2, 3, 4, 5], 0⟩) := by decide +kernel
example : calls [askUnit (takeBytesStarts [1, 2, 4]), askUnit (takeBytesStarts [1, 2, 3]), askNum remainingLen]
    (Buf.ofBytes [1, 2, 3, 4, 5]) = ([.error, .num 0, .num 2], ⟨[1, 2, 3, 4, 5], 3⟩) := by decide +kernel

-- src/buffer.rs:210-233
example : runIo [.read 5, .seek (.start 0), .write [82, 117, 115, 116], .seek (.fromEnd (-2)), .write [33]]
    (Buf.ofBytes [72, 101, 108, 108, 111, 44, 32, 119, 111, 114, 108, 100, 33])
    = (.ok [.bytes [72, 101, 108, 108, 111], .seek true, .wrote 4, .seek true, .wrote 1],
       ⟨[82, 117, 115, 116, 111, 44, 32, 119, 111, 114, 108, 33, 33], 12⟩) := by decide +kernel

-- src/buffer.rs:236-252
example : calls [askNum getPos, askUnit (advance 3), askNum getPos, askNum (takeScalar .u16 .be), askNum getPos, askU8]
    (Buf.ofBytes [1, 2, 3, 4, 5])
    = ([.num 0, .num 0, .num 3, .num 0x0405, .num 5, .error], ⟨[1, 2, 3, 4, 5], 5⟩) := by decide +kernel
example : calls [askNum getPos, askUnit (setPos 10), askU8, askNum (pushU8 1), askNum getPos]
    (Buf.reset ⟨[1, 2, 3, 4, 5], 5⟩)
    = ([.num 0, .num 0, .error, .num 1, .num 11], ⟨[1, 2, 3, 4, 5, 0, 0, 0, 0, 0, 1], 11⟩) := by decide +kernel

-- src/buffer.rs:254-263
example : calls [askU8, askU8, askBytes remaining, askU8, askU8, askNum getPos] (Buf.ofBytes [1, 2, 3])
    = ([.num 1, .num 2, .bytes [3], .num 3, .error, .num 3], ⟨[1, 2, 3], 3⟩) := by decide +kernel

/-- The calls of the tests of `take_u16` .. `take_uint`: default, big-endian, little-endian, the rest, one more
number, the last byte. -/
def threeNumbers (take : ByteOrder → M Nat) : List (M Ret) :=
  [askNum (take .be), askNum (take .be), askNum (take .le), askBytes remaining, askNum (take .be), askU8, askNum getPos]

/-- The input of those tests: 1, 2, 3 as big-endian numbers of `k` bytes and a last byte 4. -/
def threeData (k : Nat) : List Byte :=
  List.replicate (k - 1) 0 ++ [1] ++ List.replicate (k - 1) 0 ++ [2] ++ List.replicate (k - 1) 0 ++ [3] ++ [4]

-- src/buffer.rs:265-275
example : (calls (threeNumbers (takeScalar .u16)) (Buf.ofBytes (threeData 2))).1
    = [.num 1, .num 2, .num 0x0300, .bytes [4], .error, .num 4, .num 7] := by decide +kernel
-- src/buffer.rs:277-292
example : (calls (threeNumbers takeU24) (Buf.ofBytes (threeData 3))).1
    = [.num 1, .num 2, .num 0x030000, .bytes [4], .error, .num 4, .num 10] := by decide +kernel
-- src/buffer.rs:294-309
example : (calls (threeNumbers (takeScalar .u32)) (Buf.ofBytes (threeData 4))).1
    = [.num 1, .num 2, .num 0x03000000, .bytes [4], .error, .num 4, .num 13] := by decide +kernel
-- src/buffer.rs:311-326
example : (calls (threeNumbers (takeScalar .u64)) (Buf.ofBytes (threeData 8))).1
    = [.num 1, .num 2, .num 0x0300000000000000, .bytes [4], .error, .num 4, .num 25] := by decide +kernel
-- src/buffer.rs:328-343
example : (calls (threeNumbers (takeScalar .u128)) (Buf.ofBytes (threeData 16))).1
    = [.num 1, .num 2, .num 0x03000000000000000000000000000000, .bytes [4], .error, .num 4, .num 49] := by decide +kernel
-- src/buffer.rs:345-360
example : (calls (threeNumbers (takeUint 5)) (Buf.ofBytes (threeData 5))).1
    = [.num 1, .num 2, .num 0x0300000000, .bytes [4], .error, .num 4, .num 16] := by decide +kernel
-- src/buffer.rs:373-382
example : (calls [askBytes (takeArray 2), askBytes (takeArray 2), askBytes remaining, askBytes (takeArray 2),
      askBytes (takeArray 1), askNum getPos] (Buf.ofBytes [1, 2, 3, 4, 5])).1
    = [.bytes [1, 2], .bytes [3, 4], .bytes [5], .error, .bytes [5], .num 5] := by decide +kernel

-- src/buffer.rs:384-417
example : (calls ([pushU8 2, pushScalar .u16 3 .be, pushU24 4 .be, pushScalar .u32 5 .be, pushScalar .u64 6 .be,
      pushScalar .u128 7 .be, pushUint 1 3 .be, pushUint 1 3 .le, pushChar '1'.toNat, push [50, 51], push [52, 53],
      push [4, 5], push [6, 7], push [8, 9]].map askNum) Buf.new).2.data
    = [0x02, 0x00, 0x03, 0x00, 0x00, 0x04, 0x00, 0x00, 0x00, 0x05, 0x00, 0x00, 0x00, 0x00, 0x00, 0x00, 0x00, 0x06,
       0x00, 0x00, 0x00, 0x00, 0x00, 0x00, 0x00, 0x00, 0x00, 0x00, 0x00, 0x00, 0x00, 0x00, 0x00, 0x07,
       0x00, 0x00, 0x01, 0x01, 0x00, 0x00, 0x31, 0x32, 0x33, 0x34, 0x35, 0x04, 0x05, 0x06, 0x07, 0x08, 0x09] := by
  decide +kernel

-- src/buffer.rs:420-432
example : calls [askBytes (findSubsequence [3, 4]), askNum remainingLen] (Buf.ofBytes [1, 2, 3, 4, 5])
    = ([.bytes [1, 2], .num 1], ⟨[1, 2, 3, 4, 5], 4⟩) := by decide +kernel
example : calls [askBytes (findSubsequenceNeedle [3, 4] false), askNum remainingLen] (Buf.ofBytes [1, 2, 3, 4, 5])
    = ([.bytes [1, 2], .num 3], ⟨[1, 2, 3, 4, 5], 2⟩) := by decide +kernel
example : calls [askBytes (findSubsequenceNeedle [3, 4] true), askNum remainingLen] (Buf.ofBytes [1, 2, 3, 4, 5])
    = ([.bytes [1, 2, 3, 4], .num 1], ⟨[1, 2, 3, 4, 5], 4⟩) := by decide +kernel

-- src/buffer.rs:435-451
example : calls [askBytes (findSubsequences [[3, 4], [4, 5]]), askNum remainingLen] (Buf.ofBytes [1, 2, 3, 4, 5])
    = ([.bytes [1, 2], .num 1], ⟨[1, 2, 3, 4, 5], 4⟩) := by decide +kernel
example : calls [askBytes (findSubsequences [[4, 4], [4, 5]]), askNum remainingLen] (Buf.ofBytes [1, 2, 3, 4, 5])
    = ([.bytes [1, 2, 3], .num 0], ⟨[1, 2, 3, 4, 5], 5⟩) := by decide +kernel
example : calls [askBytes (findSubsequencesNeedle [[3, 4], [4, 5]] false), askNum remainingLen]
    (Buf.ofBytes [1, 2, 3, 4, 5]) = ([.bytes [1, 2], .num 3], ⟨[1, 2, 3, 4, 5], 2⟩) := by decide +kernel
example : calls [askBytes (findSubsequencesNeedle [[3, 4], [4, 5]] true), askNum remainingLen]
    (Buf.ofBytes [1, 2, 3, 4, 5]) = ([.bytes [1, 2, 3, 4], .num 1], ⟨[1, 2, 3, 4, 5], 4⟩) := by decide +kernel

/-! ## src/impls.rs:66-74: reading from `&mut &[u8]` -/

example : sliceImpl.takeScalar .u16 .be [0x01, 0x02, 0x03, 0x04] = (.ok 0x0102, [0x03, 0x04]) := by decide +kernel
example : sliceImpl.takeScalar .u16 .be [0x03, 0x04] = (.ok 0x0304, []) := by decide +kernel
example : ∃ e, sliceImpl.takeScalar .u16 .be [] = (.err e, []) := ⟨⟨0, .invalidByteLength⟩, by decide +kernel⟩

end JBytes
