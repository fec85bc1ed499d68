import Verif.Vectors
import Verif.CodecAddr
import Verif.Default
import Verif.AttrText
/-!
# Test vectors of the crate: derived types

The assertions of the integration tests in /repo/tests and of the programs in /repo/examples, restated about the
model of the derive macros and evaluated.  As in `Verif.Vectors` they test the model against expectations written
by the authors of the crate; no property rests on them.  Not restated: the programs that print or use sockets.
-/

namespace JBytes
open M

/-- One type for all field values.  A struct, a tuple, a vector and a set are chains of `cons`. -/
inductive TV where
  | num (n : Nat)
  | text (b : List Byte)
  | nil
  | cons (a b : TV)
  | variant (i : Nat) (fields : TV)
  | absent
  deriving DecidableEq, Repr

namespace TV

/-- A sequence of values as one value. -/
def list : List TV → TV
  | [] => nil
  | a :: as => cons a (list as)

/-- The values of a sequence. -/
def items : TV → List TV
  | cons a b => a :: items b
  | _ => []

/-- The number. -/
def toNat : TV → Nat
  | num n => n
  | _ => 0

/-- The bytes. -/
def toText : TV → List Byte
  | text b => b
  | _ => []

end TV

/-- A field type: its codec and its `Default`. -/
structure Ty where
  dec : Dec TV
  enc : Enc TV
  dflt : TV := .num 0

/-- The field type with values read through `f` and written through `g`. -/
def Ty.via {α : Type} (d : Dec α) (e : Enc α) (f : α → TV) (g : TV → α) (dflt : TV := .num 0) : Ty where
  dec ca fa := do
    let v ← d ca fa
    return f v
  enc v ca fa := e (g v) ca fa
  dflt := dflt

/-- Integer types. -/
def tInt (k : IntKind) : Ty := .via (decInt k) (encInt k) .num TV.toNat
/-- `u8`. -/
def tU8 : Ty := tInt ⟨1, false⟩
/-- `u16`. -/
def tU16 : Ty := tInt ⟨2, false⟩
/-- `u32`. -/
def tU32 : Ty := tInt ⟨4, false⟩
/-- `u64` and `usize`. -/
def tU64 : Ty := tInt ⟨8, false⟩
/-- `u128`. -/
def tU128 : Ty := tInt ⟨16, false⟩
/-- `bool`. -/
def tBool : Ty := .via decBool encBool (fun b => .num b.toNat) (fun v => v.toNat != 0)
/-- `String` and `&str`. -/
def tStr : Ty := .via decStr encBytes .text TV.toText (.text [])
/-- `&[u8]`. -/
def tBytes : Ty := .via decBytes encBytes .text TV.toText (.text [])
/-- `MacAddress`. -/
def tMac : Ty := .via decMac encMac .text TV.toText
/-- `Ipv4Addr`. -/
def tIpv4 : Ty := .via decIpv4 encIp .text TV.toText
/-- `PhantomData`. -/
def tMark : Ty := .via decUnit encUnit (fun _ => .nil) (fun _ => ()) .nil
/-- `Vec<T>`. -/
def tVec (t : Ty) : Ty := .via (decVec 40 t.dec) (encVec t.enc) TV.list TV.items .nil
/-- `[T; n]`. -/
def tArr (n : Nat) (t : Ty) : Ty := .via (decArray n t.dec) (encArray t.enc) TV.list TV.items
/-- Tuples. -/
def tTup (ts : List Ty) : Ty := .via (decTuple (ts.map (·.dec))) (encTuple (ts.map (·.enc))) TV.list TV.items
/-- `Option<T>`. -/
def tOpt (t : Ty) : Ty :=
  .via (decOption t.dec) (encOption t.enc) (fun o => o.getD .absent) (fun v => if v = .absent then none else some v)
    .absent
/-- `HashMap<K, V>`, with its entries in the order of the list. -/
def tMap (k v : Ty) : Ty :=
  .via (decMap k.dec v.dec) (encMap k.enc v.enc) (fun l => .list (l.map fun e => .cons e.1 e.2))
    (fun t => t.items.map fun e => match e with
      | .cons a b => (a, b)
      | _ => (.nil, .nil)) .nil
/-- `HashSet<T>`. -/
def tSet (t : Ty) : Ty := .via (decSet t.dec) (encVec t.enc) TV.list TV.items .nil

/-- A field of a derived type without `#[jbytes(..)]`. -/
def Ty.plain (t : Ty) : Field TV := { attrs := {}, dec := t.dec, enc := t.enc, dflt := t.dflt, noneV := .absent }
/-- A field of a derived type with `#[jbytes(..)]`. -/
def Ty.mod (t : Ty) (a : FieldAttrs TV) : Field TV := { t.plain with attrs := { a with isUse := true } }

/-- A derived struct as a field type. -/
def tStruct (S : StructDef TV) : Ty := .via (decStruct S) (encStruct S) TV.list TV.items
/-- A derived enum as a field type. -/
def tEnum (E : EnumDef TV) : Ty :=
  .via (decEnum E) (encEnum E) (fun x => .variant x.1 (.list x.2)) (fun v => match v with
    | .variant i l => (i, l.items)
    | _ => (0, []))

/-- A struct without container attributes. -/
def struct (fs : List (Field TV)) : Ty := tStruct { fields := fs }
/-- An enum without container attributes. -/
def enum (vs : List (Variant TV)) : Ty := tEnum { variants := vs }

/-- The number in field `i` of the value decoded so far. -/
def Env.at (e : Env TV) (i : Nat) : Nat := (e.fields.getD i .nil).toNat

/-- `T::decode(&bytes).unwrap() == v` and `bytes.remaining_len() == r`. -/
def Ty.gives (t : Ty) (data : List Byte) (v : TV) (r : Nat) : Bool := JBytes.gives t.dec data v r
/-- `T::decode(&bytes).is_err()` and `bytes.remaining_len() == r`. -/
def Ty.refuses (t : Ty) (data : List Byte) (r : Nat) : Bool := JBytes.refuses t.dec data r
/-- `*jbytes::encode(v).unwrap() == out`. -/
def Ty.sends (t : Ty) (v : TV) (out : List Byte) : Bool :=
  match encodeTop t.enc v with
  | .ok b => b.data = out
  | _ => false
/-- Decoding `data` gives `v` and leaves nothing; encoding `v` gives `data`. -/
def Ty.both (t : Ty) (data : List Byte) (v : TV) : Bool := t.gives data v 0 && t.sends v data

/-- The value of a struct. -/
def rec (l : List TV) : TV := .list l
/-- The value of a variant. -/
def var (i : Nat) (l : List TV := []) : TV := .variant i (.list l)
/-- A number. -/
instance (n : Nat) : OfNat TV n := ⟨.num n⟩
/-- A text. -/
def txt (b : List Byte) : TV := .text b

/-! ## tests/test_modifier_bits.rs -/

def exBits : Ty := struct
  [tU8.mod { bits := some fun _ => 0xf0, bitsStart := true, untake := true }, tU8.mod { bits := some fun _ => 0x0f }]
example : exBits.both [18] (rec [0x01, 0x02]) := by decide +kernel

def exBits2 : Ty := struct
  [tU16.mod { bits := some fun _ => 0xf000, bitsStart := true, untake := true },
   tU16.mod { bits := some fun _ => 0x0f00, untake := true }, tU16.mod { bits := some fun _ => 0x00ff }]
example : exBits2.both [18, 52] (rec [0x01, 0x02, 0x34]) := by decide +kernel

def exBits3 : Ty := enum
  [{ branchValue := some (.num 1)
     fields := [tU8.mod { bits := some fun _ => 0xf0, bitsStart := true, untake := true },
       tU8.mod { bits := some fun _ => 0x0f }] }, { branchDefault := true }]
example : exBits3.both [1, 18] (var 0 [0x01, 0x02]) := by decide +kernel

/-! ## tests/test_modifier_branch.rs, test_modifier_branch_value.rs -/

def exBranchBody (at2 : Option Tag) : Ty := enum
  [{ branchValue := some (.num 1) }, { tuple := true, fields := [tU8.plain] },
   { branchValue := at2, tuple := true, fields := [tU8.plain, tU16.plain] },
   { tuple := true, fields := [(tTup [tU8, tU16]).plain] }, { fields := [tU8.plain, tU16.plain] },
   { branchDefault := true }]
def exBranch (body : Ty) : Ty := struct [tU16.plain, body.mod { branch := some fun e => e.at 0 }]

example : (exBranch (exBranchBody none)).both [0, 1] (rec [1, var 0]) := by decide +kernel
example : (exBranch (exBranchBody none)).both [0, 2, 1] (rec [2, var 1 [1]]) := by decide +kernel
example : (exBranch (exBranchBody none)).both [0, 3, 1, 0, 2] (rec [3, var 2 [1, 2]]) := by decide +kernel
example : (exBranch (exBranchBody none)).both [0, 4, 1, 0, 2] (rec [4, var 3 [rec [1, 2]]]) := by decide +kernel
example : (exBranch (exBranchBody none)).both [0, 5, 1, 0, 2] (rec [5, var 4 [1, 2]]) := by decide +kernel
example : (exBranch (exBranchBody none)).both [0, 6] (rec [6, var 5]) := by decide +kernel
example : (exBranch (exBranchBody none)).both [0, 0x1f] (rec [0x1f, var 5]) := by decide +kernel

example : (exBranch (exBranchBody (some (.num 5)))).both [0, 1] (rec [1, var 0]) := by decide +kernel
example : (exBranch (exBranchBody (some (.num 5)))).both [0, 2, 1] (rec [2, var 1 [1]]) := by decide +kernel
example : (exBranch (exBranchBody (some (.num 5)))).both [0, 5, 1, 0, 2] (rec [5, var 2 [1, 2]]) := by decide +kernel
example : (exBranch (exBranchBody (some (.num 5)))).both [0, 6, 1, 0, 2] (rec [6, var 3 [rec [1, 2]]]) := by
  decide +kernel
example : (exBranch (exBranchBody (some (.num 5)))).both [0, 7, 1, 0, 2] (rec [7, var 4 [1, 2]]) := by decide +kernel
example : (exBranch (exBranchBody (some (.num 5)))).both [0, 8] (rec [8, var 5]) := by decide +kernel
example : (exBranch (exBranchBody (some (.num 5)))).both [0, 0x1f] (rec [0x1f, var 5]) := by decide +kernel

/-! ## tests/test_modifier_branch_bits.rs -/

def exBranchBits : Ty := exBranch (enum
  [{ branchBits := some (1, none) }, { branchBits := some (2, none), fields := [tU8.plain, tU16.plain] },
   { branchDefault := true }])
example : exBranchBits.both [0, 1] (rec [1, var 0]) := by decide +kernel
example : exBranchBits.both [0, 2, 1, 0, 2] (rec [2, var 1 [1, 2]]) := by decide +kernel
example : exBranchBits.both [0, 3] (rec [3, var 0]) := by decide +kernel
example : exBranchBits.both [0, 0x0a, 1, 0, 2] (rec [0x0a, var 1 [1, 2]]) := by decide +kernel
example : exBranchBits.both [0, 0x50] (rec [0x50, var 2]) := by decide +kernel
example : exBranchBits.both [0, 0xf0] (rec [0xf0, var 2]) := by decide +kernel

/-! ## tests/test_modifier_branch_default.rs -/

def exBranchDefault : Ty := exBranch (enum [{ branchValue := some (.num 1) }, { branchDefault := true }])
example : exBranchDefault.both [0, 1] (rec [1, var 0]) := by decide +kernel
example : exBranchDefault.both [0, 2] (rec [2, var 1]) := by decide +kernel
example : exBranchDefault.both [0, 0x1f] (rec [0x1f, var 1]) := by decide +kernel

def exBranchDefault2 : Ty := exBranch (enum [{ branchValue := some (.num 1) }, {}])
example : exBranchDefault2.both [0, 1] (rec [1, var 0]) := by decide +kernel
example : exBranchDefault2.both [0, 2] (rec [2, var 1]) := by decide +kernel
example : exBranchDefault2.refuses [0, 3] 0 := by decide +kernel

/-! ## tests/test_modifier_branch_range.rs -/

def exBranchRange : Ty := exBranch (enum
  [{ branchRange := some (1, 3, true) }, { fields := [tU8.plain, tU16.plain] }, { branchDefault := true }])
example : exBranchRange.both [0, 1] (rec [1, var 0]) := by decide +kernel
example : exBranchRange.both [0, 2] (rec [2, var 0]) := by decide +kernel
example : exBranchRange.both [0, 3] (rec [3, var 0]) := by decide +kernel
example : exBranchRange.both [0, 4, 1, 0, 2] (rec [4, var 1 [1, 2]]) := by decide +kernel
example : exBranchRange.both [0, 5] (rec [5, var 2]) := by decide +kernel
example : exBranchRange.both [0, 0x1f] (rec [0x1f, var 2]) := by decide +kernel

/-! ## tests/test_modifier_bytecount.rs, test_modifier_bytecount_disable.rs, test_modifier_bytecount_outside.rs -/

/-- An enum with one real variant, of branch value 1, and a default. -/
def oneOf (fs : List (Field TV)) : Ty := enum [{ branchValue := some (.num 1), fields := fs }, { branchDefault := true }]

def exByteCount : List (Field TV) := [tStr.mod { byteCount := some fun _ => 2 }]
example : (struct exByteCount).both [0, 3, 49, 50, 51] (rec [txt [49, 50, 51]]) := by decide +kernel
example : (oneOf exByteCount).both [1, 0, 3, 49, 50, 51] (var 0 [txt [49, 50, 51]]) := by decide +kernel

def exDisable : Ty := tEnum
  { byteCountDisable := true, variants := [{ fields := [tU8.plain] }, { fields := [tU8.plain, tU16.plain] }] }
example : exDisable.sends (var 0 [1]) [1] := by decide +kernel

def threeTexts : List Byte := [0x00, 0x02, 0x31, 0x32, 0x00, 0x03, 0x33, 0x34, 0x35, 0x00, 0x04, 0x36, 0x37, 0x38, 0x39]
def threeTextsValue : TV := rec [txt [49, 50], txt [51, 52, 53], txt [54, 55, 56, 57]]

def exOutside : List (Field TV) :=
  [(tVec tStr).mod { byteCountOutside := some fun _ => 2, byteCount := some fun _ => 2 }]
example : (struct exOutside).both ([0x00, 0x03] ++ threeTexts) (rec [threeTextsValue]) := by decide +kernel
example : (oneOf exOutside).both ([0x01, 0x00, 0x03] ++ threeTexts) (var 0 [threeTextsValue]) := by decide +kernel

/-! ## tests/test_modifier_byteorder.rs -/

def exOrder1 : List (Field TV) := [tU16.plain, tU16.mod { byteorder := some (.lit .le) }]
example : (struct exOrder1).both [0, 1, 0, 2] (rec [0x0001, 0x0200]) := by decide +kernel
example : (oneOf exOrder1).both [1, 0, 1, 0, 2] (var 0 [0x0001, 0x0200]) := by decide +kernel

def exOrder2 : Ty := tStruct { container := some { byteorder := some .le }, fields := [tU16.plain, tU16.plain] }
example : exOrder2.both [0, 1, 0, 2] (rec [0x0100, 0x0200]) := by decide +kernel

def exOrder3 : Ty := struct [tU8.plain, tU16.mod { byteorder := some (.expr fun e => e.at 0) }]
example : exOrder3.both [1, 0, 2] (rec [1, 0x0200]) := by decide +kernel

/-! ## tests/test_modifier_check_value.rs -/

/-- The error and the remaining length. -/
def Ty.errs (t : Ty) (data : List Byte) : Option (JErr × Nat) :=
  match t.dec none none (Buf.ofBytes data) with
  | (.err e, b) => some (e, data.length - b.pos)
  | _ => none

def exCheck : List (Field TV) :=
  [tU16.mod { checkValue := some fun _ v => v == .num 2 }, tU16.mod { byteorder := some (.lit .le) }]
example : (struct exCheck).errs [0, 1, 0, 2] = some (⟨2, .invalidValue⟩, 2) := by decide +kernel
example : (oneOf exCheck).errs [1, 0, 1, 0, 2] = some (⟨3, .invalidValue⟩, 2) := by decide +kernel

/-! ## tests/test_modifier_count.rs, test_modifier_try_count.rs -/

def exCount : List (Field TV) := [(tVec tStr).mod { count := some fun _ => 3, byteCount := some fun _ => 2 }]
example : (struct exCount).both threeTexts (rec [threeTextsValue]) := by decide +kernel
example : (oneOf exCount).both (0x01 :: threeTexts) (var 0 [threeTextsValue]) := by decide +kernel

def exTryCount : List (Field TV) := [(tVec tStr).mod { tryCount := some fun _ => 10, byteCount := some fun _ => 2 }]
example : (struct exTryCount).both threeTexts (rec [threeTextsValue]) := by decide +kernel
example : (oneOf exTryCount).both (0x01 :: threeTexts) (var 0 [threeTextsValue]) := by decide +kernel

/-! ## tests/test_modifier_default.rs, examples/default_value_example.rs -/

def exDefaultBody : Ty := enum
  [{ branchValue := some (.num 1), fields := [tU8.plain] }, { fields := [tU8.plain, (tArr 3 tU8).plain] },
   { branchDefault := true, fields := [tU8.plain] }]
def exDefault : Ty := struct
  [tStr.mod { byteCount := some fun _ => 1 }, exDefaultBody.mod { byteCount := some fun _ => 1 }]
example : exDefault.both [3, 49, 50, 51, 3, 10] (rec [txt [49, 50, 51], var 2 [10]]) := by decide +kernel

/-! ## tests/test_modifier_from_str.rs, examples/packet_http_example_2.rs, packet_http_example_3.rs -/

/-- The names which `JkcEnum` gives the variants of `HttpMethodEnum`. -/
def httpNames : List (List Byte) :=
  [[71, 69, 84], [80, 79, 83, 84], [72, 69, 65, 68], [80, 85, 84], [68, 69, 76, 69, 84, 69], [67, 79, 78, 78, 69, 67, 84], [79, 80, 84, 73, 79, 78, 83], [84, 82, 65, 67, 69], [80, 65, 84, 67, 72]]
def httpMethod : Ty := tEnum { byteCountDisable := true, variants := httpNames.map fun _ => {} }
def httpParse (s : List Byte) : Option TV :=
  if s ∈ httpNames then some (var (httpNames.idxOf s)) else none
def httpShow : TV → List Byte
  | .variant i _ => httpNames.getD i []
  | _ => []
def httpHeader : Ty := struct [tStr.mod { linend := some [58, 32] }, tStr.mod { linend := some [13, 10] }]
def httpHeaders : Field TV := (tVec httpHeader).mod { tryCount := some fun _ => 20 }
def exHttp3 : Ty := struct
  [httpMethod.mod { linend := some [32], fromStr := some (httpParse, httpShow) },
   tStr.mod { linend := some [32] }, tStr.mod { linend := some [13, 10] }, httpHeaders]
def exHttp2 : Ty := struct
  [tStr.mod { linend := some [32] }, tStr.mod { linend := some [32] }, tStr.mod { linend := some [13, 10] },
   httpHeaders]
def httpData : List Byte :=
  [71, 69, 84, 32, 104, 116, 116, 112, 58, 47, 47, 119, 119, 119, 46, 106, 97, 110, 107, 105, 110, 99, 97, 105, 46, 99, 111, 109, 47, 32, 72, 84, 84, 80, 47, 49, 46, 49, 13, 10, 72, 111, 115, 116, 58, 32, 119, 119, 119, 46, 106, 97, 110, 107, 105, 110, 99, 97, 105, 46, 99, 111, 109, 13, 10, 65, 99, 99, 101, 112, 116, 45, 69, 110, 99, 111, 100, 105, 110, 103, 58, 32, 103, 122, 105, 112, 44, 32, 100, 101, 102, 108, 97, 116, 101, 13, 10]
def httpBad : List Byte :=
  [83, 69, 84, 32, 104, 116, 116, 112, 58, 47, 47, 119, 119, 119, 46, 106, 97, 110, 107, 105, 110, 99, 97, 105, 46, 99, 111, 109, 47, 32, 72, 84, 84, 80, 47, 49, 46, 49, 13, 10, 72, 111, 115, 116, 58, 32, 119, 119, 119, 46, 106, 97, 110, 107, 105, 110, 99, 97, 105, 46, 99, 111, 109, 13, 10, 65, 99, 99, 101, 112, 116, 45, 69, 110, 99, 111, 100, 105, 110, 103, 58, 32, 103, 122, 105, 112, 44, 32, 100, 101, 102, 108, 97, 116, 101, 13, 10]
def httpValue (m : TV) : TV :=
  rec [m, txt [104, 116, 116, 112, 58, 47, 47, 119, 119, 119, 46, 106, 97, 110, 107, 105, 110, 99, 97, 105, 46, 99, 111, 109, 47], txt [72, 84, 84, 80, 47, 49, 46, 49],
    rec [rec [txt [72, 111, 115, 116], txt [119, 119, 119, 46, 106, 97, 110, 107, 105, 110, 99, 97, 105, 46, 99, 111, 109]], rec [txt [65, 99, 99, 101, 112, 116, 45, 69, 110, 99, 111, 100, 105, 110, 103], txt [103, 122, 105, 112, 44, 32, 100, 101, 102, 108, 97, 116, 101]]]]
example : exHttp3.both httpData (httpValue (var 0)) := by decide +kernel
example : (exHttp3.errs httpBad).isSome := by decide +kernel
example : exHttp2.both httpData (httpValue (txt [71, 69, 84])) := by decide +kernel

/-! ## tests/test_modifier_full.rs, test_modifier_offset.rs -/

def exOffset1 (x : Byte) : List (Field TV) := [tU8.mod { offset := some fun _ => 2, full := x }, tU16.plain]
def exOffset2 (x : Byte) : List (Field TV) := [tU8.plain, tU16.mod { offset := some fun e => e.at 0, full := x }]
def exOffset3 (x : Byte) : List (Field TV) := [tU8.plain, tU16.mod { offset := some fun e => e.at 0 - 1, full := x }]

example : (struct (exOffset1 0xff)).gives [0x00, 0x00, 0x01, 0x00, 0x02] (rec [1, 2]) 0 := by decide +kernel
example : (struct (exOffset1 0xff)).sends (rec [1, 2]) [0xff, 0xff, 0x01, 0x00, 0x02] := by decide +kernel
example : (struct (exOffset2 0xff)).gives [0x02, 0x00, 0x00, 0x00, 0x01] (rec [2, 1]) 0 := by decide +kernel
example : (struct (exOffset2 0xff)).sends (rec [2, 1]) [0x02, 0xff, 0xff, 0x00, 0x01] := by decide +kernel
example : (struct (exOffset3 0xff)).gives [0x02, 0x00, 0x00, 0x01] (rec [2, 1]) 0 := by decide +kernel
example : (struct (exOffset3 0xff)).sends (rec [2, 1]) [0x02, 0xff, 0x00, 0x01] := by decide +kernel
example : (oneOf (exOffset1 0xff)).gives [0x01, 0x00, 0x00, 0x02, 0x00, 0x01] (var 0 [2, 1]) 0 := by decide +kernel
example : (oneOf (exOffset1 0xff)).sends (var 0 [2, 1]) [0x01, 0xff, 0xff, 0x02, 0x00, 0x01] := by decide +kernel
example : (oneOf (exOffset2 0xff)).gives [0x01, 0x02, 0x00, 0x00, 0x00, 0x01] (var 0 [2, 1]) 0 := by decide +kernel
example : (oneOf (exOffset2 0xff)).sends (var 0 [2, 1]) [0x01, 0x02, 0xff, 0xff, 0x00, 0x01] := by decide +kernel
example : (struct (exOffset1 0)).both [0x00, 0x00, 0x01, 0x00, 0x02] (rec [1, 2]) := by decide +kernel
example : (struct (exOffset2 0)).both [0x02, 0x00, 0x00, 0x00, 0x01] (rec [2, 1]) := by decide +kernel
example : (struct (exOffset3 0)).both [0x02, 0x00, 0x00, 0x01] (rec [2, 1]) := by decide +kernel
example : (oneOf (exOffset1 0)).both [0x01, 0x00, 0x00, 0x02, 0x00, 0x01] (var 0 [2, 1]) := by decide +kernel
example : (oneOf (exOffset2 0)).both [0x01, 0x02, 0x00, 0x00, 0x00, 0x01] (var 0 [2, 1]) := by decide +kernel

/-! ## tests/test_modifier_if_expr.rs -/

def exIf : List (Field TV) := [tBool.plain, (tOpt tU16).mod { ifExpr := some fun e => e.at 0 != 0 }]
example : (struct exIf).both [0] (rec [0, .absent]) := by decide +kernel
example : (struct exIf).both [1, 0, 0x31] (rec [1, 0x31]) := by decide +kernel
example : (oneOf exIf).both [1, 0] (var 0 [0, .absent]) := by decide +kernel
example : (oneOf exIf).both [1, 1, 0, 0x31] (var 0 [1, 0x31]) := by decide +kernel

/-! ## tests/test_modifier_key.rs -/

def exKey : List (Field TV) :=
  [tStr.mod { key := some [86, 101, 114, 115, 105, 111, 110, 58, 32], linend := some [13, 10] }, tStr.mod { key := some [72, 111, 115, 116, 58, 32], linend := some [13, 10] }]
def keyData : List Byte := [67, 111, 111, 107, 105, 101, 58, 32, 115, 115, 115, 115, 115, 13, 10, 86, 101, 114, 115, 105, 111, 110, 58, 32, 49, 46, 48, 46, 48, 13, 10, 72, 101, 97, 100, 101, 114, 58, 32, 106, 107, 99, 13, 10, 72, 111, 115, 116, 58, 32, 49, 57, 50, 46, 49, 54, 56, 46, 49, 46, 49, 13, 10, 79, 116, 104, 101, 114, 58, 32, 106, 107, 99, 13, 10]
example : (struct exKey).gives keyData (rec [txt [49, 46, 48, 46, 48], txt [49, 57, 50, 46, 49, 54, 56, 46, 49, 46, 49]]) 12
    ∧ [79, 116, 104, 101, 114, 58, 32, 106, 107, 99, 13, 10] <:+ keyData := by decide +kernel
example : (struct exKey).sends (rec [txt [49, 46, 48, 46, 48], txt [49, 57, 50, 46, 49, 54, 56, 46, 49, 46, 49]]) [86, 101, 114, 115, 105, 111, 110, 58, 32, 49, 46, 48, 46, 48, 13, 10, 72, 111, 115, 116, 58, 32, 49, 57, 50, 46, 49, 54, 56, 46, 49, 46, 49, 13, 10] := by
  decide +kernel
example : (oneOf exKey).gives (0x01 :: keyData) (var 0 [txt [49, 46, 48, 46, 48], txt [49, 57, 50, 46, 49, 54, 56, 46, 49, 46, 49]]) 12 := by decide +kernel
example : (oneOf exKey).sends (var 0 [txt [49, 46, 48, 46, 48], txt [49, 57, 50, 46, 49, 54, 56, 46, 49, 46, 49]])
    [1, 86, 101, 114, 115, 105, 111, 110, 58, 32, 49, 46, 48, 46, 48, 13, 10, 72, 111, 115, 116, 58, 32, 49, 57, 50, 46, 49, 54, 56, 46, 49, 46, 49, 13, 10] := by decide +kernel

/-! ## tests/test_modifier_length.rs -/

def exLength1 : Ty := struct
  [tU32.mod { length := some fun _ => 3 }, tBytes.mod { length := some fun _ => 1 },
   (tVec tU32).mod { count := some fun _ => 1, length := some fun _ => 3 }, tStr.mod { length := some fun _ => 3 },
   tStr.mod { length := some fun _ => 4 }]
example : exLength1.both [0x00, 0x00, 0x01, 0xff, 0x00, 0x00, 0x02, 0x61, 0x62, 0x63, 0x61, 0x62, 0x63, 0x64]
    (rec [1, txt [0xff], rec [2], txt [97, 98, 99], txt [97, 98, 99, 100]]) := by decide +kernel

def exLength2 : List (Field TV) :=
  [tU8.plain, tStr.mod { length := some fun e => e.at 0 }, tStr.mod { length := some fun e => e.at 0 - 1 }]
example : (struct exLength2).both [0x03, 0x61, 0x62, 0x63, 0x61, 0x62] (rec [3, txt [97, 98, 99], txt [97, 98]]) := by
  decide +kernel
example : (oneOf exLength2).both [0x01, 0x03, 0x61, 0x62, 0x63, 0x61, 0x62] (var 0 [3, txt [97, 98, 99], txt [97, 98]]) := by
  decide +kernel

/-! ## tests/test_modifier_loop_skip_starts.rs -/

def exLoop : List (Field TV) := [tU8.plain, (tVec tU8).mod { loopSkipStarts := some [0xff] }, tU8.plain]
example : (struct exLoop).both [1, 255, 0, 255, 1, 255, 2, 5] (rec [1, rec [0, 1, 2], 5]) := by decide +kernel
example : (oneOf exLoop).both [1, 1, 255, 0, 255, 1, 255, 2, 5] (var 0 [1, rec [0, 1, 2], 5]) := by
  decide +kernel

def exLoop3 : Ty := enum
  [{ branchValue := some (.num 1), tuple := true, fields := [(tVec tU8).mod { loopSkipStarts := some [0xff] }] },
   { branchDefault := true }]
example : exLoop3.both [1, 255, 0, 255, 1, 255, 2] (var 0 [rec [0, 1, 2]]) := by decide +kernel

/-! ## tests/test_modifier_remaining.rs -/

def exRemaining : List (Field TV) := [tU16.plain, tBytes.mod { remaining := true }]
example : (struct exRemaining).both [0, 1, 49, 50, 51, 52, 53] (rec [1, txt [49, 50, 51, 52, 53]]) := by decide +kernel
example : (oneOf exRemaining).both [1, 0, 1, 49, 50, 51, 52, 53] (var 0 [1, txt [49, 50, 51, 52, 53]]) := by decide +kernel

/-! ## tests/test_modifier_skip.rs -/

def exSkip : List (Field TV) := [tU16.mod { skip := true }, tU16.plain]
def exSkip2 : List (Field TV) := [tU16.mod { skipEncode := true, skipDecode := true }, tU16.plain]
example : (struct exSkip).both [0, 1] (rec [0, 1]) := by decide +kernel
example : (struct exSkip2).both [0, 1] (rec [0, 1]) := by decide +kernel
example : (oneOf exSkip).both [1, 0, 1] (var 0 [0, 1]) := by decide +kernel

/-! ## tests/test_modifier_untake.rs -/

def exUntakeBody : Ty := enum
  [{ branchValue := some (.num 0), fields := [tU8.mod { untake := true }, tU16.plain] }, { branchDefault := true }]
def exUntake : Ty := struct [tU8.mod { untake := true }, tU16.plain, exUntakeBody.mod { branch := some fun e => e.at 0 }]
example : exUntake.both [0, 1, 0, 1] (rec [0, 1, var 0 [0, 1]]) := by decide +kernel

/-! ## tests/test_modifier_value.rs -/

def exValue : Ty := struct
  [tU8.mod { valueDecode := some fun _ v => .num (v.toNat * 2), valueEncode := some fun _ v => .num (v.toNat / 2) }]
example : exValue.both [1] (rec [2]) := by decide +kernel

/-! ## tests/test_modifier_variable_name.rs -/

def exVarFields : List (Field TV) := [tStr.mod { length := some fun e => e.var "length" }]
def exVarBody : Ty := tStruct { getVars := ["length"], fields := exVarFields }
def exVarEnum : Ty := tEnum
  { getVars := ["length"]
    variants := [{ branchValue := some (.num 1), fields := exVarFields }, { fields := exVarFields },
      { branchDefault := true }] }
def exVar : Ty := struct
  [tU8.plain, tU8.mod { variableName := some [("length", fun e => e.at 1)] }, exVarBody.plain,
   exVarEnum.mod { branch := some fun e => e.at 0 }]
example : exVar.both [1, 2, 97, 98, 99, 100] (rec [1, 2, rec [txt [97, 98]], var 0 [txt [99, 100]]]) := by decide +kernel

/-! ## tests/test_modifier_with.rs, test_modifier_with_1.rs, test_modifier_with2.rs, test_modifier_with2_1.rs,
test_modifier_with_args.rs -/

def withDec : M TV := do
  let k ← takeBytes 3
  if k = [103, 101, 116] then return 1 else if k = [112, 117, 116] then return 2 else fail .fail
def withEnc (v : TV) : M Nat :=
  if v = 1 then push [103, 101, 116] else if v = 2 then push [112, 117, 116] else return 0
def exWith : Ty := struct
  [tU8.mod { withDecode := some fun _ _ _ => withDec, withEncode := some fun _ v _ _ => withEnc v }, tU32.plain]
example : exWith.both [103, 101, 116, 0, 0, 0, 1] (rec [1, 1]) := by decide +kernel

def exWith2 : Ty := tStruct
  { fields := [tU8.plain, tU32.plain]
    withDecode := some fun _ _ => do
      let k ← withDec
      let v ← takeScalar .u32 .be
      return [k, .num v]
    withEncode := some fun l _ _ => do
      let n ← withEnc (l.getD 0 .nil)
      let m ← pushScalar .u32 (l.getD 1 .nil).toNat .be
      return n + m }
example : exWith2.both [103, 101, 116, 0, 0, 0, 1] (rec [1, 1]) := by decide +kernel

def exWithArgs : Ty := struct
  [tU8.plain, tU32.mod
    { withDecode := some fun e _ _ => do
        let n ← takeUint (e.at 0) .be
        return .num (n % 2 ^ 32)
      withEncode := some fun e v _ _ => pushUint v.toNat (e.at 0) .be }]
example : exWithArgs.both [3, 0, 0, 1] (rec [3, 1]) := by decide +kernel

/-! ## tests/test_type_enum.rs -/

def exRepr : Ty := tEnum
  { container := some { byteCount := some 2 }
    variants := [{ fields := [tU8.plain] }, { fields := [tU8.plain, tU16.plain] }] }
example : exRepr.both [0, 0, 1] (var 0 [1]) := by decide +kernel
def exRepr2 : Ty := tEnum
  { container := some { byteCount := some 1 }
    variants := [{ disc := some 1, fields := [tU8.plain] }, { fields := [tU8.plain, tU16.plain] }] }
example : exRepr2.both [1, 1] (var 0 [1]) := by decide +kernel
def exRepr3 : Ty := tEnum
  { container := some { byteCount := some 1 }
    variants := [{ disc := some 1, fields := [tU8.plain] }, { fields := [tU8.plain, tU16.plain] },
      { branchDefault := true }] }
example : exRepr3.gives [5] (var 2) 0 := by decide +kernel

/-! ## tests/test_type_enum_match_bytes.rs -/

def exTake : Ty := tEnum
  { mode := .takeBytes 3
    variants := [{ name := [114, 101, 97, 100], branchValue := some (.bytes [103, 101, 116]), fields := [tU8.plain] },
      { name := [119, 114, 105, 116, 101], branchValue := some (.bytes [115, 101, 116]), fields := [tU8.plain, tU16.plain] },
      { name := [117, 110, 107, 110, 111, 119, 110], branchDefault := true }] }
example : exTake.both [103, 101, 116, 1] (var 0 [1]) := by decide +kernel
example : exTake.both [115, 101, 116, 1, 0, 2] (var 1 [1, 2]) := by decide +kernel
example : exTake.gives [112, 117, 116] (var 2) 0 := by decide +kernel
example : exTake.sends (var 2) [117, 110, 107, 110, 111, 119, 110] := by decide +kernel

def exStarts : Ty := tEnum
  { mode := .startsWith false
    variants := [{ name := [114, 101, 97, 100], branchValue := some (.bytes [114, 101, 97, 100]), fields := [tU8.plain] },
      { name := [119, 114, 105, 116, 101], fields := [tU8.plain, tU16.plain] }, { name := [117, 110, 107, 110, 111, 119, 110], branchDefault := true }] }
example : exStarts.both [114, 101, 97, 100, 1] (var 0 [1]) := by decide +kernel
example : exStarts.both [119, 114, 105, 116, 101, 1, 0, 2] (var 1 [1, 2]) := by decide +kernel
example : exStarts.gives [112, 117, 116] (var 2) 3 := by decide +kernel
example : exStarts.sends (var 2) [117, 110, 107, 110, 111, 119, 110] := by decide +kernel
example : (struct [tU8.plain, exStarts.plain]).both [1, 114, 101, 97, 100, 1] (rec [1, var 0 [1]]) := by decide +kernel

/-! ## tests/test_type_hashmap.rs, test_type_hashset.rs -/

def exMap : Ty := struct
  [(tMap tStr tStr).mod { split := some [58], linend := some [13, 10], count := some fun _ => 3 }]
def exMapValue : TV :=
  rec [rec [.cons (txt [65, 49]) (txt [106, 107, 99, 49]), .cons (txt [65, 50]) (txt [106, 107, 99, 50]), .cons (txt [65, 51]) (txt [])]]
example : exMap.both [65, 49, 58, 106, 107, 99, 49, 13, 10, 65, 50, 58, 106, 107, 99, 50, 13, 10, 65, 51, 58, 13, 10] exMapValue := by decide +kernel

def exSet : Ty := struct [tU8.plain, (tSet tU16).mod { count := some fun e => e.at 0 }]
example : exSet.gives [3, 0, 1, 0, 2, 0, 2] (rec [3, rec [1, 2]]) 0 := by decide +kernel

/-! ## tests/test_type_int_enum.rs, test_type_int_struct.rs -/

def exInts : List (Field TV) :=
  [tU8.plain, tU16.plain, tU32.plain, tU64.plain, tU128.plain, tU32.mod { length := some fun _ => 3 }]
example : (oneOf exInts).both
    [1, 1, 0, 2, 0, 0, 0, 3, 0, 0, 0, 0, 0, 0, 0, 4, 0, 0, 0, 0, 0, 0, 0, 0, 0, 0, 0, 0, 0, 0, 0, 5, 0, 0, 6]
    (var 0 [1, 2, 3, 4, 5, 6]) := by decide +kernel
def exIntsMore (o : ByteOrder) : List (Field TV) :=
  exInts ++ [tU64.mod { length := some fun e => e.at 1 }, tU16.mod { byteorder := some (.lit o) }]
example : (struct (exIntsMore .le)).both
    [1, 0, 2, 0, 0, 0, 3, 0, 0, 0, 0, 0, 0, 0, 4, 0, 0, 0, 0, 0, 0, 0, 0, 0, 0, 0, 0, 0, 0, 0, 5, 0, 0, 6, 0, 7, 8, 0]
    (rec [1, 2, 3, 4, 5, 6, 7, 8]) := by decide +kernel
example : (tStruct { container := some { byteorder := some .le }, fields := exIntsMore .be }).both
    [1, 2, 0, 3, 0, 0, 0, 4, 0, 0, 0, 0, 0, 0, 0, 5, 0, 0, 0, 0, 0, 0, 0, 0, 0, 0, 0, 0, 0, 0, 0, 6, 0, 0, 7, 0, 0, 8]
    (rec [1, 2, 3, 4, 5, 6, 7, 8]) := by decide +kernel

/-! ## examples/enum_example.rs -/

def exEnumBody : Ty := enum
  [{ branchValue := some (.num 1) }, {}, { branchRange := some (4, 7, true), fields := [tU16.plain, tU16.plain] },
   { fields := [tU16.plain, tU16.plain, (tVec tU8).mod { count := some fun e => e.at 1 }] },
   { branchDefault := true, fields := [tU16.plain] }]
def exEnum : Ty := struct [tU8.plain, tU8.plain, exEnumBody.mod { branch := some fun e => e.at 1 }]
example : exEnum.both [1, 2] (rec [1, 2, var 1]) := by decide +kernel
example : exEnum.both [1, 5, 0, 1, 0, 0x0a] (rec [1, 5, var 2 [1, 0x0a]]) := by decide +kernel
example : exEnum.both [1, 8, 0, 1, 0, 3, 1, 2, 3] (rec [1, 8, var 3 [1, 3, rec [1, 2, 3]]]) := by decide +kernel
example : exEnum.both [1, 9, 0, 1] (rec [1, 9, var 4 [1]]) := by decide +kernel

/-! ## examples/packet_ethernet_example.rs, packet_ipv4_example.rs, packet_tcp_example.rs, packet_parse_example.rs -/

def exEther : List (Field TV) := [tMac.plain, tMac.plain, tU16.plain]
example : (struct exEther).gives [255, 255, 255, 255, 255, 255, 0, 0, 0, 0, 0, 0, 8, 0, 69, 0]
    (rec [txt [255, 255, 255, 255, 255, 255], txt [0, 0, 0, 0, 0, 0], 0x0800]) 2 := by decide +kernel
example : (struct exEther).sends (rec [txt [255, 255, 255, 255, 255, 255], txt [0, 0, 0, 0, 0, 0], 0x0800])
    [255, 255, 255, 255, 255, 255, 0, 0, 0, 0, 0, 0, 8, 0] := by decide +kernel

def exIpv4 : Ty := struct
  [tU8.mod { bits := some fun _ => 0xf0, bitsStart := true, untake := true },
   tU8.mod { bits := some fun _ => 0x0f, valueDecode := some fun _ v => .num (v.toNat * 4 % 256)
             valueEncode := some fun _ v => .num (v.toNat / 4) },
   tU8.plain, tU16.plain, tU16.plain, tU16.mod { bits := some fun _ => 0xe000, bitsStart := true, untake := true },
   tU16.mod { bits := some fun _ => 0x1fff }, tU8.plain, tU8.plain, tU16.plain, tIpv4.plain, tIpv4.plain,
   tBytes.mod { length := some fun e => e.at 1 - 20 }]
example : exIpv4.both [69, 0, 0, 64, 181, 242, 0, 0, 64, 6, 169, 124, 10, 1, 1, 234, 10, 10, 5, 85]
    (rec [4, 20, 0, 64, 46578, 0, 0, 64, 6, 43388, txt [10, 1, 1, 234], txt [10, 10, 5, 85], txt []]) := by
  decide +kernel

def exTcp : Ty := struct
  [tU16.plain, tU16.plain, tU32.plain, tU32.plain,
   tU16.mod { bits := some fun _ => 0xf000, bitsStart := true, untake := true
              valueDecode := some fun _ v => .num (v.toNat * 4), valueEncode := some fun _ v => .num (v.toNat / 4) },
   tU16.mod { bits := some fun _ => 0x0fff }, tU16.plain, tU16.plain, tU16.plain,
   tBytes.mod { length := some fun e => e.at 4 - 20 }]
example : exTcp.both
    [200, 211, 1, 246, 224, 118, 144, 22, 196, 68, 155, 90, 128, 24, 255, 255, 108, 28, 0, 0, 1, 1, 8, 10, 55, 196, 80, 226, 0, 186, 124, 28]
    (rec [51411, 502, 3765866518, 3292830554, 32, 24, 65535, 27676, 0,
      txt [1, 1, 8, 10, 55, 196, 80, 226, 0, 186, 124, 28]]) := by decide +kernel

def exUdp : Ty := struct [tU16.plain, tU16.plain, tU16.plain, tU16.plain, tMark.plain]
def exLayer3 : Ty := enum
  [{ branchValue := some (.num 0x0800), tuple := true, fields := [exIpv4.plain] }, { branchDefault := true }]
def exLayer4 : Ty := enum
  [{ branchValue := some (.num 6), tuple := true, fields := [exTcp.plain] },
   { branchValue := some (.num 17), tuple := true, fields := [exUdp.plain] }, { branchDefault := true }]
/-- `layer3.get_protocol().unwrap_or_default()`. -/
def getProtocol : TV → Nat
  | .variant 0 (.cons h _) => (h.items.getD 8 .nil).toNat
  | _ => 0
def exLayer : Ty := struct
  [(struct (exEther ++ [tMark.plain])).plain,
   exLayer3.mod { branch := some fun e => ((e.fields.getD 0 .nil).items.getD 2 .nil).toNat },
   exLayer4.mod { branch := some fun e => getProtocol (e.fields.getD 1 .nil) }, tBytes.mod { remaining := true }]
def layerData : List Byte :=
  [0, 192, 159, 50, 65, 140, 0, 224, 24, 177, 12, 173, 8, 0, 69, 0, 0, 56, 0, 0, 64, 0, 64, 17, 101, 71, 192, 168, 170, 8, 192, 168, 170, 20, 128, 27, 0, 53, 0, 36, 133, 237, 16, 50, 1, 0, 0, 1, 0, 0, 0, 0, 0, 0, 6, 103, 111, 111, 103, 108, 101, 3, 99, 111, 109, 0, 0, 16, 0, 1]
example : (match decodeTop exLayer.dec layerData with
    | .ok v => exLayer.sends v layerData
    | _ => false) = true := by decide +kernel

/-! ## examples/simple_example.rs, simple_example2.rs, socket_example.rs -/

def exSimpleBody : Ty := enum
  [{ branchValue := some (.num 1), fields := [tU8.plain] }, { fields := [tU8.plain, (tArr 3 tU8).plain] },
   { branchDefault := true }]
def exSimple : Ty := struct
  [tU16.plain, tStr.mod { length := some fun e => e.at 0 }, tU8.plain, exSimpleBody.mod { branch := some fun e => e.at 2 }]
example : exSimple.both [0, 3, 49, 50, 51, 1, 5] (rec [3, txt [49, 50, 51], 1, var 0 [5]]) := by decide +kernel
example : (struct [tU8.plain, tStr.plain, exSimpleBody.plain]).both [1, 3, 49, 50, 51, 1, 5]
    (rec [1, txt [49, 50, 51], var 0 [5]]) := by decide +kernel

def exData : List (Field TV) := [tU8.plain, tU8.plain, tBytes.mod { length := some fun e => e.at 1 }]
def exMessage : Ty := struct
  [tU8.plain, (tEnum { container := some { byteCount := some 1 }
                       variants := [{ disc := some 1, fields := [tU8.plain, tU8.plain] }, { fields := exData },
                         { fields := exData }, { fields := [tU8.plain, tU8.plain] }, {}] }).plain]
example : exMessage.both [1, 2, 2, 3, 0, 1, 2] (rec [1, var 1 [2, 3, txt [0, 1, 2]]]) := by decide +kernel
example : exMessage.both [1, 1, 2, 3] (rec [1, var 0 [2, 3]]) := by decide +kernel

/-! ## crates/jdefault-rs/tests: test_struct.rs, test_struct_newtype.rs, test_enum.rs, test_jppe.rs, and
tests/test_modifier_default.rs.  Expressions stand for themselves, `[T]` for the default of the type `T`. -/

/-- Expressions and type defaults as texts; the arguments of a constructor are one expression. -/
def asText : DefaultInterp Text := ⟨fun e => e, fun e => [e], fun t => '[' :: t ++ [']']⟩

example : structDefault asText [] (.named
    [⟨[], ['u', '1', '6']⟩, ⟨[.jd [.prop "default" ['1', '8']]], ['u', '1', '6']⟩,
     ⟨[.jd [.prop "default" ['"', '\\', '"', 'j', 'a', 'n', 'k', 'i', 'n', 'c', 'a', 'i', '\\', '"', '.', 't', 'o', '_', 's', 't', 'r', 'i', 'n', 'g', '(', ')', '"']]], ['S', 't', 'r', 'i', 'n', 'g']⟩,
     ⟨[.jd [.prop "default" ['"', '\\', '"', 'j', 'a', 'n', 'k', 'i', 'n', 'c', 'a', 'i', '\\', '"', '"']]], ['&', '\'', 'a', ' ', 's', 't', 'r']⟩,
     ⟨[.jd [.prop "default" ['b', '"', '\\', 'x', '0', '0', '\\', 'x', '0', '1', '\\', 'x', '0', '2', '"']]], ['&', '\'', 'a', ' ', '[', 'u', '8', ']']⟩, ⟨[], ['S', 't', 'r', 'u', 'c', 't', 'E', 'x', 'a', 'm', 'p', 'l', 'e', 'B', 'o', 'd', 'y']⟩])
    = some [['[', 'u', '1', '6', ']'], ['1', '8'], ['"', 'j', 'a', 'n', 'k', 'i', 'n', 'c', 'a', 'i', '"', '.', 't', 'o', '_', 's', 't', 'r', 'i', 'n', 'g', '(', ')'], ['"', 'j', 'a', 'n', 'k', 'i', 'n', 'c', 'a', 'i', '"'], ['b', '"', '\\', 'x', '0', '0', '\\', 'x', '0', '1', '\\', 'x', '0', '2', '"'],
        ['[', 'S', 't', 'r', 'u', 'c', 't', 'E', 'x', 'a', 'm', 'p', 'l', 'e', 'B', 'o', 'd', 'y', ']']] := by decide +kernel
example : structDefault asText [] (.named [⟨[.jd [.prop "default" ['1']]], ['u', '1', '6']⟩]) = some [['1']] := by decide +kernel
example : structDefault asText [] (.tuple [⟨[.jd [.prop "default" ['1', '8']]], ['u', '8']⟩, ⟨[.jd [.prop "default" ['1', '6']]], ['u', '8']⟩])
    = some [['1', '8'], ['1', '6']] := by decide +kernel
example : structDefault asText [.jd [.prop "default" ['"', '(', '1', ',', ' ', '2', ')', '"']]] (.tuple [⟨[], ['(', 'u', '8', ' ', ',', ' ', 'u', '8', ')']⟩]) = some [['(', '1', ',', ' ', '2', ')']] := by
  decide +kernel
example : structDefault asText [] (.named [⟨[.jbytes [.prop "default" ['1', '8']]], ['u', '1', '6']⟩]) = some [['1', '8']] := by
  decide +kernel
example : structDefault asText [] (.named
    [⟨[.jbytes [.prop "byte_count" ['1'], .prop "default" ['"', '\\', '"', '1', '2', '3', '\\', '"', '.', 't', 'o', '_', 's', 't', 'r', 'i', 'n', 'g', '(', ')', '"']]], ['S', 't', 'r', 'i', 'n', 'g']⟩,
     ⟨[.jbytes [.prop "byte_count" ['1']]], ['S', 'i', 'm', 'p', 'l', 'e', 'E', 'x', 'a', 'm', 'p', 'l', 'e', 'B', 'o', 'd', 'y']⟩])
    = some [['"', '1', '2', '3', '"', '.', 't', 'o', '_', 's', 't', 'r', 'i', 'n', 'g', '(', ')'], ['[', 'S', 'i', 'm', 'p', 'l', 'e', 'E', 'x', 'a', 'm', 'p', 'l', 'e', 'B', 'o', 'd', 'y', ']']] := by decide +kernel

/-- The second variant of most of these enums. -/
def twoBytes : DVariant := ⟨[], .named [⟨[], ['u', '8']⟩, ⟨[], ['u', '8']⟩], none⟩
example : enumDefault asText []
    [⟨[], .unit, none⟩, ⟨[.jd [.tag "default"]], .named [⟨[.jd [.prop "default" ['3']]], ['u', '8']⟩, ⟨[], ['u', '8']⟩], none⟩]
    = some (1, [['3'], ['[', 'u', '8', ']']]) := by decide +kernel
example : enumDefault asText [] [⟨[.jd [.tag "default"]], .unit, none⟩, twoBytes] = some (0, []) := by decide +kernel
example : enumDefault asText [] [⟨[.jd [.tag "default"]], .tuple [⟨[.jd [.prop "default" ['1', '2']]], ['u', '8']⟩], none⟩, twoBytes]
    = some (0, [['1', '2']]) := by decide +kernel
example : enumDefault asText []
    [⟨[.jd [.tag "default"]], .tuple [⟨[.jd [.prop "default" ['1', '2']]], ['u', '8']⟩, ⟨[], ['u', '8']⟩], none⟩, twoBytes]
    = some (0, [['1', '2'], ['[', 'u', '8', ']']]) := by decide +kernel
example : enumDefault asText [] [⟨[.jd [.prop "default" ['"', '(', '1', '2', ',', ' ', '0', ')', '"']]], .tuple [⟨[], ['(', 'u', '8', ' ', ',', ' ', 'u', '8', ')']⟩], none⟩, twoBytes]
    = some (0, [['(', '1', '2', ',', ' ', '0', ')']]) := by decide +kernel
example : enumDefault asText []
    [⟨[.jbytes [.prop "branch_value" ['1']]], .named [⟨[], ['u', '8']⟩], none⟩, ⟨[], .named [⟨[], ['u', '8']⟩, ⟨[], ['[', 'u', '8', ' ', ';', ' ', '3', ']']⟩], none⟩,
     ⟨[.jbytes [.tag "branch_default"]], .named [⟨[.jbytes [.prop "default" ['1', '0']]], ['u', '8']⟩], none⟩]
    = some (2, [['1', '0']]) := by decide +kernel

end JBytes
