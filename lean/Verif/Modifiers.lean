import Verif.Read
import Verif.Search
import Verif.Write
/-!
# Modifiers passed to the codecs (src/modifiers.rs)
-/

namespace JBytes
open M

/-- `ContainerAttrModifiers`, src/modifiers.rs:15-22.  `vars` is the `variable_name` cache (a `BTreeMap`, here an
association list, newest entry first), read only by derived code.  Dropped: `expr`, which nothing reads. -/
structure CAttr where
  byteorder : Option ByteOrder := none
  byteCount : Option Nat := none
  vars : List (String × Nat) := []

/-- `FieldAttrModifiers`, src/modifiers.rs:26-61.  Dropped: `offset`, `untake` and `expr`, which are acted on by
the derived code (see `Derive`), never by a codec of the crate. -/
structure FAttr where
  length : Option Nat := none
  byteorder : Option ByteOrder := none
  linend : Bool := false
  linendValue : Option (List Byte) := none
  bits : Option Nat := none
  bitsStart : Bool := false
  byteCount : Option Nat := none
  remaining : Bool := false
  count : Option Nat := none
  tryCount : Option Nat := none
  byteCountOutside : Option Nat := none
  key : Option (List Byte) := none
  split : Option (List Byte) := none
  branch : Option Nat := none
  loopSkipStarts : Option (List Byte) := none

/-- `ByteDecode::decode_inner` / `BorrowByteDecode::decode_inner` (src/decode/mod.rs:51-104). -/
abbrev Dec (α : Type) : Type := Option CAttr → Option FAttr → M α

/-- `ByteEncode::encode_inner` / `BorrowByteEncode::encode_inner` (src/encode/mod.rs:47-86). -/
abbrev Enc (α : Type) : Type := α → Option CAttr → Option FAttr → M Nat

/-- `get_byteorder`, src/modifiers.rs:65-79. -/
def getByteorder (ca : Option CAttr) (fa : Option FAttr) : ByteOrder :=
  match fa.bind (·.byteorder) with
  | some o => o
  | none =>
    match ca.bind (·.byteorder) with
    | some o => o
    | none => .be

end JBytes
