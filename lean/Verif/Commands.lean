import Verif.Socket
/-!
# The messages of examples/enum_example.rs, simple_example.rs and simple_example2.rs

From the text of their attributes.
-/

namespace JBytes

/-- A field of type `u16`. -/
def Pkt.u16 : Field Pkt := Pkt.int ⟨2, false⟩ {}

/-- A field of type `Vec<u8>`. -/
def Pkt.vec (a : FieldAttrs Pkt) : Field Pkt where
  attrs := a
  dec := fun ca fa => mapM' (fun l => Pkt.bytes (l.map UInt8.ofNat)) (decVec 0 (decInt ⟨1, false⟩) ca fa)
  enc := fun v ca fa => match v with
    | .bytes l => encVec (encInt ⟨1, false⟩) (l.map UInt8.toNat) ca fa
    | _ => return 0
  dflt := .bytes []
  noneV := .unit

/-- A field of type `[u8; n]`. -/
def Pkt.array (n : Nat) (a : FieldAttrs Pkt) : Field Pkt where
  attrs := a
  dec := fun ca fa => mapM' (fun l => Pkt.bytes (l.map UInt8.ofNat)) (decArray n (decInt ⟨1, false⟩) ca fa)
  enc := fun v ca fa => match v with
    | .bytes l => encArray (encInt ⟨1, false⟩) (l.map UInt8.toNat) ca fa
    | _ => return 0
  dflt := .bytes []
  noneV := .unit

/-- A field of type `String`. -/
def Pkt.string (a : FieldAttrs Pkt) : Field Pkt where
  attrs := a
  dec := fun ca fa => mapM' Pkt.bytes (decStr ca fa)
  enc := fun v ca fa => match v with
    | .bytes l => encBytes l ca fa
    | _ => return 0
  dflt := .bytes []
  noneV := .unit

/-- The name of a variant. -/
def variantName (s : String) : List Byte := s.toList.map fun c => UInt8.ofNat c.toNat

/-! ## examples/enum_example.rs -/

/-- What rustc makes of names in the struct, examples/enum_example.rs:8-10. -/
def commandInterp : Interp Pkt := { pktInterp with
  num := fun s env => if s = "version".toList then env.pktNum 0 else if s = "cmd".toList then env.pktNum 1 else 0 }

/-- What rustc makes of names in the variant `Write`, examples/enum_example.rs:26-28. -/
def commandBodyInterp : Interp Pkt := { pktInterp with
  num := fun s env => if s = "address".toList then env.pktNum 0 else if s = "length".toList then env.pktNum 1 else 0 }

/-- `SimpleExampleBody`, examples/enum_example.rs:15-35. -/
def commandBodySource : List (VariantSource Pkt) :=
  [{ attrs := [.jbytes [.prop "branch_value" "1".toList]], name := variantName "stop" },
    { attrs := [], name := variantName "start" },
    { attrs := [.jbytes [.prop "branch_value" (quoted "4..=7")]], name := variantName "read"
      fields := [Pkt.u16.source [], Pkt.u16.source []] },
    { attrs := [], name := variantName "write"
      fields := [Pkt.u16.source [], Pkt.u16.source [], (Pkt.vec {}).source [.jbytes [.prop "count" (quoted "length")]]] },
    { attrs := [.jbytes [.tag "branch_default"]], name := variantName "unknown", fields := [Pkt.u16.source []] }]

/-- `data` with `count="length"`. -/
def commandData : Field Pkt := Pkt.vec { isUse := true, count := some fun env => env.pktNum 1 }

/-- `SimpleExampleBody` as the macro sees it, see `C107_body_text`. -/
def commandBody : EnumDef Pkt :=
  { variants := [
      { attrs := { isUse := true }, name := variantName "stop", branchValue := some (.num 1) },
      { name := variantName "start" },
      { attrs := { isUse := true }, name := variantName "read", branchRange := some (4, 7, true), fields := [Pkt.u16, Pkt.u16] },
      { name := variantName "write", fields := [Pkt.u16, Pkt.u16, commandData] },
      { attrs := { isUse := true }, name := variantName "unknown", branchDefault := true, fields := [Pkt.u16] }] }

unseal usizeMod isizeMax in
theorem C107_body_text : enumOf commandBodyInterp (pktTypes _) [] commandBodySource = some commandBody := by
  with_unfolding_all rfl

/-- `SimpleExample`, examples/enum_example.rs:6-12. -/
def commandSource : List (FieldSource Pkt) :=
  [Pkt.u8.source [], Pkt.u8.source [], (Pkt.enum commandBody {}).source [.jbytes [.prop "branch" (quoted "cmd")]]]

/-- `SimpleExample` as the macro sees it, see `C107_command_text`. -/
def command : StructDef Pkt :=
  { fields := [Pkt.u8, Pkt.u8, Pkt.enum commandBody { isUse := true, branch := some fun env => env.pktNum 1 }] }

unseal usizeMod isizeMax in
theorem C107_command_text : structOf commandInterp (pktTypes _) [] false commandSource = some command := by
  with_unfolding_all rfl

/-! ## examples/simple_example.rs -/

/-- What rustc makes of the expressions of examples/simple_example.rs:9 and 12: `length` is the first field, `cmd` the third. -/
def simpleInterp : Interp Pkt := { pktInterp with
  num := fun s env => if s = "length".toList then env.pktNum 0 else if s = "cmd".toList then env.pktNum 2 else 0 }

/-- `SimpleExampleBody`, examples/simple_example.rs:17-29 and examples/simple_example2.rs:14-26. -/
def simpleBodySource : List (VariantSource Pkt) :=
  [{ attrs := [.jbytes [.prop "branch_value" "1".toList]], name := variantName "read", fields := [Pkt.u8.source []] },
    { attrs := [], name := variantName "write", fields := [Pkt.u8.source [], (Pkt.array 3 {}).source []] },
    { attrs := [.jbytes [.tag "branch_default"]], name := variantName "unknown" }]

/-- `SimpleExampleBody` as the macro sees it, see `C107_simple_body_text`. -/
def simpleBody : EnumDef Pkt :=
  { variants := [
      { attrs := { isUse := true }, name := variantName "read", branchValue := some (.num 1), fields := [Pkt.u8] },
      { name := variantName "write", fields := [Pkt.u8, Pkt.array 3 {}] },
      { attrs := { isUse := true }, name := variantName "unknown", branchDefault := true }] }

unseal usizeMod isizeMax in
theorem C107_simple_body_text : enumOf simpleInterp (pktTypes _) [] simpleBodySource = some simpleBody := by
  with_unfolding_all rfl

/-- `SimpleExample`, examples/simple_example.rs:6-14. -/
def simpleSource : List (FieldSource Pkt) :=
  [Pkt.u16.source [], (Pkt.string {}).source [.jbytes [.prop "length" (quoted "length")]], Pkt.u8.source [],
    (Pkt.enum simpleBody {}).source [.jbytes [.prop "branch" (quoted "cmd")]]]

/-- `SimpleExample` as the macro sees it, see `C107_simple_text`. -/
def simple : StructDef Pkt :=
  { fields := [Pkt.u16, Pkt.string { isUse := true, length := some fun env => env.pktNum 0 }, Pkt.u8,
      Pkt.enum simpleBody { isUse := true, branch := some fun env => env.pktNum 2 }] }

unseal usizeMod isizeMax in
theorem C107_simple_text : structOf simpleInterp (pktTypes _) [] false simpleSource = some simple := by
  with_unfolding_all rfl

/-! ## examples/simple_example2.rs -/

/-- `SimpleExample`, examples/simple_example2.rs:6-11. -/
def tagged : StructDef Pkt := { fields := [Pkt.u8, Pkt.string {}, Pkt.enum simpleBody {}] }

unseal usizeMod isizeMax in
theorem C107_tagged_text : structOf pktInterp (pktTypes _) [] false [Pkt.u8.source [], (Pkt.string {}).source [], (Pkt.enum simpleBody {}).source []]
    = some tagged := by
  with_unfolding_all rfl

end JBytes
