import Verif.Commands
import Verif.Default
/-!
# One declaration under both macros, and the message of examples/default_value_example.rs

`Jdefault` and the codec macros read the same `#[jbytes(...)]` attributes.
-/

namespace JBytes

/-- An attribute as `Jdefault` sees it, crates/jdefault-rs/src/jdefault/attribute.rs:41-46 and 93-102: of those that the codec
macros tell apart, it knows `jbytes`.  (`#[jd(...)]` is `other` to the codec macros and is not modelled here.) -/
def Attribute.toDefault : Attribute → DAttribute
  | .jbytes items => .jbytes items
  | .default | .repr _ | .other => .other

/-- A field as `Jdefault` sees it; `ty` is the text of its type. -/
def FieldSource.toDefault {V : Type} (f : FieldSource V) (ty : Text) : DField := ⟨f.attrs.map Attribute.toDefault, ty⟩

/-- A variant as `Jdefault` sees it; `tys` are the types of its fields. -/
def VariantSource.toDefault {V : Type} (v : VariantSource V) (tys : List Text) : DVariant where
  attrs := v.attrs.map Attribute.toDefault
  shape := if v.tuple then .tuple (v.fields.zipWith FieldSource.toDefault tys) else .named (v.fields.zipWith FieldSource.toDefault tys)
  disc := v.value

/-- `SimpleExampleBody`, examples/default_value_example.rs:16-31. -/
def presetBodySource : List (VariantSource Pkt) :=
  [{ attrs := [.jbytes [.prop "branch_value" "1".toList]], name := variantName "read", fields := [Pkt.u8.source []] },
    { attrs := [], name := variantName "write", fields := [Pkt.u8.source [], (Pkt.array 3 {}).source []] },
    { attrs := [.jbytes [.tag "branch_default"]], name := variantName "unknown", fields := [Pkt.u8.source [.jbytes [.prop "default" "10".toList]]] }]

/-- The types of its fields. -/
def presetBodyTypes : List (List Text) := [["u8".toList], ["u8".toList, "[u8;3]".toList], ["u8".toList]]

/-- `SimpleExampleBody` as the codec macros see it, see `C108_body_text`. -/
def presetBody : EnumDef Pkt :=
  { variants := [
      { attrs := { isUse := true }, name := variantName "read", branchValue := some (.num 1), fields := [Pkt.u8] },
      { name := variantName "write", fields := [Pkt.u8, Pkt.array 3 {}] },
      { attrs := { isUse := true }, name := variantName "unknown", branchDefault := true, fields := [Pkt.int ⟨1, false⟩ { isUse := true }] }] }

unseal usizeMod isizeMax in
theorem C108_body_text : enumOf pktInterp (pktTypes _) [] presetBodySource = some presetBody := by
  with_unfolding_all rfl

/-- `SimpleExample`, examples/default_value_example.rs:7-13. -/
def presetSource : List (FieldSource Pkt) :=
  [(Pkt.string {}).source [.jbytes [.prop "byte_count" "1".toList, .prop "default" (quoted "\\\"123\\\".to_string()")]],
    (Pkt.enum presetBody {}).source [.jbytes [.prop "byte_count" "1".toList]]]

/-- The types of its fields. -/
def presetTypes : List Text := ["String".toList, "SimpleExampleBody".toList]

/-- `SimpleExample` as the codec macros see it, see `C108_text`. -/
def preset : StructDef Pkt :=
  { fields := [Pkt.string { isUse := true, byteCount := some fun _ => 1 }, Pkt.enum presetBody { isUse := true, byteCount := some fun _ => 1 }] }

unseal usizeMod isizeMax in
theorem C108_text : structOf pktInterp (pktTypes _) [] false presetSource = some preset := by
  with_unfolding_all rfl

/-- What rustc makes of the two expressions of examples/default_value_example.rs:9 and 28. -/
def presetBodyInterp : DefaultInterp Pkt where
  value s := if s = "10".toList then .num 10 else if s = "\"123\".to_string()".toList then .bytes [49, 50, 51] else .unit
  args _ := []
  typeDefault _ := .unit

/-- `SimpleExampleBody::default()`, examples/default_value_example.rs:16. -/
def presetBodyDefault : Option (Nat × List Pkt) :=
  enumDefault presetBodyInterp [] (presetBodySource.zipWith VariantSource.toDefault presetBodyTypes)

/-- The same, where `SimpleExampleBody::default()` is that of the enum. -/
def presetInterp : DefaultInterp Pkt := { presetBodyInterp with
  typeDefault := fun ty => if ty = "SimpleExampleBody".toList then
    match presetBodyDefault with
    | some x => .variant x.1 x.2
    | none => .unit
    else .unit }

/-- `SimpleExample::default()`, examples/default_value_example.rs:7. -/
def presetDefault : Option (List Pkt) := structDefault presetInterp [] (.named (presetSource.zipWith FieldSource.toDefault presetTypes))

end JBytes
