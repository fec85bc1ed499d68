import Verif.Packets
/-!
# The HTTP requests of the examples (examples/packet_http_example.rs, packet_http_example_2.rs, packet_http_example_3.rs)

A request line and header lines, as texts that end at a separator.
-/

namespace JBytes

/-- A field of type `&str`. -/
def Pkt.text (a : FieldAttrs Pkt) : Field Pkt where
  attrs := a
  dec := fun ca fa => mapM' Pkt.bytes (decStr ca fa)
  enc := fun v ca fa => match v with
    | .bytes l => encBytes l ca fa
    | _ => return 0
  dflt := .bytes []
  noneV := .unit

/-- The fields of a struct. -/
def Pkt.parts : Pkt → List Pkt
  | .record vs => vs
  | _ => []

/-- A field of type `Vec<S>`, without `loop_skip_starts` (so the fuel does not matter). -/
def Pkt.list (S : StructDef Pkt) (a : FieldAttrs Pkt) : Field Pkt where
  attrs := a
  dec := fun ca fa => mapM' (fun l => Pkt.record (l.map Pkt.record)) (decVec 0 (decStruct S) ca fa)
  enc := fun v ca fa => match v with
    | .record vs => encVec (encStruct S) (vs.map Pkt.parts) ca fa
    | _ => return 0
  dflt := .record []
  noneV := .unit

/-- What rustc makes of the literals in these programs. -/
def httpInterp : Interp Pkt := { pktInterp with
  bytes := fun s =>
    if s = "b\"\\x20\"".toList then [32]
    else if s = "b\"\\r\\n\"".toList then [13, 10]
    else if s = "b\": \"".toList then [58, 32]
    else [] }

/-- `HttpHeader`, examples/packet_http_example_2.rs:19-25. -/
def httpHeaderSource : List (FieldSource Pkt) :=
  [(Pkt.text {}).source [.jbytes [.prop "linend" "b\": \"".toList]],
    (Pkt.text {}).source [.jbytes [.prop "linend" "b\"\\r\\n\"".toList]]]

/-- `HttpHeader` as the macro sees it, see `C100_header_text`. -/
def httpLine : StructDef Pkt :=
  { fields := [Pkt.text { isUse := true, linend := some [58, 32] }, Pkt.text { isUse := true, linend := some [13, 10] }] }

unseal usizeMod isizeMax in
theorem C100_header_text : structOf httpInterp (pktTypes _) [] false httpHeaderSource = some httpLine := by
  with_unfolding_all rfl

/-- `Http`, examples/packet_http_example_2.rs:6-16. -/
def httpSource : List (FieldSource Pkt) :=
  [(Pkt.text {}).source [.jbytes [.prop "linend" "b\"\\x20\"".toList]],
    (Pkt.text {}).source [.jbytes [.prop "linend" "b\"\\x20\"".toList]],
    (Pkt.text {}).source [.jbytes [.prop "linend" "b\"\\r\\n\"".toList]],
    (Pkt.list httpLine {}).source [.jbytes [.prop "try_count" "20".toList]]]

/-- `Http` as the macro sees it, see `C100_text`. -/
def http : StructDef Pkt :=
  { fields := [Pkt.text { isUse := true, linend := some [32] },
      Pkt.text { isUse := true, linend := some [32] },
      Pkt.text { isUse := true, linend := some [13, 10] },
      Pkt.list httpLine { isUse := true, tryCount := some fun _ => 20 }] }

unseal usizeMod isizeMax in
theorem C100_text : structOf httpInterp (pktTypes _) [] false httpSource = some http := by
  with_unfolding_all rfl

/-- A map with texts as keys and values, as a value. -/
def Pkt.ofMap (m : List (List Byte × List Byte)) : Pkt := .record (m.map fun e => .record [.bytes e.1, .bytes e.2])

/-- The entries of a map. -/
def Pkt.entry : Pkt → List Byte × List Byte
  | .record [.bytes k, .bytes v] => (k, v)
  | _ => ([], [])

/-- A field of type `HashMap<&str, &str>`; the order of the entries is the order of iteration. -/
def Pkt.map (a : FieldAttrs Pkt) : Field Pkt where
  attrs := a
  dec := fun ca fa => mapM' Pkt.ofMap (decMap decStr decStr ca fa)
  enc := fun v ca fa => match v with
    | .record es => encMap encBytes encBytes (es.map Pkt.entry) ca fa
    | _ => return 0
  dflt := .record []
  noneV := .unit

/-- `Http`, examples/packet_http_example.rs:12-23. -/
def httpMapSource : List (FieldSource Pkt) :=
  [(Pkt.text {}).source [.jbytes [.prop "linend" "b\"\\x20\"".toList]],
    (Pkt.text {}).source [.jbytes [.prop "linend" "b\"\\x20\"".toList]],
    (Pkt.text {}).source [.jbytes [.prop "linend" "b\"\\r\\n\"".toList]],
    (Pkt.map {}).source [.jbytes [.prop "split" "b\": \"".toList, .prop "linend" "b\"\\r\\n\"".toList,
      .prop "try_count" "10".toList]]]

/-- The same as the macro sees it, see `C101_map_text`. -/
def httpMap : StructDef Pkt :=
  { fields := [Pkt.text { isUse := true, linend := some [32] },
      Pkt.text { isUse := true, linend := some [32] },
      Pkt.text { isUse := true, linend := some [13, 10] },
      Pkt.map { isUse := true, split := some [58, 32], linend := some [13, 10], tryCount := some fun _ => 10 }] }

unseal usizeMod isizeMax in
theorem C101_map_text : structOf httpInterp (pktTypes _) [] false httpMapSource = some httpMap := by
  with_unfolding_all rfl

/-- `FromStr` and `to_string` of `HttpMethodEnum`, which `jkcenum` derives: the text of the variant with an index, and back. -/
structure MethodText where
  parse : List Byte → Option Nat
  print : Nat → List Byte

/-- The same on values. -/
def MethodText.conv (T : MethodText) : (List Byte → Option Pkt) × (Pkt → List Byte) :=
  (fun s => (T.parse s).map fun i => .variant i [],
    fun v => match v with
      | .variant i _ => T.print i
      | _ => [])

/-- `HttpMethodEnum`, examples/packet_http_example_3.rs:31-44 (the attribute `default` is not one of this macro's). -/
def methodSource : List (VariantSource Pkt) :=
  [{ attrs := [], name := [103, 101, 116] },
    { attrs := [], name := [112, 111, 115, 116] },
    { attrs := [], name := [104, 101, 97, 100] },
    { attrs := [], name := [112, 117, 116] },
    { attrs := [], name := [100, 101, 108, 101, 116, 101] },
    { attrs := [], name := [99, 111, 110, 110, 101, 99, 116] },
    { attrs := [], name := [111, 112, 116, 105, 111, 110, 115] },
    { attrs := [], name := [116, 114, 97, 99, 101] },
    { attrs := [], name := [112, 97, 116, 99, 104] }]

/-- The same as the macro sees it, see `C101_methods_text`. -/
def methodEnum : EnumDef Pkt :=
  { container := some {}
    byteCountDisable := true
    variants := [
    { name := [103, 101, 116] },
    { name := [112, 111, 115, 116] },
    { name := [104, 101, 97, 100] },
    { name := [112, 117, 116] },
    { name := [100, 101, 108, 101, 116, 101] },
    { name := [99, 111, 110, 110, 101, 99, 116] },
    { name := [111, 112, 116, 105, 111, 110, 115] },
    { name := [116, 114, 97, 99, 101] },
    { name := [112, 97, 116, 99, 104] }] }

unseal usizeMod isizeMax in
theorem C101_methods_text : enumOf httpInterp (pktTypes _) [.jbytes [.tag "byte_count_disable"]] methodSource = some methodEnum := by
  with_unfolding_all rfl

/-- `Http`, examples/packet_http_example_3.rs:9-19. -/
def httpParsedSource : List (FieldSource Pkt) :=
  [(Pkt.enum methodEnum {}).source [.jbytes [.prop "linend" "b\"\\x20\"".toList, .tag "from_str"]],
    (Pkt.text {}).source [.jbytes [.prop "linend" "b\"\\x20\"".toList]],
    (Pkt.text {}).source [.jbytes [.prop "linend" "b\"\\r\\n\"".toList]],
    (Pkt.list httpLine {}).source [.jbytes [.prop "try_count" "20".toList]]]

/-- The same as the macro sees it, see `C101_method_text`. -/
def httpParsed (T : MethodText) : StructDef Pkt :=
  { fields := [Pkt.enum methodEnum { isUse := true, linend := some [32], fromStr := some T.conv },
      Pkt.text { isUse := true, linend := some [32] },
      Pkt.text { isUse := true, linend := some [13, 10] },
      Pkt.list httpLine { isUse := true, tryCount := some fun _ => 20 }] }

unseal usizeMod isizeMax in
theorem C101_method_text (T : MethodText) :
    structOf { httpInterp with fromStr := fun _ => T.conv } (pktTypes _) [] false httpParsedSource = some (httpParsed T) := by
  with_unfolding_all rfl

end JBytes
