import Verif.DeriveText
import Verif.CodecSeq
import Verif.CodecAddr
import Verif.ReadOps
/-!
# The packet types of the examples (examples/packet_*_example.rs)

The headers of Ethernet, IPv4, TCP and UDP as the example programs declare them, and the layers of
examples/packet_parse_example.rs, from the text of their attributes.
-/

namespace JBytes

/-- The values of all types in these programs: integers, byte strings and addresses, `PhantomData`, structs and enums. -/
inductive Pkt where
  | num (n : Nat)
  | bytes (l : List Byte)
  | unit
  | record (vs : List Pkt)
  | variant (i : Nat) (vs : List Pkt)

/-- A field with an integer type. -/
def Pkt.int (k : IntKind) (a : FieldAttrs Pkt) : Field Pkt where
  attrs := a
  dec := fun ca fa => mapM' Pkt.num (decInt k ca fa)
  enc := fun v ca fa => match v with
    | .num n => encInt k n ca fa
    | _ => return 0
  dflt := .num 0
  noneV := .unit

/-- A field of type `&[u8]`. -/
def Pkt.slice (a : FieldAttrs Pkt) : Field Pkt where
  attrs := a
  dec := fun ca fa => mapM' Pkt.bytes (decBytes ca fa)
  enc := fun v ca fa => match v with
    | .bytes l => encBytes l ca fa
    | _ => return 0
  dflt := .bytes []
  noneV := .unit

/-- A field of type `Ipv4Addr`. -/
def Pkt.ipv4 : Field Pkt where
  attrs := {}
  dec := fun ca fa => mapM' Pkt.bytes (decIpv4 ca fa)
  enc := fun v ca fa => match v with
    | .bytes l => encIp l ca fa
    | _ => return 0
  dflt := .unit
  noneV := .unit

/-- A field of type `MacAddress`. -/
def Pkt.mac : Field Pkt where
  attrs := {}
  dec := fun ca fa => mapM' Pkt.bytes (decMac ca fa)
  enc := fun v ca fa => match v with
    | .bytes l => encMac l ca fa
    | _ => return 0
  dflt := .unit
  noneV := .unit

/-- A field of type `PhantomData<&'a ()>`. -/
def Pkt.mark : Field Pkt where
  attrs := {}
  dec := fun ca fa => mapM' (fun _ => Pkt.unit) (decUnit ca fa)
  enc := fun _ ca fa => encUnit () ca fa
  dflt := .unit
  noneV := .unit

/-- A field whose type is the struct `S`. -/
def Pkt.struct (S : StructDef Pkt) (a : FieldAttrs Pkt) : Field Pkt where
  attrs := a
  dec := fun ca fa => mapM' Pkt.record (decStruct S ca fa)
  enc := fun v ca fa => match v with
    | .record vs => encStruct S vs ca fa
    | _ => return 0
  dflt := .unit
  noneV := .unit

/-- A field whose type is the enum `E`. -/
def Pkt.enum (E : EnumDef Pkt) (a : FieldAttrs Pkt) : Field Pkt where
  attrs := a
  dec := fun ca fa => mapM' (fun x => Pkt.variant x.1 x.2) (decEnum E ca fa)
  enc := fun v ca fa => match v with
    | .variant i vs => encEnum E (i, vs) ca fa
    | _ => return 0
  dflt := .unit
  noneV := .unit

/-- The field as it is written, with these attributes. -/
def Field.source (f : Field Pkt) (as : List Attribute) : FieldSource Pkt := ⟨as, f.dec, f.enc, f.dflt, f.noneV⟩

/-- A literal string as written. -/
def quoted (s : String) : Text := '"' :: (s.toList ++ ['"'])

/-- No expressions. -/
def pktInterp : Interp Pkt where
  num _ _ := 0
  int _ _ := 0
  cond _ _ := true
  bytes _ := []
  conv _ _ v := v
  equal _ _ _ := true
  decoder _ _ _ := fun _ _ => return .unit
  encoder _ _ _ := fun _ _ _ => return 0
  decoderOf _ _ _ := fun _ _ => return .unit
  encoderOf _ _ _ := fun _ _ _ => return 0
  fromStr _ := (fun _ => none, fun _ => [])

/-- No codecs named on a type. -/
def pktTypes (α : Type) : TypeInterp α where
  decoder _ := fun _ _ => M.timeout
  encoder _ := fun _ _ _ => return 0
  decoderOf _ := fun _ _ => M.timeout
  encoderOf _ := fun _ _ _ => return 0

/-- The number in a field of the scope. -/
def Env.pktNum (env : Env Pkt) (i : Nat) : Nat :=
  match env.fields[i]? with
  | some (.num n) => n
  | _ => 0

/-- A function of a number, on values. -/
def Pkt.mapNum (g : Nat → Nat) : Pkt → Pkt
  | .num n => .num (g n)
  | v => v

/-! ## IPv4 -/

/-- `header_length - 20`, examples/packet_ipv4_example.rs:27: `header_length`, the second field, is a `u8`, and so is the
difference (it wraps around; with overflow checks it panics instead). -/
def ip4OptionsLength (env : Env Pkt) : Nat := (env.pktNum 1 + 236) % 256

/-- What rustc makes of the expressions in `Ipv4`, examples/packet_ipv4_example.rs:13 and 27: `header_length` is a `u8`. -/
def ip4Interp : Interp Pkt := { pktInterp with
  num := fun s env => if s = "header_length - 20".toList then ip4OptionsLength env else 0
  conv := fun s _ v =>
    if s = "header_length << 2".toList then v.mapNum fun n => n * 4 % 256
    else if s = "header_length >> 2".toList then v.mapNum fun n => n / 4
    else v }

/-- `Ipv4`, examples/packet_ipv4_example.rs:9-29 (`Ipv4Header`, examples/packet_parse_example.rs:58-78, has the same
text). -/
def ip4Source : List (FieldSource Pkt) :=
  [(Pkt.int ⟨1, false⟩ {}).source [.jbytes [.prop "bits_start" "0xf0".toList, .tag "untake"]],
    (Pkt.int ⟨1, false⟩ {}).source [.jbytes [.prop "bits" "0x0f".toList, .prop "value_decode" (quoted "header_length << 2"),
      .prop "value_encode" (quoted "header_length >> 2")]],
    (Pkt.int ⟨1, false⟩ {}).source [],
    (Pkt.int ⟨2, false⟩ {}).source [],
    (Pkt.int ⟨2, false⟩ {}).source [],
    (Pkt.int ⟨2, false⟩ {}).source [.jbytes [.prop "bits_start" "0xe000".toList, .tag "untake"]],
    (Pkt.int ⟨2, false⟩ {}).source [.jbytes [.prop "bits" "0x1fff".toList]],
    (Pkt.int ⟨1, false⟩ {}).source [],
    (Pkt.int ⟨1, false⟩ {}).source [],
    (Pkt.int ⟨2, false⟩ {}).source [],
    Pkt.ipv4.source [],
    Pkt.ipv4.source [],
    (Pkt.slice {}).source [.jbytes [.prop "length" (quoted "header_length - 20")]]]

/-- The fields of `Ipv4` up to the options. -/
def ip4Fixed : List (Field Pkt) :=
  [Pkt.int ⟨1, false⟩ { isUse := true, bits := some (fun _ => 0xf0), bitsStart := true, untake := true },
    Pkt.int ⟨1, false⟩ { isUse := true, bits := some (fun _ => 0x0f), valueDecode := some (fun _ => Pkt.mapNum fun n => n * 4 % 256),
                         valueEncode := some (fun _ => Pkt.mapNum fun n => n / 4) },
    Pkt.int ⟨1, false⟩ {},
    Pkt.int ⟨2, false⟩ {},
    Pkt.int ⟨2, false⟩ {},
    Pkt.int ⟨2, false⟩ { isUse := true, bits := some (fun _ => 0xe000), bitsStart := true, untake := true },
    Pkt.int ⟨2, false⟩ { isUse := true, bits := some (fun _ => 0x1fff) },
    Pkt.int ⟨1, false⟩ {},
    Pkt.int ⟨1, false⟩ {},
    Pkt.int ⟨2, false⟩ {},
    Pkt.ipv4,
    Pkt.ipv4]

/-- `Ipv4` as the macro sees it, see `C97_ip4_text`. -/
def ip4 : StructDef Pkt :=
  { fields := ip4Fixed ++ [Pkt.slice { isUse := true, length := some ip4OptionsLength }] }

unseal usizeMod isizeMax in
theorem C97_ip4_text : structOf ip4Interp (pktTypes _) [] false ip4Source = some ip4 := by
  with_unfolding_all rfl

/-! ## TCP -/

/-- `header_length - 20`, examples/packet_tcp_example.rs:19: `header_length`, the fifth field, is a `u16`. -/
def tcpOptionsLength (env : Env Pkt) : Nat := (env.pktNum 4 + 65516) % 65536

/-- What rustc makes of the expressions in `Tcp`, examples/packet_tcp_example.rs:12 and 19: `header_length` is a `u16`. -/
def tcpInterp : Interp Pkt := { pktInterp with
  num := fun s env => if s = "header_length - 20".toList then tcpOptionsLength env else 0
  conv := fun s _ v =>
    if s = "header_length * 4".toList then v.mapNum fun n => n * 4 % 65536
    else if s = "header_length / 4".toList then v.mapNum fun n => n / 4
    else v }

/-- `Tcp`, examples/packet_tcp_example.rs:6-21 (`TcpHeader`, examples/packet_parse_example.rs:81-96, has the same text). -/
def tcpSource : List (FieldSource Pkt) :=
  [(Pkt.int ⟨2, false⟩ {}).source [],
    (Pkt.int ⟨2, false⟩ {}).source [],
    (Pkt.int ⟨4, false⟩ {}).source [],
    (Pkt.int ⟨4, false⟩ {}).source [],
    (Pkt.int ⟨2, false⟩ {}).source [.jbytes [.prop "bits_start" "0xf000".toList, .prop "value_decode" (quoted "header_length * 4"),
      .prop "value_encode" (quoted "header_length / 4"), .tag "untake"]],
    (Pkt.int ⟨2, false⟩ {}).source [.jbytes [.prop "bits" "0x0fff".toList]],
    (Pkt.int ⟨2, false⟩ {}).source [],
    (Pkt.int ⟨2, false⟩ {}).source [],
    (Pkt.int ⟨2, false⟩ {}).source [],
    (Pkt.slice {}).source [.jbytes [.prop "length" (quoted "header_length - 20")]]]

/-- The fields of `Tcp` up to the options. -/
def tcpFixed : List (Field Pkt) :=
  [Pkt.int ⟨2, false⟩ {},
    Pkt.int ⟨2, false⟩ {},
    Pkt.int ⟨4, false⟩ {},
    Pkt.int ⟨4, false⟩ {},
    Pkt.int ⟨2, false⟩ { isUse := true, bits := some (fun _ => 0xf000), bitsStart := true, untake := true,
                         valueDecode := some (fun _ => Pkt.mapNum fun n => n * 4 % 65536),
                         valueEncode := some (fun _ => Pkt.mapNum fun n => n / 4) },
    Pkt.int ⟨2, false⟩ { isUse := true, bits := some (fun _ => 0x0fff) },
    Pkt.int ⟨2, false⟩ {},
    Pkt.int ⟨2, false⟩ {},
    Pkt.int ⟨2, false⟩ {}]

/-- `Tcp` as the macro sees it, see `C97_tcp_text`. -/
def tcp : StructDef Pkt :=
  { fields := tcpFixed ++ [Pkt.slice { isUse := true, length := some tcpOptionsLength }] }

unseal usizeMod isizeMax in
theorem C97_tcp_text : structOf tcpInterp (pktTypes _) [] false tcpSource = some tcp := by
  with_unfolding_all rfl

/-! ## UDP and Ethernet -/

/-- `UdpHeader`, examples/packet_parse_example.rs:99-106; no attributes. -/
def udp : StructDef Pkt :=
  { fields := [Pkt.int ⟨2, false⟩ {}, Pkt.int ⟨2, false⟩ {}, Pkt.int ⟨2, false⟩ {}, Pkt.int ⟨2, false⟩ {}, Pkt.mark] }

/-- `EthernetHeader`, examples/packet_parse_example.rs:49-55: `smac`, `dmac`, `type`; no attributes. -/
def ethernet : StructDef Pkt := { fields := [Pkt.mac, Pkt.mac, Pkt.int ⟨2, false⟩ {}, Pkt.mark] }

/-- `Ethernet`, examples/packet_ethernet_example.rs:8-13: `smac`, `dmac`, `type`; no attributes. -/
def ethernetAlone : StructDef Pkt := { fields := [Pkt.mac, Pkt.mac, Pkt.int ⟨2, false⟩ {}] }

/-! ## Layers -/

/-- `Layer3`, examples/packet_parse_example.rs:19-25. -/
def layer3Source : List (VariantSource Pkt) :=
  [{ attrs := [.jbytes [.prop "branch_value" "0x0800".toList]], name := [105, 112, 118, 52], tuple := true
     fields := [(Pkt.struct ip4 {}).source []] },
    { attrs := [.jbytes [.tag "branch_default"]], name := [117, 110, 107, 110, 111, 119, 110] }]

/-- `Layer3` as the macro sees it, see `C98_layer3_text`. -/
def layer3 : EnumDef Pkt :=
  { variants := [
      { attrs := { isUse := true }, name := [105, 112, 118, 52], branchValue := some (.num 0x800), tuple := true
        fields := [Pkt.struct ip4 {}] },
      { attrs := { isUse := true }, name := [117, 110, 107, 110, 111, 119, 110], branchDefault := true }] }

unseal usizeMod isizeMax in
theorem C98_layer3_text : enumOf pktInterp (pktTypes _) [] layer3Source = some layer3 := by
  with_unfolding_all rfl

/-- `Layer4`, examples/packet_parse_example.rs:38-46. -/
def layer4Source : List (VariantSource Pkt) :=
  [{ attrs := [.jbytes [.prop "branch_value" "6".toList]], name := [116, 99, 112], tuple := true
     fields := [(Pkt.struct tcp {}).source []] },
    { attrs := [.jbytes [.prop "branch_value" "17".toList]], name := [117, 100, 112], tuple := true
      fields := [(Pkt.struct udp {}).source []] },
    { attrs := [.jbytes [.tag "branch_default"]], name := [117, 110, 107, 110, 111, 119, 110] }]

/-- `Layer4` as the macro sees it, see `C98_layer4_text`. -/
def layer4 : EnumDef Pkt :=
  { variants := [
      { attrs := { isUse := true }, name := [116, 99, 112], branchValue := some (.num 6), tuple := true
        fields := [Pkt.struct tcp {}] },
      { attrs := { isUse := true }, name := [117, 100, 112], branchValue := some (.num 17), tuple := true
        fields := [Pkt.struct udp {}] },
      { attrs := { isUse := true }, name := [117, 110, 107, 110, 111, 119, 110], branchDefault := true }] }

unseal usizeMod isizeMax in
theorem C98_layer4_text : enumOf pktInterp (pktTypes _) [] layer4Source = some layer4 := by
  with_unfolding_all rfl

/-- `layer12.r#type`, examples/packet_parse_example.rs:10. -/
def layerType (env : Env Pkt) : Nat :=
  match (env.fields[0]? : Option Pkt) with
  | some (.record [_, _, .num t, _]) => t
  | _ => 0

/-- `layer3.get_protocol().unwrap_or_default()`, examples/packet_parse_example.rs:12 and 28-35. -/
def layerProtocol (env : Env Pkt) : Nat :=
  match (env.fields[1]? : Option Pkt) with
  | some (.variant 0 [.record vs]) =>
    match (vs[8]? : Option Pkt) with
    | some (.num p) => p
    | _ => 0
  | _ => 0

/-- What rustc makes of the expressions in `Layer`, examples/packet_parse_example.rs:10 and 12. -/
def layerInterp : Interp Pkt := { pktInterp with
  num := fun s env =>
    if s = "layer12.r#type".toList then layerType env
    else if s = "layer3.get_protocol().unwrap_or_default()".toList then layerProtocol env
    else 0 }

/-- `Layer`, examples/packet_parse_example.rs:7-16. -/
def layerSource : List (FieldSource Pkt) :=
  [(Pkt.struct ethernet {}).source [],
    (Pkt.enum layer3 {}).source [.jbytes [.prop "branch" (quoted "layer12.r#type")]],
    (Pkt.enum layer4 {}).source [.jbytes [.prop "branch" (quoted "layer3.get_protocol().unwrap_or_default()")]],
    (Pkt.slice {}).source [.jbytes [.tag "remaining"]]]

/-- `Layer` as the macro sees it, see `C98_layer_text`. -/
def layer : StructDef Pkt :=
  { fields := [
      Pkt.struct ethernet {},
      Pkt.enum layer3 { isUse := true, branch := some layerType },
      Pkt.enum layer4 { isUse := true, branch := some layerProtocol },
      Pkt.slice { isUse := true, remaining := true }] }

unseal usizeMod isizeMax in
theorem C98_layer_text : structOf layerInterp (pktTypes _) [] false layerSource = some layer := by
  with_unfolding_all rfl

end JBytes
