import Verif.Packets
import Verif.Top
/-!
# The messages of examples/socket_example.rs, and its two sides

The types from the text of their attributes; `handle_connection` and the client as functions of the bytes one call of
`read` yields.  Connections, threads, `println!` and failures of the socket itself are not modelled.
-/

namespace JBytes

/-- What rustc makes of the expression in `MessageBody`, examples/socket_example.rs:25 and 31: `length` is the second field of
the variant. -/
def socketInterp : Interp Pkt := { pktInterp with
  num := fun s env => if s = "length".toList then env.pktNum 1 else 0 }

/-- A field of type `u8`. -/
def Pkt.u8 : Field Pkt := Pkt.int ⟨1, false⟩ {}

/-- `MessageBody`, examples/socket_example.rs:16-39. -/
def socketBodySource : List (VariantSource Pkt) :=
  [{ attrs := [], name := "readreq".toList.map fun c => UInt8.ofNat c.toNat, value := some "1".toList
     fields := [Pkt.u8.source [], Pkt.u8.source []] },
    { attrs := [], name := "readrsp".toList.map fun c => UInt8.ofNat c.toNat
      fields := [Pkt.u8.source [], Pkt.u8.source [], (Pkt.slice {}).source [.jbytes [.prop "length" (quoted "length")]]] },
    { attrs := [], name := "writereq".toList.map fun c => UInt8.ofNat c.toNat
      fields := [Pkt.u8.source [], Pkt.u8.source [], (Pkt.slice {}).source [.jbytes [.prop "length" (quoted "length")]]] },
    { attrs := [], name := "writersp".toList.map fun c => UInt8.ofNat c.toNat
      fields := [Pkt.u8.source [], Pkt.u8.source []] },
    { attrs := [], name := "stop".toList.map fun c => UInt8.ofNat c.toNat }]

/-- `data` with `length="length"`. -/
def socketData : Field Pkt := Pkt.slice { isUse := true, length := some fun env => env.pktNum 1 }

/-- `MessageBody` as the macro sees it, see `C105_body_text`. -/
def socketBody : EnumDef Pkt :=
  { variants := [
      { name := [114, 101, 97, 100, 114, 101, 113], disc := some 1, fields := [Pkt.u8, Pkt.u8] },
      { name := [114, 101, 97, 100, 114, 115, 112], fields := [Pkt.u8, Pkt.u8, socketData] },
      { name := [119, 114, 105, 116, 101, 114, 101, 113], fields := [Pkt.u8, Pkt.u8, socketData] },
      { name := [119, 114, 105, 116, 101, 114, 115, 112], fields := [Pkt.u8, Pkt.u8] },
      { name := [115, 116, 111, 112] }] }

unseal usizeMod isizeMax in
theorem C105_body_text : enumOf socketInterp (pktTypes _) [] socketBodySource = some socketBody := by
  with_unfolding_all rfl

/-- `Message`, examples/socket_example.rs:8-12. -/
def socketSource : List (FieldSource Pkt) := [Pkt.u8.source [], (Pkt.enum socketBody {}).source []]

/-- `Message` as the macro sees it, see `C105_message_text`. -/
def socketMessage : StructDef Pkt := { fields := [Pkt.u8, Pkt.enum socketBody {}] }

unseal usizeMod isizeMax in
theorem C105_message_text : structOf socketInterp (pktTypes _) [] false socketSource = some socketMessage := by
  with_unfolding_all rfl

/-- `let mut input = [0; n]; stream.read(&mut input)`: the bytes that `read` yields, then zeros.  (`read` yields at most `n`
bytes, and how many of those sent is up to the network.) -/
def readInto (n : Nat) (chunk : List Byte) : List Byte := chunk ++ List.replicate (n - chunk.length) 0

/-- `jbytes::decode_borrow(&bytes).unwrap()`, examples/socket_example.rs:46 and 112. -/
def socketReceive (input : List Byte) : Out (List Pkt) :=
  match decodeTop (decStruct socketMessage) input with
  | .ok v => .ok v
  | .timeout => .timeout
  | _ => .panic

/-- `stream.write_all(&jbytes::encode_borrow(value).unwrap())`, examples/socket_example.rs:60, 72, 79, 107-108: what is sent. -/
def socketSend (v : List Pkt) : Out (List Byte) :=
  match encodeTop (encStruct socketMessage) v with
  | .ok b => .ok b.data
  | .timeout => .timeout
  | _ => .panic

/-- `handle_connection`, examples/socket_example.rs:42-82: the bytes of the first `read`, and the answer.  The literal
`b"\x00\01\x02"` of line 65 is four bytes: `\x00`, `\0`, `1`, `\x02`. -/
def handleConnection (chunk : List Byte) : Out (List Byte) :=
  match socketReceive (readInto 1024 chunk) with
  | .ok [.num version, .variant i vs] =>
    if version ≠ 1 then .panic
    else
      match i, vs with
      | 0, [.num address, .num length] =>
        if address = 2 ∧ length = 3 then socketSend [.num 1, .variant 1 [.num 2, .num 3, .bytes [0, 1, 2]]] else .panic
      | 2, [.num address, .num length, .bytes data] =>
        if address = 2 ∧ length = 3 ∧ data = [0, 0, 49, 2] then socketSend [.num 1, .variant 3 [.num 2, .num 3]] else .panic
      | _, _ => socketSend [.num 1, .variant 4 []]
  | .ok _ => .panic
  | .timeout => .timeout
  | _ => .panic

/-- What the client sends, examples/socket_example.rs:102-108. -/
def clientRequest : Out (List Byte) := socketSend [.num 1, .variant 0 [.num 2, .num 3]]

/-- What the client makes of the bytes of its `read`, examples/socket_example.rs:109-115. -/
def clientResponse (chunk : List Byte) : Out Unit :=
  match socketReceive (readInto 10 chunk) with
  | .ok [.num version, .variant 1 [.num address, .num length, .bytes data]] =>
    if version = 1 ∧ address = 2 ∧ length = 3 ∧ data = [0, 1, 2] then .ok () else .panic
  | .ok _ => .panic
  | .timeout => .timeout
  | _ => .panic

end JBytes
