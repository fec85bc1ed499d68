import Verif.NetText
/-!
# The serde forms of addresses and hex strings

serde is modelled by what the implementations see of it: a serializer receives one string; a deserializer offers a value
which is a string that lives as long as the input (`serde_json::from_str` without escapes), a string that does not (from a
reader, or with escapes, or already owned), or something else.
-/

namespace JBytes

/-- What a deserializer offers. -/
inductive SerdeValue where
  | borrowed (s : List Byte)
  | transient (s : List Byte)
  | other
  deriving DecidableEq, Repr

/-- `<&'de str as Deserialize>::deserialize` (serde): only a string that can be borrowed from the input. -/
def strDeserialize : SerdeValue → Option (List Byte)
  | .borrowed s => some s
  | _ => none

/-- `Serialize` of `MacAddress`: `collect_str(&self.to_string())`, src/types/mac_address.rs:152-159. -/
def macSerialize (m : List Byte) : List Byte := macToStr m

/-- `Deserialize` of `MacAddress`, src/types/mac_address.rs:163-172: the type of `value` is inferred as `&str`. -/
def macDeserialize (v : SerdeValue) : Option (List Byte) := (strDeserialize v).bind macFromStr

/-- `Serialize` of `NetAddress`, src/types/net_address.rs:126-133. -/
def netSerialize (T : IpText) (a : NetAddr) : List Byte := netToStr T a

/-- `Deserialize` of `NetAddress`, src/types/net_address.rs:137-146. -/
def netDeserialize (T : IpText) (v : SerdeValue) : Option NetAddr := (strDeserialize v).bind (netFromStr T)

/-- `Serialize` of `HexString`, src/types/hex_string.rs:192-199. -/
def hexSerialize (d : List Byte) : List Byte := toHexLower d

/-- `Deserialize` of `HexString`, src/types/hex_string.rs:203-212. -/
def hexDeserialize (v : SerdeValue) : Option (List Byte) := (strDeserialize v).bind hexFromStr

/-- `Serialize` of `Hex<T>`, src/types/hex_bytes.rs:124-131, with `Display`, 97-102 (there is no `Deserialize`). -/
def hexBytesSerialize (d : List Byte) : List Byte := toHexLower d

end JBytes
