import Verif.Serde
import Verif.PropNet
/-!
# C72: serde
-/

namespace JBytes

/-- C72, partial: what was serialized is deserialized to the same value when the deserializer can lend the string.
Missing: the other deserializers (`C72_violated`). -/
theorem C72_roundtrip_partial (T : IpText) (hT : T.Lawful) :
    (∀ m : List Byte, m.length = 6 → macDeserialize (.borrowed (macSerialize m)) = some m) ∧
    (∀ a : NetAddr, a.Valid → netDeserialize T (.borrowed (netSerialize T a)) = some a) ∧
    (∀ d : List Byte, hexDeserialize (.borrowed (hexSerialize d)) = some d) ∧
    (∀ d : List Byte, hexDeserialize (.borrowed (hexBytesSerialize d)) = some d) :=
  ⟨fun m hm => C39_mac_text m hm, fun a ha => C59_net_text T hT a ha, fun d => (C41_hex_roundtrip d).1,
    fun d => (C41_hex_roundtrip d).1⟩

/-- C72, the form: a hex string is serialized as its digits, two to the byte, and only such a text is accepted. -/
theorem C72_hex_form (s d : List Byte) :
    (hexDeserialize (.borrowed s) = some d ↔ HexText s d) ∧ HexText (hexSerialize d) d := by
  refine ⟨C41_hex_parse s d, (C41_hex_parse _ _).mp (C41_hex_roundtrip d).1⟩

/-- C72 is violated: nothing is deserialized from a string that cannot be borrowed, so no value round trips through a
reader. -/
theorem C72_violated (T : IpText) (s : List Byte) :
    macDeserialize (.transient s) = none ∧ netDeserialize T (.transient s) = none ∧ hexDeserialize (.transient s) = none :=
  ⟨rfl, rfl, rfl⟩

example : macSerialize [0xaa, 0xbb, 0, 1, 2, 3] = "aa:bb:00:01:02:03".toUTF8.toList ∧
    hexDeserialize (.borrowed [0x30, 0x39, 0x61, 0x46]) = some [9, 0xaf] ∧
    netDeserialize sampleText (.borrowed [0x34, 0x32]) = some (.usize 42) := by decide +kernel

end JBytes
