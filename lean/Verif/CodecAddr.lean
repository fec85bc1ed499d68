import Verif.CodecInt
/-!
# Codecs of network and hardware addresses, and of the zero-size types

src/decode/impls_ipaddress.rs, impls_macaddress.rs, impls_netaddress.rs, impls_mark.rs, impls_other.rs and the
same files in src/encode.  An `Ipv4Addr`/`Ipv6Addr`/`MacAddress` is the list of its octets.
-/

namespace JBytes
open M

/-- `MacAddress::to_bits`, src/types/mac_address.rs:42-46. -/
def macToBits (m : List Byte) : Nat := beVal (List.replicate 2 0 ++ m)

/-- `MacAddress::from_bits`, src/types/mac_address.rs:50-56. -/
def macFromBits (v : Nat) : List Byte := (toBE 8 v).drop 2

/-- `is_unicast`, src/types/mac_address.rs:60-62. -/
def macIsUnicast (m : List Byte) : Bool := macToBits m &&& 0x010000000000 == 0

/-- `is_broadcast`, src/types/mac_address.rs:66-68. -/
def macIsBroadcast (m : List Byte) : Bool := macToBits m == 0xffffffffffff

/-- `is_multicast`, src/types/mac_address.rs:72-74. -/
def macIsMulticast (m : List Byte) : Bool := macToBits m &&& 0x010000000000 == 0x010000000000

/-- `is_zero`, src/types/mac_address.rs:78-80. -/
def macIsZero (m : List Byte) : Bool := macToBits m == 0

/-- `Ipv4Addr`, src/decode/impls_ipaddress.rs:11-19 (`Ipv4Addr::from(u32)` takes the big-endian octets). -/
def decIpv4 : Dec (List Byte) := fun ca fa => do
  let v ← takeScalar .u32 (getByteorder ca fa)
  return toBE 4 v

/-- `Ipv6Addr`, src/decode/impls_ipaddress.rs:33-41. -/
def decIpv6 : Dec (List Byte) := fun ca fa => do
  let v ← takeScalar .u128 (getByteorder ca fa)
  return toBE 16 v

/-- `Ipv4Addr` and `Ipv6Addr`, src/encode/impls_ipaddress.rs:9-33. -/
def encIp : Enc (List Byte) := fun v ca fa => pushByteorderArray v (getByteorder ca fa)

/-- `core::net::IpAddr`. -/
inductive IpAddr where
  | v4 (octets : List Byte)
  | v6 (octets : List Byte)
  deriving DecidableEq, Repr

/-- `IpAddr`, src/decode/impls_ipaddress.rs:55-74. -/
def decIpAddr : Dec IpAddr := fun ca fa =>
  match fa.bind (·.length) with
  | some n =>
    if n = 16 then do
      let v ← decIpv6 ca fa
      return .v6 v
    else if n = 4 then do
      let v ← decIpv4 ca fa
      return .v4 v
    else fail .fail
  | none => fail .fail

/-- `IpAddr`, src/encode/impls_ipaddress.rs:45-54. -/
def encIpAddr : Enc IpAddr := fun v ca fa =>
  match v with
  | .v4 o => encIp o ca fa
  | .v6 o => encIp o ca fa

/-- `MacAddress`, src/decode/impls_macaddress.rs:11-19. -/
def decMac : Dec (List Byte) := fun ca fa => do
  let v ← takeUint 6 (getByteorder ca fa)
  return macFromBits v

/-- `MacAddress`, src/encode/impls_macaddress.rs:9-15. -/
def encMac : Enc (List Byte) := fun v ca fa => pushUint (macToBits v) 6 (getByteorder ca fa)

/-- `NetAddress`, src/types/net_address.rs:21-26. -/
inductive NetAddr where
  | v4 (octets : List Byte)
  | v6 (octets : List Byte)
  | mac (octets : List Byte)
  | usize (n : Nat)
  deriving DecidableEq, Repr

/-- `NetAddress`, src/decode/impls_netaddress.rs:11-39. -/
def decNet : Dec NetAddr := fun ca fa =>
  match fa.bind (·.length) with
  | some n =>
    if n = 0 then fail .fail
    else if n = 4 then do
      let v ← decIpv4 ca fa
      return .v4 v
    else if n = 6 then do
      let v ← decMac ca fa
      return .mac v
    else if n = 16 then do
      let v ← decIpv6 ca fa
      return .v6 v
    else do
      let v ← decInt ⟨8, false⟩ ca fa
      return .usize v
  | none => fail .fail

/-- `NetAddress`, src/encode/impls_netaddress.rs:8-33. -/
def encNet : Enc NetAddr := fun v ca fa =>
  match v with
  | .v4 o => encIp o ca fa
  | .v6 o => encIp o ca fa
  | .mac o => encMac o ca fa
  | .usize n => encInt ⟨8, false⟩ n ca fa

/-- `Mark` (src/decode/impls_mark.rs:9-18) and `PhantomData<T>` (src/decode/impls_other.rs:9-18). -/
def decUnit : Dec Unit := fun _ _ => return ()

/-- `Mark` (src/encode/impls_mark.rs:9-15) and `PhantomData<T>` (src/encode/impls_other.rs:9-15). -/
def encUnit : Enc Unit := fun _ _ _ => return 0

end JBytes
