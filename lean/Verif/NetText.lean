import Verif.Text
/-!
# Text forms of `NetAddress` and of raw data as hex (src/types/net_address.rs, src/types/hex_string.rs)

The texts of IP addresses and the replacement of invalid UTF-8 are the standard library's: they are parameters, with the
laws the theorems need.
-/

namespace JBytes

/-- `FromStr` and `Display` of `Ipv4Addr` and `Ipv6Addr` (standard library). -/
structure IpText where
  show4 : List Byte → List Byte
  parse4 : List Byte → Option (List Byte)
  show6 : List Byte → List Byte
  parse6 : List Byte → Option (List Byte)

/-- Digits of `usize::from_str_radix(_, 10)` (standard library), with the overflow check. -/
def radix10Digits : Nat → List Byte → Option Nat
  | acc, [] => some acc
  | acc, c :: cs =>
    if 0x30 ≤ c.toNat ∧ c.toNat ≤ 0x39 then
      if usizeMod ≤ acc * 10 + (c.toNat - 0x30) then none else radix10Digits (acc * 10 + (c.toNat - 0x30)) cs
    else none

/-- `s.parse::<usize>().ok()` (standard library): a leading `+` is skipped when digits follow. -/
def usizeFromStr (s : List Byte) : Option Nat :=
  match s with
  | [] => none
  | [c] => if c = 0x2B ∨ c = 0x2D then none else radix10Digits 0 [c]
  | c :: cs => if c = 0x2B then radix10Digits 0 cs else radix10Digits 0 (c :: cs)

/-- `{}` of a `usize` (standard library). -/
def decimal (n : Nat) : List Byte :=
  if n < 10 then [UInt8.ofNat (0x30 + n)] else decimal (n / 10) ++ [UInt8.ofNat (0x30 + n % 10)]

/-- `NetAddress::from_str`, src/types/net_address.rs:87-109. -/
def netFromStr (T : IpText) (s : List Byte) : Option NetAddr :=
  if (0x3A : Byte) ∈ s then
    match T.parse6 s with
    | some v => some (.v6 v)
    | none =>
      match macFromStr s with
      | some m => some (.mac m)
      | none => none
  else if (0x2E : Byte) ∈ s then
    match T.parse4 s with
    | some v => some (.v4 v)
    | none => none
  else
    match usizeFromStr s with
    | some n => some (.usize n)
    | none => none

/-- `Display` of `NetAddress`, src/types/net_address.rs:113-122. -/
def netToStr (T : IpText) : NetAddr → List Byte
  | .v4 v => T.show4 v
  | .v6 v => T.show6 v
  | .usize n => decimal n
  | .mac m => macToStr m

/-- `Ipv4Addr::is_broadcast` (standard library). -/
def v4IsBroadcast (o : List Byte) : Bool := o == [255, 255, 255, 255]

/-- `Ipv4Addr::is_multicast` (standard library). -/
def v4IsMulticast (o : List Byte) : Bool := 224 ≤ (o.getD 0 0).toNat && (o.getD 0 0).toNat ≤ 239

/-- `Ipv6Addr::is_multicast` (standard library): `segments()[0] & 0xff00 == 0xff00`. -/
def v6IsMulticast (o : List Byte) : Bool := beVal (o.take 2) &&& 0xff00 == 0xff00

/-- `NetAddress::is_broadcast`, src/types/net_address.rs:55-61. -/
def netIsBroadcast : NetAddr → Bool
  | .v4 o => v4IsBroadcast o
  | .mac m => macIsBroadcast m
  | _ => false

/-- `NetAddress::is_multicast`, src/types/net_address.rs:65-72. -/
def netIsMulticast : NetAddr → Bool
  | .v4 o => v4IsMulticast o
  | .v6 o => v6IsMulticast o
  | .mac m => macIsMulticast m
  | _ => false

/-- `hex_string::encode`, src/types/hex_string.rs:223-225 (never fails). -/
def hexEncodeText (d : List Byte) : List Byte := toHexLower d

/-- `Display` of `HexString`, src/types/hex_string.rs:161-165; `lossy` is `String::from_utf8_lossy`. -/
def hexShow (lossy : List Byte → List Byte) (d : List Byte) : List Byte := lossy d

/-- `hex_string::decode`, src/types/hex_string.rs:237-239. -/
def hexDecodeText (lossy : List Byte → List Byte) (s : List Byte) : Option (List Byte) :=
  (hexFromStr s).map (hexShow lossy)

end JBytes
