import Verif.PropBytes
import Verif.CodecAddr
/-!
# Network and hardware addresses: C37, C38
-/

namespace JBytes
open M

/-! ## C37 -/

/-- The octets in the given byte order. -/
def ordered (o : ByteOrder) (d : List Byte) : List Byte :=
  match o with
  | .be => d
  | .le => d.reverse

theorem toBytes_beVal (o : ByteOrder) (d : List Byte) : toBytes o d.length (beVal d) = ordered o d := by
  cases o with
  | be => exact toBE_beVal d
  | le =>
    show toLE d.length (beVal d) = d.reverse
    rw [← leVal_reverse, ← List.length_reverse, toLE_leVal]

theorem ordered_length (o : ByteOrder) (d : List Byte) : (ordered o d).length = d.length := by
  cases o
  · rfl
  · exact List.length_reverse

theorem encIp_appends (d : List Byte) (ca : Option CAttr) (fa : Option FAttr) :
    Appends (encIp d ca fa) (ordered (effectiveOrder ca fa) d) := by
  unfold encIp pushByteorderArray ordered
  rw [getByteorder_eq]
  cases effectiveOrder ca fa <;> exact Appends.push _

theorem decIpv4_reads (d : List Byte) (hd : d.length = 4) (ca : Option CAttr) (fa : Option FAttr) (suf : List Byte) :
    Reads (decIpv4 ca fa) d (ordered (effectiveOrder ca fa) d) suf := by
  have h := (Reads.scalar .u32 (effectiveOrder ca fa) (beVal d) suf (by
    have := beVal_lt d; rw [hd] at this; exact this)).map (toBE 4)
  rw [show Scalar.size .u32 = d.length from hd.symm, toBytes_beVal, ← hd, toBE_beVal] at h
  unfold decIpv4
  rw [getByteorder_eq, ← hd]
  exact h

theorem decIpv6_reads (d : List Byte) (hd : d.length = 16) (ca : Option CAttr) (fa : Option FAttr) (suf : List Byte) :
    Reads (decIpv6 ca fa) d (ordered (effectiveOrder ca fa) d) suf := by
  have h := (Reads.scalar .u128 (effectiveOrder ca fa) (beVal d) suf (by
    have := beVal_lt d; rw [hd] at this; exact this)).map (toBE 16)
  rw [show Scalar.size .u128 = d.length from hd.symm, toBytes_beVal, ← hd, toBE_beVal] at h
  unfold decIpv6
  rw [getByteorder_eq, ← hd]
  exact h

theorem macToBits_eq (m : List Byte) : macToBits m = beVal m := by
  unfold macToBits
  exact beVal_pad 2 m

theorem macFromBits_eq (v : Nat) : macFromBits v = toBE 6 v := by
  unfold macFromBits
  exact toBE_drop 8 6 v (by omega)

theorem encMac_appends (d : List Byte) (hd : d.length = 6) (ca : Option CAttr) (fa : Option FAttr) :
    Appends (encMac d ca fa) (ordered (effectiveOrder ca fa) d) := by
  unfold encMac
  rw [getByteorder_eq, macToBits_eq]
  have h := Appends.uint (beVal d) 6 (effectiveOrder ca fa) (by omega)
  rw [show toBytes (effectiveOrder ca fa) 6 (beVal d) = ordered (effectiveOrder ca fa) d by
    rw [← hd, toBytes_beVal]] at h
  exact h

theorem decMac_reads (d : List Byte) (hd : d.length = 6) (ca : Option CAttr) (fa : Option FAttr) (suf : List Byte) :
    Reads (decMac ca fa) d (ordered (effectiveOrder ca fa) d) suf := by
  have h := (Reads.uint (effectiveOrder ca fa) 6 (beVal d) suf (by omega) (by
    have := beVal_lt d; rw [hd] at this; exact this)).map macFromBits
  rw [macFromBits_eq] at h
  rw [show toBytes (effectiveOrder ca fa) 6 (beVal d) = ordered (effectiveOrder ca fa) d by
    rw [← hd, toBytes_beVal], show toBE 6 (beVal d) = d by rw [← hd, toBE_beVal]] at h
  unfold decMac
  rw [getByteorder_eq]
  exact h

/-- C37 (IPv4, IPv6, MAC): the octets in the effective byte order, and back. -/
theorem C37_fixed_addresses (ca : Option CAttr) (fa : Option FAttr) (d : List Byte) :
    (d.length = 4 → Appends (encIp d ca fa) (ordered (effectiveOrder ca fa) d) ∧
      ∀ suf, Reads (decIpv4 ca fa) d (ordered (effectiveOrder ca fa) d) suf) ∧
    (d.length = 16 → Appends (encIp d ca fa) (ordered (effectiveOrder ca fa) d) ∧
      ∀ suf, Reads (decIpv6 ca fa) d (ordered (effectiveOrder ca fa) d) suf) ∧
    (d.length = 6 → Appends (encMac d ca fa) (ordered (effectiveOrder ca fa) d) ∧
      ∀ suf, Reads (decMac ca fa) d (ordered (effectiveOrder ca fa) d) suf) :=
  ⟨fun h => ⟨encIp_appends d ca fa, decIpv4_reads d h ca fa⟩,
   fun h => ⟨encIp_appends d ca fa, decIpv6_reads d h ca fa⟩,
   fun h => ⟨encMac_appends d h ca fa, decMac_reads d h ca fa⟩⟩

/-- The addresses that exist: octet counts of the variants. -/
def IpAddr.Valid : IpAddr → Prop
  | .v4 d => d.length = 4
  | .v6 d => d.length = 16

/-- Octets of an IP address. -/
def IpAddr.octets : IpAddr → List Byte
  | .v4 d => d
  | .v6 d => d

/-- C37 (IpAddr): round trip when `length` is the number of octets of the variant. -/
theorem C37_ip_addr (ca : Option CAttr) (fr : FAttr) (a : IpAddr) (hv : a.Valid) (hl : fr.length = some a.octets.length) :
    Appends (encIpAddr a ca (some fr)) (ordered (effectiveOrder ca (some fr)) a.octets) ∧
    ∀ suf, Reads (decIpAddr ca (some fr)) a (ordered (effectiveOrder ca (some fr)) a.octets) suf := by
  unfold encIpAddr decIpAddr
  cases a with
  | v4 d =>
    have hd : d.length = 4 := hv
    refine ⟨encIp_appends d ca _, fun suf => ?_⟩
    simp only [IpAddr.octets, hd] at hl
    simp only [Option.bind_some, hl]
    exact (decIpv4_reads d hd ca _ suf).map IpAddr.v4
  | v6 d =>
    have hd : d.length = 16 := hv
    refine ⟨encIp_appends d ca _, fun suf => ?_⟩
    simp only [IpAddr.octets, hd] at hl
    simp only [Option.bind_some, hl]
    exact (decIpv6_reads d hd ca _ suf).map IpAddr.v6

/-- C37 (IpAddr): any other `length`, or none, is an error that consumes nothing. -/
theorem C37_ip_addr_length (ca : Option CAttr) (fa : Option FAttr) (b : Buf) (h4 : fa.bind (·.length) ≠ some 4)
    (h16 : fa.bind (·.length) ≠ some 16) : decIpAddr ca fa b = (.err ⟨b.pos, .fail⟩, b) := by
  unfold decIpAddr
  cases hl : fa.bind (·.length) with
  | none => rfl
  | some n =>
    simp only
    rw [if_neg (fun h => h16 (by rw [hl, h])), if_neg (fun h => h4 (by rw [hl, h]))]
    rfl

/-- The image of a net address under `length = n`, and which `length` names which variant: 4, 6 and 16 name the
addresses with that many octets, every other positive one up to 8 an integer of that width. -/
def NetAddr.Image (o : ByteOrder) (n : Nat) : NetAddr → List Byte → Prop
  | .v4 d, w => n = 4 ∧ d.length = 4 ∧ w = ordered o d
  | .v6 d, w => n = 16 ∧ d.length = 16 ∧ w = ordered o d
  | .mac d, w => n = 6 ∧ d.length = 6 ∧ w = ordered o d
  | .usize v, w => (n = 1 ∨ n = 2 ∨ n = 3 ∨ n = 5 ∨ n = 7 ∨ n = 8) ∧ v < 256 ^ n ∧ w = toBytes o n v

/-- C37 (NetAddress): round trip when `length` names the variant (and no `bits` are involved). -/
theorem C37_net_addr (ca : Option CAttr) (fr : FAttr) (n : Nat) (a : NetAddr) (w : List Byte)
    (hl : fr.length = some n) (hb : fr.bits = none) (hw : a.Image (effectiveOrder ca (some fr)) n w) :
    Appends (encNet a ca (some fr)) w ∧ ∀ suf, Reads (decNet ca (some fr)) a w suf := by
  unfold encNet decNet
  simp only [Option.bind_some, hl]
  cases a with
  | v4 d =>
    obtain ⟨rfl, hd, rfl⟩ := hw
    exact ⟨encIp_appends d ca _, fun suf => (decIpv4_reads d hd ca _ suf).map NetAddr.v4⟩
  | v6 d =>
    obtain ⟨rfl, hd, rfl⟩ := hw
    exact ⟨encIp_appends d ca _, fun suf => (decIpv6_reads d hd ca _ suf).map NetAddr.v6⟩
  | mac d =>
    obtain ⟨rfl, hd, rfl⟩ := hw
    exact ⟨encMac_appends d hd ca _, fun suf => (decMac_reads d hd ca _ suf).map NetAddr.mac⟩
  | usize v =>
    obtain ⟨hn, hv, rfl⟩ := hw
    have hn8 : n ≤ 8 := by omega
    obtain ⟨h1, h2⟩ := (C19_byteorder ca (some fr) _ rfl).2.1 ⟨8, false⟩ v n hb hl hn8
    have hmod : (256 : Nat) ^ n ≤ 256 ^ 8 := Nat.pow_le_pow_right (by omega) hn8
    constructor
    · show Appends (encInt ⟨8, false⟩ v ca (some fr)) _
      rw [h2, show asU64 ⟨8, false⟩ v = v from Nat.mod_eq_of_lt (Nat.lt_of_lt_of_le hv hmod)]
      exact Appends.uint v n _ hn8
    · intro suf
      rw [if_neg (by omega), if_neg (by omega), if_neg (by omega), if_neg (by omega), h1]
      have h := ((Reads.uint (effectiveOrder ca (some fr)) n v suf hn8 hv).map
        (fromU64 ⟨8, false⟩)).map NetAddr.usize
      rw [show fromU64 ⟨8, false⟩ v = v from ?_] at h
      · exact h
      · rw [fromU64_eq]
        exact Nat.mod_eq_of_lt (Nat.lt_of_lt_of_le hv hmod)

example : NetAddr.Image .le 6 (.mac [1, 2, 3, 4, 5, 6]) [6, 5, 4, 3, 2, 1] ∧ NetAddr.Image .be 3 (.usize 258) [0, 1, 2] ∧
    decNet none (some { length := some 3 }) ⟨[9, 0, 1, 2], 1⟩ = (.ok (.usize 258), ⟨[9, 0, 1, 2], 4⟩) := by
  refine ⟨⟨rfl, rfl, rfl⟩, ⟨by omega, by decide, by decide +kernel⟩, by decide +kernel⟩

/-! ## C38 -/

/-- C38: the number is the big-endian value of the octets; the two conversions are inverse up to the bits above
the 48th, which are ignored. -/
theorem C38_bits (m : List Byte) (hm : m.length = 6) (v : Nat) :
    IsValueOf .be m (macToBits m) ∧ macFromBits (macToBits m) = m ∧ macToBits (macFromBits v) = v % 2 ^ 48 ∧ (macFromBits v).length = 6 ∧
    macToBits m < 2 ^ 48 ∧ macFromBits v = macFromBits (v % 2 ^ 48) := by
  rw [macToBits_eq, macFromBits_eq, macFromBits_eq, macFromBits_eq, macToBits_eq]
  refine ⟨isValueOf_fromBytes .be m, by rw [← hm, toBE_beVal], by rw [beVal_toBE], toBE_length 6 v, ?_, ?_⟩
  · have := beVal_lt m
    rw [hm] at this
    exact this
  · exact (toBE_mod 6 v).symm

/-- C38: the predicates, in terms of the octets. -/
theorem C38_predicates (m : List Byte) (hm : m.length = 6) :
    (macIsMulticast m = true ↔ (m.getD 0 0).toNat % 2 = 1) ∧ (macIsUnicast m = !macIsMulticast m) ∧
    (macIsBroadcast m = true ↔ m = List.replicate 6 255) ∧ (macIsZero m = true ↔ m = List.replicate 6 0) := by
  have hbit : macToBits m &&& 0x010000000000 = ((m.getD 0 0).toNat % 2) * 2 ^ 40 := by
    rw [macToBits_eq]
    obtain ⟨x, r, rfl⟩ : ∃ x r, m = x :: r := by
      cases m with
      | nil => simp at hm
      | cons x r => exact ⟨x, r, rfl⟩
    have hr : r.length = 5 := by simpa using hm
    rw [beVal_cons, hr]
    have hlt := beVal_lt r
    rw [hr] at hlt
    show (x.toNat * 256 ^ 5 + beVal r) &&& 2 ^ 40 = _
    have h5 : (256 : Nat) ^ 5 = 2 ^ 40 := by decide
    rw [h5] at hlt ⊢
    have hdiv : (x.toNat * 2 ^ 40 + beVal r) / 2 ^ 40 = x.toNat := by omega
    have hand : ∀ y : Nat, y &&& 2 ^ 40 = y / 2 ^ 40 % 2 * 2 ^ 40 := by
      intro y
      apply Nat.eq_of_testBit_eq
      intro i
      rw [Nat.testBit_and, Nat.testBit_two_pow]
      have hy : y / 2 ^ 40 % 2 = 0 ∨ y / 2 ^ 40 % 2 = 1 := by omega
      by_cases hi : 40 = i
      · subst hi
        rw [Nat.testBit_eq_decide_div_mod_eq]
        rcases hy with h | h <;> rw [h] <;> decide
      · rcases hy with h | h
        · rw [h]
          simp [hi]
        · rw [h, Nat.one_mul, Nat.testBit_two_pow]
          simp [hi]
    rw [hand, hdiv]
    rfl
  have h01 : (m.getD 0 0).toNat % 2 = 0 ∨ (m.getD 0 0).toNat % 2 = 1 := by omega
  refine ⟨?_, ?_, ?_, ?_⟩
  · unfold macIsMulticast
    rw [hbit]
    rcases h01 with h | h <;> rw [h] <;> decide
  · unfold macIsUnicast macIsMulticast
    rw [hbit]
    rcases h01 with h | h <;> rw [h] <;> decide
  · unfold macIsBroadcast
    rw [macToBits_eq, beq_iff_eq]
    constructor
    · intro h
      exact beVal_inj _ _ (by rw [hm]; rfl) (h.trans (by decide +kernel))
    · rintro rfl
      decide +kernel
  · unfold macIsZero
    rw [macToBits_eq, beq_iff_eq]
    constructor
    · intro h
      exact beVal_inj _ _ (by rw [hm]; rfl) (h.trans (by decide +kernel))
    · rintro rfl
      decide +kernel

example : macToBits [0xaa, 0xbb, 0xcc, 0xdd, 0xee, 0xff] = 0xaabbccddeeff ∧
    macFromBits 0x7700aabbccddeeff = [0xaa, 0xbb, 0xcc, 0xdd, 0xee, 0xff] ∧
    macIsMulticast [1, 0, 0x5e, 0, 0, 1] = true ∧ macIsUnicast [0xaa, 0, 0, 0, 0, 1] = true := by decide +kernel

end JBytes
