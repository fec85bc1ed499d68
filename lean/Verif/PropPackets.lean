import Verif.Packets
import Verif.PropStructRT
import Verif.PropAddr
import Verif.PropEnum
import Verif.PropFormat
import Verif.Storable
/-!
# Packet headers (C97)

The headers of the example programs against the layouts of their standards: RFC 791 (IPv4), RFC 9293 (TCP), RFC 768
(UDP) and IEEE 802.3 (Ethernet).
-/

namespace JBytes
open M

/-! ## The standards -/

/-- A number on one byte. -/
def oct1 (n : Nat) : List Byte := [UInt8.ofNat n]

/-- A number on two bytes, the most significant first. -/
def oct2 (n : Nat) : List Byte := [UInt8.ofNat (n / 256), UInt8.ofNat (n % 256)]

/-- A number on four bytes, the most significant first. -/
def oct4 (n : Nat) : List Byte :=
  [UInt8.ofNat (n / 16777216), UInt8.ofNat (n / 65536 % 256), UInt8.ofNat (n / 256 % 256), UInt8.ofNat (n % 256)]

/-- An IPv4 header (RFC 791, section 3.1).  `ihl` is its length in words of 32 bits. -/
structure Ip4Header where
  version : Nat
  ihl : Nat
  tos : Nat
  totalLength : Nat
  identification : Nat
  flags : Nat
  fragment : Nat
  ttl : Nat
  protocol : Nat
  checksum : Nat
  source : List Byte
  destination : List Byte
  options : List Byte

/-- The header on the wire: version and length share a byte, flags and fragment offset two of them. -/
def Ip4Header.wire (h : Ip4Header) : List Byte :=
  oct1 (16 * h.version + h.ihl) ++ (oct1 h.tos ++ (oct2 h.totalLength ++ (oct2 h.identification ++
    (oct2 (8192 * h.flags + h.fragment) ++ (oct1 h.ttl ++ (oct1 h.protocol ++ (oct2 h.checksum ++
      (h.source ++ (h.destination ++ h.options)))))))))

/-- The numbers have their widths. -/
structure Ip4Header.Sized (h : Ip4Header) : Prop where
  version : h.version < 16
  ihl : h.ihl < 16
  tos : h.tos < 256
  totalLength : h.totalLength < 65536
  identification : h.identification < 65536
  flags : h.flags < 8
  fragment : h.fragment < 8192
  ttl : h.ttl < 256
  protocol : h.protocol < 256
  checksum : h.checksum < 65536
  source : h.source.length = 4
  destination : h.destination.length = 4

/-- A header of the standard: at least five words, and the options are what the length leaves for them. -/
structure Ip4Header.Standard (h : Ip4Header) : Prop extends h.Sized where
  long : 5 ≤ h.ihl
  options : h.options.length = 4 * h.ihl - 20

/-- The value of the Rust type: `header_length` counts bytes. -/
def Ip4Header.value (h : Ip4Header) : List Pkt :=
  [.num h.version, .num (4 * h.ihl), .num h.tos, .num h.totalLength, .num h.identification, .num h.flags, .num h.fragment,
    .num h.ttl, .num h.protocol, .num h.checksum, .bytes h.source, .bytes h.destination, .bytes h.options]

/-- A TCP header (RFC 9293, section 3.1).  `offset` is its length in words of 32 bits, `control` the twelve bits after
it. -/
structure TcpHeader where
  source : Nat
  destination : Nat
  sequence : Nat
  acknowledgment : Nat
  offset : Nat
  control : Nat
  window : Nat
  checksum : Nat
  urgent : Nat
  options : List Byte

/-- The header on the wire. -/
def TcpHeader.wire (h : TcpHeader) : List Byte :=
  oct2 h.source ++ (oct2 h.destination ++ (oct4 h.sequence ++ (oct4 h.acknowledgment ++
    (oct2 (4096 * h.offset + h.control) ++ (oct2 h.window ++ (oct2 h.checksum ++ (oct2 h.urgent ++ h.options)))))))

/-- The numbers have their widths. -/
structure TcpHeader.Sized (h : TcpHeader) : Prop where
  source : h.source < 65536
  destination : h.destination < 65536
  sequence : h.sequence < 4294967296
  acknowledgment : h.acknowledgment < 4294967296
  offset : h.offset < 16
  control : h.control < 4096
  window : h.window < 65536
  checksum : h.checksum < 65536
  urgent : h.urgent < 65536

/-- A header of the standard: at least five words, and the options are what the length leaves for them. -/
structure TcpHeader.Standard (h : TcpHeader) : Prop extends h.Sized where
  long : 5 ≤ h.offset
  options : h.options.length = 4 * h.offset - 20

/-- The value of the Rust type: `header_length` counts bytes. -/
def TcpHeader.value (h : TcpHeader) : List Pkt :=
  [.num h.source, .num h.destination, .num h.sequence, .num h.acknowledgment, .num (4 * h.offset), .num h.control,
    .num h.window, .num h.checksum, .num h.urgent, .bytes h.options]

/-- A UDP header (RFC 768). -/
structure UdpHeader where
  source : Nat
  destination : Nat
  length : Nat
  checksum : Nat

/-- The header on the wire. -/
def UdpHeader.wire (h : UdpHeader) : List Byte := oct2 h.source ++ (oct2 h.destination ++ (oct2 h.length ++ oct2 h.checksum))

/-- The numbers have their widths. -/
structure UdpHeader.Standard (h : UdpHeader) : Prop where
  source : h.source < 65536
  destination : h.destination < 65536
  length : h.length < 65536
  checksum : h.checksum < 65536

/-- The value of the Rust type. -/
def UdpHeader.value (h : UdpHeader) : List Pkt :=
  [.num h.source, .num h.destination, .num h.length, .num h.checksum, .unit]

/-- An Ethernet header (IEEE 802.3, clause 3). -/
structure EthHeader where
  destination : List Byte
  source : List Byte
  type : Nat

/-- The header on the wire: the destination is first. -/
def EthHeader.wire (h : EthHeader) : List Byte := h.destination ++ (h.source ++ oct2 h.type)

/-- The parts have their widths. -/
structure EthHeader.Standard (h : EthHeader) : Prop where
  destination : h.destination.length = 6
  source : h.source.length = 6
  type : h.type < 65536

/-- The type `S` implements headers: it writes the layout of every header in `P`; it reads one if the input begins with
one, and is left behind it; otherwise it reports that bytes are missing. -/
def Implements (S : StructDef Pkt) (P : H → Prop) (value : H → List Pkt) (wire : H → List Byte) : Prop :=
  ∀ (ca : Option CAttr) (fa : Option FAttr),
    (∀ h, P h → Writes (encStruct S (value h) ca fa) (wire h)) ∧
    ∀ pre r : List Byte, pre.length + r.length ≤ isizeMax →
      (∃ h suf, P h ∧ r = wire h ++ suf ∧
        decStruct S ca fa ⟨pre ++ r, pre.length⟩ = (.ok (value h), ⟨pre ++ r, pre.length + (wire h).length⟩)) ∨
      (¬∃ h suf, P h ∧ r = wire h ++ suf) ∧ ∃ p b', decStruct S ca fa ⟨pre ++ r, pre.length⟩ = (.err ⟨p, .invalidByteLength⟩, b')

/-- The value of the Rust type: `smac` is the first field, `dmac` the second. -/
def ethValue (smac dmac : List Byte) (type : Nat) : List Pkt := [.bytes smac, .bytes dmac, .num type, .unit]

/-! ## Bytes -/

theorem ofNat_mod (n : Nat) : UInt8.ofNat (n % 256) = UInt8.ofNat n := by
  apply UInt8.toNat_inj.1
  simp

theorem oct1_eq (n : Nat) : toBytes .be 1 n = oct1 n := by simp [toBytes, toBE, oct1]

theorem oct2_eq (n : Nat) : toBytes .be 2 n = oct2 n := by
  simp [toBytes, toBE, oct2, ofNat_mod]

theorem oct4_eq (n : Nat) : toBytes .be 4 n = oct4 n := by
  simp [toBytes, toBE, oct4, ofNat_mod]

/-- The two parts of a word of `a + t` bits are found under their masks. -/
theorem split_word {a t w hi lo : Nat} (hw : w < 2 ^ (a + t)) (h1 : w &&& 2 ^ t * (2 ^ a - 1) = hi * 2 ^ t)
    (h2 : w &&& (2 ^ t - 1) = lo) : w = 2 ^ t * hi + lo := by
  rw [Nat.and_two_pow_sub_one_eq_mod] at h2
  have h3 : (w &&& 2 ^ t * (2 ^ a - 1)) >>> t = hi := by
    rw [h1, Nat.shiftRight_eq_div_pow, Nat.mul_div_cancel _ (Nat.pow_pos (by omega))]
  rw [Nat.shiftRight_and_distrib, Nat.shiftRight_eq_div_pow, Nat.shiftRight_eq_div_pow,
    Nat.mul_div_cancel_left _ (Nat.pow_pos (by omega)), Nat.and_two_pow_sub_one_eq_mod,
    Nat.mod_eq_of_lt (Nat.div_lt_of_lt_mul (by rw [← Nat.pow_add, Nat.add_comm]; exact hw))] at h3
  have := Nat.div_add_mod w (2 ^ t)
  rw [h2, h3] at this
  exact this.symm

/-- A number of `a` bits fits under a mask of `a` bits. -/
theorem fits_mask {a v : Nat} (t : Nat) (hv : v < 2 ^ a) : v * 2 ^ t &&& 2 ^ t * (2 ^ a - 1) = v * 2 ^ t := by
  rw [Nat.mul_comm (2 ^ t), ← Nat.shiftLeft_eq, ← Nat.shiftLeft_eq, ← Nat.shiftLeft_and_distrib,
    Nat.and_two_pow_sub_one_eq_mod, Nat.mod_eq_of_lt hv]

/-! ## Fields -/

theorem Segments.one {ce cd : Option CAttr} {f : Field V} {fs : List (Field V)} {ee ed : Env V} {v : V} {vs : List V}
    {w1 w2 suf : List Byte} (h : ∀ suf, SegRT [f] ce cd ee ed [v] w1 suf) (hv : f.attrs.variableName = none)
    (hs : Segments ce fs cd (ee.extend [v]) (ed.extend [v]) vs w2 suf) :
    Segments ce (f :: fs) cd ee ed (v :: vs) (w1 ++ w2) suf := by
  refine Segments.cons (fs := [f]) (vs := [v]) (h _) ?_
  have : cachedAfter [f] cd ed [v] = cd := by simp only [cachedAfter, cacheVars, hv]
  rw [this]
  exact hs

theorem seg_codec (f : Field Pkt) (hf : f.attrs = {}) (ee ed : Env Pkt) (v : Pkt) (w suf : List Byte)
    (hw : Writes (f.enc v none none) w) (hr : Reads (f.dec none none) v w suf) : SegRT [f] none none ee ed [v] w suf := by
  obtain ⟨a, d, e, x, y⟩ := f
  simp only at hf hw hr
  subst hf
  have := C43_field_plain ⟨{}, d, e, x, y⟩ none none ee ed v w suf ⟨rfl, rfl, rfl, rfl, rfl, rfl⟩ rfl
    (by intro e h; cases h) (by intro e h; cases h) rfl hw (fun _ => hr) (by intro c h; cases h) rfl (by intro c h; cases h)
  exact C43_field_segment this

theorem seg_int (k : IntKind) (hk : k.Valid) (ee ed : Env Pkt) (n : Nat) (hn : n < 256 ^ k.size) (suf : List Byte) :
    SegRT [Pkt.int k {}] none none ee ed [.num n] (toBytes .be k.size n) suf :=
  seg_codec _ rfl _ _ _ _ _ (int_writes k hk n none none rfl rfl) ((int_reads k hk n none none suf rfl rfl hn).mapped Pkt.num)

theorem seg_u8 (ee ed : Env Pkt) (n : Nat) (hn : n < 256) (suf : List Byte) :
    SegRT [Pkt.int ⟨1, false⟩ {}] none none ee ed [.num n] (oct1 n) suf := by
  rw [← oct1_eq]
  exact seg_int ⟨1, false⟩ (.mk _ _ (by decide)) ee ed n (by simpa using hn) suf

theorem seg_u16 (ee ed : Env Pkt) (n : Nat) (hn : n < 65536) (suf : List Byte) :
    SegRT [Pkt.int ⟨2, false⟩ {}] none none ee ed [.num n] (oct2 n) suf := by
  rw [← oct2_eq]
  exact seg_int ⟨2, false⟩ (.mk _ _ (by decide)) ee ed n (by simpa using hn) suf

theorem seg_u32 (ee ed : Env Pkt) (n : Nat) (hn : n < 4294967296) (suf : List Byte) :
    SegRT [Pkt.int ⟨4, false⟩ {}] none none ee ed [.num n] (oct4 n) suf := by
  rw [← oct4_eq]
  exact seg_int ⟨4, false⟩ (.mk _ _ (by decide)) ee ed n (by simpa using hn) suf

theorem seg_ipv4 (ee ed : Env Pkt) (d : List Byte) (hd : d.length = 4) (suf : List Byte) :
    SegRT [Pkt.ipv4] none none ee ed [.bytes d] d suf := by
  obtain ⟨h1, h2⟩ := (C37_fixed_addresses none none d).1 hd
  exact seg_codec _ rfl _ _ _ _ _ h1.writes ((h2 suf).mapped Pkt.bytes)

theorem seg_mac (ee ed : Env Pkt) (d : List Byte) (hd : d.length = 6) (suf : List Byte) :
    SegRT [Pkt.mac] none none ee ed [.bytes d] d suf := by
  obtain ⟨h1, h2⟩ := (C37_fixed_addresses none none d).2.2 hd
  exact seg_codec _ rfl _ _ _ _ _ h1.writes ((h2 suf).mapped Pkt.bytes)

theorem seg_mark (ee ed : Env Pkt) (suf : List Byte) : SegRT [Pkt.mark] none none ee ed [.unit] [] suf :=
  seg_codec _ rfl _ _ _ _ _ Appends.pure0.writes ((Reads.pure () suf).mapped fun _ => Pkt.unit)

/-- A field whose length is stated by the scope. -/
theorem seg_slice (len : Env Pkt → Nat) (ee ed : Env Pkt) (d suf : List Byte) (he : len ee = d.length)
    (hd : len ed = d.length) :
    SegRT [Pkt.slice { isUse := true, length := some len }] none none ee ed [.bytes d] d suf := by
  have e : bytesWire none (some { length := some d.length }) d = d := by
    simp [bytesWire, heads, framingOf, Framing.wire]
  have h1 := encBytes_appends d none (some { length := some d.length }) (fun k hk => by cases hk)
  have h2 := decBytes_reads d suf none (some { length := some d.length }) rfl
  rw [e] at h1 h2
  have oe : ownModifiers ({ isUse := true, length := some len } : FieldAttrs Pkt) ee = some { length := some d.length } := by
    rw [← he]; rfl
  have od : ownModifiers ({ isUse := true, length := some len } : FieldAttrs Pkt) ed = some { length := some d.length } := by
    rw [← hd]; rfl
  have := C43_field_plain (Pkt.slice { isUse := true, length := some len }) none none ee ed (.bytes d) d suf
    ⟨rfl, rfl, rfl, rfl, rfl, rfl⟩ rfl (by intro e h; cases h) (by intro e h; cases h) rfl
    (by show Writes (encBytes d none (ownModifiers ({ isUse := true, length := some len } : FieldAttrs Pkt) ee)) d
        rw [oe]; exact h1.writes)
    (fun _ => by
      show Reads (mapM' Pkt.bytes (decBytes none (ownModifiers ({ isUse := true, length := some len } : FieldAttrs Pkt) ed))) _ d suf
      rw [od]; exact h2.mapped Pkt.bytes)
    (by intro c h; cases h) rfl (by intro c h; cases h)
  exact C43_field_segment this

/-- Two fields that share a word: the upper `a` bits and the lower `t` bits. -/
theorem seg_pair (k : IntKind) (hk : k.Valid) (h8 : k.size ≤ 8) (hu : k.signed = false) (a t q r : Nat)
    (hat : 2 ^ (a + t) = 256 ^ k.size) (hq : 2 * q + 1 = 2 ^ a - 1) (hr : 2 * r + 1 = 2 ^ t - 1) (ee ed : Env Pkt)
    (f g : Field Pkt) (hi lo : Nat) (hhi : hi < 2 ^ a) (hlo : lo < 2 ^ t) (u v : Pkt)
    (he : IsGroup Pkt.num k ee [f, g]
      [⟨{ bits := some (2 ^ t * (2 * q + 1)), bitsStart := true }, t, q, hi⟩, ⟨{ bits := some (2 ^ 0 * (2 * r + 1)) }, 0, r, lo⟩] [u, v])
    (hd : IsGroup Pkt.num k ed [f, g]
      [⟨{ bits := some (2 ^ t * (2 * q + 1)), bitsStart := true }, t, q, hi⟩, ⟨{ bits := some (2 ^ 0 * (2 * r + 1)) }, 0, r, lo⟩] [u, v])
    (suf : List Byte) : SegRT [f, g] none none ee ed [u, v] (toBytes .be k.size (2 ^ t * hi + lo)) suf := by
  have pa : 0 < 2 ^ a := Nat.pow_pos (by omega)
  have pt : 0 < 2 ^ t := Nat.pow_pos (by omega)
  have hpow : 2 ^ t * 2 ^ a = 256 ^ k.size := by rw [← Nat.pow_add, Nat.add_comm t a, hat]
  have m1 : 2 ^ t * (2 * q + 1) < 256 ^ k.size := by
    rw [← hpow, hq]
    exact Nat.mul_lt_mul_of_pos_left (by omega) pt
  have m2 : 2 ^ 0 * (2 * r + 1) < 256 ^ k.size := by
    rw [← hpow, hr, Nat.pow_zero, Nat.one_mul]
    have : 2 ^ t * 1 ≤ 2 ^ t * 2 ^ a := Nat.mul_le_mul_left _ pa
    omega
  obtain ⟨w, hw, h1, -, h3⟩ := C43_group_segment Pkt.num k hk h8 hu none none .be ee ed [f, g]
    ⟨{ bits := some (2 ^ t * (2 * q + 1)), bitsStart := true }, t, q, hi⟩ [⟨{ bits := some (2 ^ 0 * (2 * r + 1)) }, 0, r, lo⟩]
    [u, v] he hd
    (by intro x hx
        simp only [List.mem_cons, List.not_mem_nil, or_false] at hx
        rcases hx with rfl | rfl
        · exact ⟨⟨rfl, rfl, rfl, m1⟩, ⟨rfl, rfl, rfl, m1⟩⟩
        · exact ⟨⟨rfl, rfl, rfl, m2⟩, ⟨rfl, rfl, rfl, m2⟩⟩)
    (by intro x hx
        simp only [List.mem_cons, List.not_mem_nil, or_false] at hx
        rcases hx with rfl | rfl
        · show hi * 2 ^ t &&& 2 ^ t * (2 * q + 1) = hi * 2 ^ t
          rw [hq]
          exact fits_mask t hhi
        · show lo * 2 ^ 0 &&& 2 ^ 0 * (2 * r + 1) = lo * 2 ^ 0
          rw [hr]
          exact fits_mask 0 hlo)
    rfl (by intro x hx; simp only [List.mem_cons, List.not_mem_nil, or_false] at hx; subst hx; rfl)
    (by
      refine List.Pairwise.cons ?_ (List.Pairwise.cons (by simp) .nil)
      intro x hx
      simp only [List.mem_cons, List.not_mem_nil, or_false] at hx
      subst hx
      show 2 ^ t * (2 * q + 1) &&& 2 ^ 0 * (2 * r + 1) = 0
      rw [hr, Nat.pow_zero, Nat.one_mul, Nat.and_two_pow_sub_one_eq_mod, Nat.mul_mod_right]) suf
  have e : w = 2 ^ t * hi + lo := by
    refine split_word (a := a) (by rw [hat]; exact hw) ?_ ?_
    · rw [← hq]
      exact h1 ⟨{ bits := some (2 ^ t * (2 * q + 1)), bitsStart := true }, t, q, hi⟩ (by simp)
    · have := h1 ⟨{ bits := some (2 ^ 0 * (2 * r + 1)) }, 0, r, lo⟩ (by simp)
      have this : w &&& 2 ^ 0 * (2 * r + 1) = lo * 2 ^ 0 := this
      rw [hr, Nat.pow_zero, Nat.one_mul, Nat.mul_one] at this
      exact this
  rw [← e]
  exact h3

theorem Segments.two {ce cd : Option CAttr} {f g : Field V} {fs : List (Field V)} {ee ed : Env V} {u v : V} {vs : List V}
    {w1 w2 suf : List Byte} (h : ∀ suf, SegRT [f, g] ce cd ee ed [u, v] w1 suf) (hf : f.attrs.variableName = none)
    (hg : g.attrs.variableName = none)
    (hs : Segments ce fs cd (ee.extend [u, v]) (ed.extend [u, v]) vs w2 suf) :
    Segments ce (f :: g :: fs) cd ee ed (u :: v :: vs) (w1 ++ w2) suf := by
  refine Segments.cons (fs := [f, g]) (vs := [u, v]) (h _) ?_
  have : cachedAfter [f, g] cd ed [u, v] = cd := by simp only [cachedAfter, cacheVars, hf, hg]
  rw [this]
  exact hs

/-! ## What is needed -/

/-- Reads `n` bytes if there are `need` of them; otherwise the error says that bytes are missing. -/
def Needs (m : M α) (need n : Nat) : Prop := ∀ b : Buf, b.Ok →
  (need ≤ b.data.length - b.pos → ∃ v, m b = (.ok v, ⟨b.data, b.pos + n⟩)) ∧
  (b.data.length - b.pos < need → ∃ p b', m b = (.err ⟨p, .invalidByteLength⟩, b'))

theorem Needs.congr {m m' : M α} {a n : Nat} (h : Needs m a n) (he : ∀ b, m' b = m b) : Needs m' a n := by
  intro b hb
  rw [he]
  exact h b hb

theorem Needs.pure (v : α) : Needs (Pure.pure v : M α) 0 0 :=
  fun _ _ => ⟨fun _ => ⟨v, rfl⟩, fun h => absurd h (Nat.not_lt_zero _)⟩

theorem Needs.bind {m : M α} {f : α → M β} {a n a' n' : Nat} (h : Needs m a n) (hn : n ≤ a) (hf : ∀ v, Needs (f v) a' n') :
    Needs (m >>= f) (max a (n + a')) (n + n') := by
  intro b hb
  obtain ⟨h1, h2⟩ := h b hb
  constructor
  · intro hle
    obtain ⟨v, hv⟩ := h1 (by omega)
    obtain ⟨x, hx⟩ := (hf v ⟨b.data, b.pos + n⟩ ⟨by have := hb.1; simp only; omega, hb.2⟩).1 (by simp only; omega)
    exact ⟨x, by rw [bind_apply, hv]; simp only [hx, Nat.add_assoc]⟩
  · intro hlt
    by_cases hc : a ≤ b.data.length - b.pos
    · obtain ⟨v, hv⟩ := h1 hc
      obtain ⟨p, b', hx⟩ := (hf v ⟨b.data, b.pos + n⟩ ⟨by have := hb.1; simp only; omega, hb.2⟩).2 (by simp only; omega)
      exact ⟨p, b', by rw [bind_apply, hv]; exact hx⟩
    · obtain ⟨p, b', hv⟩ := h2 (by omega)
      exact ⟨p, b', by rw [bind_apply, hv]⟩

theorem Needs.map {m : M α} {a n : Nat} (h : Needs m a n) (hn : n ≤ a) (g : α → β) : Needs (mapM' g m) a n := by
  have := h.bind hn (f := fun x => Pure.pure (g x)) fun v => Needs.pure (g v)
  rw [Nat.add_zero, Nat.max_eq_left hn] at this
  exact this

theorem takeBytes_needs (n : Nat) : Needs (takeBytes n) n n := by
  intro b hb
  rw [takeBytes_apply n b hb]
  constructor
  · intro h
    exact ⟨_, by rw [if_neg (by omega)]⟩
  · intro h
    exact ⟨_, _, by rw [if_pos h]⟩

theorem takeScalar_needs (s : Scalar) (o : ByteOrder) : Needs (takeScalar s o) s.size s.size := by
  intro b hb
  have h : takeScalar s o b = mapM' (fromBytes o) (takeBytes s.size) b := takeScalar_eq_fixed s o _ hb
  rw [h]
  exact ((takeBytes_needs s.size).map (Nat.le_refl _) _) b hb

theorem takeUint_needs (n : Nat) (hn : n ≤ 8) (o : ByteOrder) : Needs (takeUint n o) n n := by
  have h := takeBytes_needs n
  intro b hb
  constructor
  · intro hle
    have := hb.1
    exact takeUint_ok o hn hb (by omega)
  · intro hlt
    obtain ⟨p, b', he⟩ := (h b hb).2 hlt
    refine ⟨p, b', ?_⟩
    cases o
    · simp only [takeUint, takeN, takeBeN, ite_apply', hn, if_true, bind_apply, he]
    · simp only [takeUint, takeN, takeLeN, ite_apply', hn, if_true, bind_apply, he]

theorem decInt_needs (k : IntKind) (hk : k.Valid) (ca : Option CAttr) (fa : Option FAttr) (hl : fa.bind (·.length) = none) :
    Needs (decInt k ca fa) k.size k.size := by
  unfold decInt
  rw [hl]
  have h := takeScalar_needs k.scalar (getByteorder ca fa)
  rw [scalar_size hk] at h
  have := h.bind (f := fun v => (match fa.bind (·.bits) with
    | some m => Pure.pure (bitsShr k (8 * k.size) (v &&& fromU64 k m) (fromU64 k m))
    | none => Pure.pure v : M Nat)) (Nat.le_refl _) (a' := 0) (n' := 0) (fun v => by
      cases fa.bind (·.bits) <;> exact Needs.pure _)
  rw [Nat.add_zero, Nat.max_self] at this
  exact this

/-- The same for a field. -/
def FieldNeeds (f : Field V) (a n : Nat) : Prop := ∀ ca env, Needs (fieldStep f ca env) a n

theorem field_needs (f : Field V) {a n m : Nat} (hord : Ordinary f.attrs) (ho : f.attrs.byteorder = none)
    (hoff : f.attrs.offset = none) (hi : f.attrs.ifExpr = none) (hc : f.attrs.checkValue = none)
    (h : ∀ ca env, Needs (f.dec ca (ownModifiers f.attrs env)) a n) (hm : m = if f.attrs.untake then 0 else n) :
    FieldNeeds f a m := by
  intro ca env b hb
  obtain ⟨h1, h2, h3, h4, h5, h6⟩ := hord
  have e : fieldStep f ca env b = decField f env ca (ownModifiers f.attrs env) b := by
    rw [fieldStep, bind_apply, toCode_ok _ _ (by intro e he; rw [ho] at he; cases he)]
  rw [e]
  obtain ⟨k1, k2⟩ := h ca env b hb
  constructor
  · intro hle
    obtain ⟨v, hv⟩ := k1 hle
    have := (C42_decoded f env ca (ownModifiers f.attrs env) hoff h1 h3 h5 h6 (by rw [hi]; intro c hc; cases hc)
      b _ v hv _ rfl).1 (by intro c h; rw [hc] at h; cases h)
    refine ⟨finalValue f env v, this.trans ?_⟩
    rw [hm]
    cases f.attrs.untake <;> rfl
  · intro hlt
    obtain ⟨p, b', hv⟩ := k2 hlt
    refine ⟨p, b', ?_⟩
    simp only [decField, skipOffset, hoff, h1, h3, h5, h6, decPlain, decCond, hi, bind_apply, pure_apply, getPos_apply,
      Bool.or_self, Bool.false_eq_true, if_false, hv]

/-- The same for a run of fields. -/
def FieldsNeed (fs : List (Field V)) (a n : Nat) : Prop := ∀ ca env, Needs (decFields false fs ca none env) a n

theorem FieldsNeed.nil : FieldsNeed ([] : List (Field V)) 0 0 := fun _ _ => Needs.pure []

theorem FieldsNeed.cons {f : Field V} {fs : List (Field V)} {a n a' n' : Nat} (h : FieldNeeds f a n) (hn : n ≤ a)
    (hs : FieldsNeed fs a' n') (hn' : n' ≤ a') : FieldsNeed (f :: fs) (max a (n + a')) (n + n') := by
  intro ca env
  refine Needs.congr ((h ca env).bind hn fun v => ?_) (decFields_cons f fs ca env)
  have := (hs (cacheVars f.attrs ca (env.push v)) (env.push v)).bind hn' (f := fun vs => (Pure.pure (v :: vs) : M (List V)))
    fun vs => Needs.pure _
  rw [Nat.add_zero, Nat.max_eq_left hn'] at this
  exact this

theorem int_needs (k : IntKind) (hk : k.Valid) : FieldNeeds (Pkt.int k {}) k.size k.size :=
  field_needs _ ⟨rfl, rfl, rfl, rfl, rfl, rfl⟩ rfl rfl rfl rfl
    (fun ca _ => (decInt_needs k hk ca _ rfl).map (Nat.le_refl _) _) rfl

theorem bits_needs (k : IntKind) (hk : k.Valid) (a : FieldAttrs Pkt) (n : Nat) (h1 : Ordinary a) (h2 : a.byteorder = none)
    (h3 : a.offset = none) (h4 : a.ifExpr = none) (h5 : a.checkValue = none)
    (h6 : ∀ env, (ownModifiers a env).bind (·.length) = none) (h7 : n = if a.untake then 0 else k.size) :
    FieldNeeds (Pkt.int k a) k.size n :=
  field_needs _ h1 h2 h3 h4 h5 (fun ca env => (decInt_needs k hk ca _ (h6 env)).map (Nat.le_refl _) _) h7

theorem ipv4_needs : FieldNeeds Pkt.ipv4 4 4 :=
  field_needs _ ⟨rfl, rfl, rfl, rfl, rfl, rfl⟩ rfl rfl rfl rfl
    (fun ca _ => ((takeScalar_needs .u32 (getByteorder ca none)).map (Nat.le_refl _) (toBE 4)).map (Nat.le_refl _) _) rfl

theorem mac_needs : FieldNeeds Pkt.mac 6 6 :=
  field_needs _ ⟨rfl, rfl, rfl, rfl, rfl, rfl⟩ rfl rfl rfl rfl
    (fun ca _ => ((takeUint_needs 6 (by decide) (getByteorder ca none)).map (Nat.le_refl _) macFromBits).map (Nat.le_refl _) _) rfl

theorem mark_needs : FieldNeeds Pkt.mark 0 0 :=
  field_needs _ ⟨rfl, rfl, rfl, rfl, rfl, rfl⟩ rfl rfl rfl rfl
    (fun _ _ => (Needs.pure ()).map (Nat.le_refl _) _) rfl

theorem valid1 : (⟨1, false⟩ : IntKind).Valid := .mk _ _ (by decide)
theorem valid2 : (⟨2, false⟩ : IntKind).Valid := .mk _ _ (by decide)
theorem valid4 : (⟨4, false⟩ : IntKind).Valid := .mk _ _ (by decide)

/-! ## All inputs -/

/-- On every input the decoder takes one of the images in `W` from the front, or it reports that bytes are missing. -/
def Covers (m : M α) (W : α → List Byte → Prop) : Prop := ∀ pre r : List Byte, pre.length + r.length ≤ isizeMax →
  (∃ v w suf, r = w ++ suf ∧ W v w ∧ m ⟨pre ++ r, pre.length⟩ = (.ok v, ⟨pre ++ r, pre.length + w.length⟩)) ∨
  ∃ p b', m ⟨pre ++ r, pre.length⟩ = (.err ⟨p, .invalidByteLength⟩, b')

theorem Covers.congr {m m' : M α} {W : α → List Byte → Prop} (h : Covers m W) (he : ∀ b, m' b = m b) : Covers m' W := by
  intro pre r hp
  rw [he]
  exact h pre r hp

theorem Covers.mono {m : M α} {W W' : α → List Byte → Prop} (h : Covers m W) (hw : ∀ v w, W v w → W' v w) : Covers m W' := by
  intro pre r hp
  rcases h pre r hp with ⟨v, w, suf, h1, h2, h3⟩ | h
  · exact .inl ⟨v, w, suf, h1, hw _ _ h2, h3⟩
  · exact .inr h

theorem Covers.pure (v : α) : Covers (Pure.pure v) fun v' w => v' = v ∧ w = [] :=
  fun _ r _ => .inl ⟨v, [], r, rfl, ⟨rfl, rfl⟩, rfl⟩

theorem Covers.bindWith {m : M α} {f : α → M β} {W : α → List Byte → Prop} {W' : α → List Byte → β → List Byte → Prop}
    (h : Covers m W) (hf : ∀ v w, W v w → Covers (f v) (W' v w)) :
    Covers (m >>= f) fun x w => ∃ v w1 w2, w = w1 ++ w2 ∧ W v w1 ∧ W' v w1 x w2 := by
  intro pre r hp
  rcases h pre r hp with ⟨v, w, suf, h1, h2, h3⟩ | ⟨p, b', h⟩
  · subst h1
    have hp' : (pre ++ w).length + suf.length ≤ isizeMax := by simp only [List.length_append] at hp ⊢; omega
    have e : (⟨pre ++ (w ++ suf), pre.length + w.length⟩ : Buf) = ⟨(pre ++ w) ++ suf, (pre ++ w).length⟩ := by
      simp only [List.append_assoc, List.length_append]
    rcases hf v w h2 (pre ++ w) suf hp' with ⟨x, w2, suf2, k1, k2, k3⟩ | ⟨p, b', k⟩
    · subst k1
      refine .inl ⟨x, w ++ w2, suf2, by simp only [List.append_assoc], ⟨v, w, w2, rfl, h2, k2⟩, ?_⟩
      rw [bind_apply, h3]
      simp only
      rw [e, k3]
      simp only [List.append_assoc, List.length_append, Nat.add_assoc]
    · refine .inr ⟨p, b', ?_⟩
      rw [bind_apply, h3]
      simp only
      rw [e, k]
  · exact .inr ⟨p, b', by rw [bind_apply, h]⟩

theorem Covers.bind {m : M α} {f : α → M β} {W : α → List Byte → Prop} {W' : α → β → List Byte → Prop} (h : Covers m W)
    (hf : ∀ v w, W v w → Covers (f v) (W' v)) :
    Covers (m >>= f) fun x w => ∃ v w1 w2, w = w1 ++ w2 ∧ W v w1 ∧ W' v x w2 :=
  h.bindWith hf

theorem Covers.map {m : M α} {W : α → List Byte → Prop} (h : Covers m W) (g : α → β) :
    Covers (mapM' g m) fun x w => ∃ v, x = g v ∧ W v w := by
  refine (h.bind (f := fun v => Pure.pure (g v)) fun v w _ => Covers.pure (g v)).mono ?_
  rintro x w ⟨v, w1, w2, rfl, h1, rfl, rfl⟩
  exact ⟨v, rfl, by rw [List.append_nil]; exact h1⟩

/-- A decoder of a fixed number of bytes, all of which are images. -/
theorem Covers.fixed {m : M α} {n : Nat} {W : α → List Byte → Prop} (h : Needs m n n)
    (hw : ∀ x : List Byte, x.length = n → ∃ v, W v x ∧ ∀ suf, Reads m v x suf) : Covers m W := by
  intro pre r hp
  have hb : (⟨pre ++ r, pre.length⟩ : Buf).Ok := ⟨by simp, by simpa using hp⟩
  by_cases hn : r.length < n
  · refine .inr ((h _ hb).2 ?_)
    simpa using hn
  · obtain ⟨v, h1, h2⟩ := hw (r.take n) (by rw [List.length_take]; omega)
    refine .inl ⟨v, r.take n, r.drop n, (List.take_append_drop n r).symm, h1, ?_⟩
    have := h2 (r.drop n) pre (by
      rw [List.length_take, List.length_drop]
      omega)
    rw [List.take_append_drop] at this
    exact this

/-- A field without modifiers that change what its type reads. -/
theorem fieldStep_plain (f : Field V) (hord : Ordinary f.attrs) (ho : f.attrs.byteorder = none)
    (hoff : f.attrs.offset = none) (hi : f.attrs.ifExpr = none) (hc : f.attrs.checkValue = none) (hu : f.attrs.untake = false)
    (hv : f.attrs.valueDecode = none) (ca : Option CAttr) (env : Env V) (b : Buf) :
    fieldStep f ca env b = f.dec ca (ownModifiers f.attrs env) b := by
  obtain ⟨h1, h2, h3, h4, h5, h6⟩ := hord
  rw [fieldStep, bind_apply, toCode_ok _ _ (by intro e he; rw [ho] at he; cases he)]
  simp only [decField, skipOffset, hoff, h1, h3, h5, h6, decPlain, decCond, hi, bind_apply, pure_apply, getPos_apply,
    Bool.or_self, Bool.false_eq_true, if_false]
  rcases f.dec ca (ownModifiers f.attrs env) b with ⟨o, b'⟩
  cases o with
  | ok v => simp only [finishValue, hc, hu, hv, pure_apply, bind_apply, Bool.false_eq_true, if_false]
  | _ => rfl

theorem slice_covers (len : Env Pkt → Nat) (ca : Option CAttr) (env : Env Pkt) :
    Covers (decFields false [Pkt.slice { isUse := true, length := some len }] ca none env)
      fun vs w => w.length = len env ∧ vs = [.bytes w] := by
  have h : Covers (takeBytes (len env)) fun v w => w.length = len env ∧ v = w := by
    refine Covers.fixed (takeBytes_needs _) fun x hx => ⟨x, ⟨hx, rfl⟩, fun suf => ?_⟩
    rw [← hx]
    exact Reads.bytes x suf
  have e : ∀ b, fieldStep (Pkt.slice { isUse := true, length := some len }) ca env b = mapM' Pkt.bytes (takeBytes (len env)) b := by
    intro b
    rw [fieldStep_plain _ ⟨rfl, rfl, rfl, rfl, rfl, rfl⟩ rfl rfl rfl rfl rfl rfl]
    rfl
  refine Covers.congr (((h.map Pkt.bytes).congr e).bind fun v w _ => Covers.pure [v]) (fun b => ?_) |>.mono ?_
  · rw [decFields_cons, bind_apply, bind_apply]
    rcases fieldStep (Pkt.slice { isUse := true, length := some len }) ca env b with ⟨o, b'⟩
    cases o <;> rfl
  · rintro vs w ⟨v, w1, w2, rfl, ⟨x, rfl, h1, rfl⟩, rfl, rfl⟩
    rw [List.append_nil]
    exact ⟨h1, rfl⟩

/-! ## IPv4 -/

/-- The parts up to the options. -/
def Ip4Header.fixed (h : Ip4Header) : List Byte :=
  oct1 (16 * h.version + h.ihl) ++ (oct1 h.tos ++ (oct2 h.totalLength ++ (oct2 h.identification ++
    (oct2 (8192 * h.flags + h.fragment) ++ (oct1 h.ttl ++ (oct1 h.protocol ++ (oct2 h.checksum ++
      (h.source ++ (h.destination ++ []))))))))) 

/-- Their values. -/
def Ip4Header.fixedValue (h : Ip4Header) : List Pkt :=
  [.num h.version, .num (4 * h.ihl), .num h.tos, .num h.totalLength, .num h.identification, .num h.flags, .num h.fragment,
    .num h.ttl, .num h.protocol, .num h.checksum, .bytes h.source, .bytes h.destination]

theorem ip4_fixed (h : Ip4Header) (hh : h.Sized) (ee ed : Env Pkt) (suf : List Byte) :
    SegRT ip4Fixed none none ee ed h.fixedValue h.fixed suf := by
  obtain ⟨h1, h2, h3, h4, h5, h6, h7, h8, h9, h10, h11, h12⟩ := hh
  refine Segments.roundtrip ?_
  refine .two (fun suf => ?_) rfl rfl (.one (seg_u8 _ _ _ h3) rfl (.one (seg_u16 _ _ _ h4) rfl (.one (seg_u16 _ _ _ h5) rfl
    (.two (fun suf => ?_) rfl rfl (.one (seg_u8 _ _ _ h8) rfl (.one (seg_u8 _ _ _ h9) rfl (.one (seg_u16 _ _ _ h10) rfl
      (.one (seg_ipv4 _ _ _ h11) rfl (.one (seg_ipv4 _ _ _ h12) rfl (.nil _ _ _ _))))))))))
  · have m : ∀ env : Env Pkt, IsGroup Pkt.num ⟨1, false⟩ env (ip4Fixed.take 2)
        [⟨{ bits := some (2 ^ 4 * (2 * 7 + 1)), bitsStart := true }, 4, 7, h.version⟩, ⟨{ bits := some (2 ^ 0 * (2 * 7 + 1)) }, 0, 7, h.ihl⟩]
        [.num h.version, .num (4 * h.ihl)] := fun env =>
      ⟨⟨fun _ _ => rfl, fun _ _ _ => rfl, ⟨rfl, rfl, rfl, rfl, rfl, rfl⟩, (by intro e h; cases h), rfl, rfl, rfl, rfl, rfl, rfl,
        (by intro c h; cases h), rfl⟩, rfl,
        ⟨fun _ _ => rfl, fun _ _ _ => rfl, ⟨rfl, rfl, rfl, rfl, rfl, rfl⟩, (by intro e h; cases h), rfl, rfl, rfl, rfl,
          (by show Pkt.num (4 * h.ihl / 4) = _; rw [Nat.mul_div_cancel_left _ (by omega)]),
          (by show Pkt.num (h.ihl * 4 % 256) = _; rw [Nat.mod_eq_of_lt (by omega), Nat.mul_comm]),
          (by intro c h; cases h), rfl⟩, rfl⟩
    have := seg_pair ⟨1, false⟩ (.mk _ _ (by decide)) (by decide) rfl 4 4 7 7 (by decide) (by decide) (by decide) ee ed _ _
      h.version h.ihl h1 h2 _ _ (m ee) (m ed) suf
    rw [← oct1_eq]
    exact this
  · have m : ∀ env : Env Pkt, IsGroup Pkt.num ⟨2, false⟩ env ((ip4Fixed.drop 5).take 2)
        [⟨{ bits := some (2 ^ 13 * (2 * 3 + 1)), bitsStart := true }, 13, 3, h.flags⟩, ⟨{ bits := some (2 ^ 0 * (2 * 4095 + 1)) }, 0, 4095, h.fragment⟩]
        [.num h.flags, .num h.fragment] := fun env =>
      ⟨⟨fun _ _ => rfl, fun _ _ _ => rfl, ⟨rfl, rfl, rfl, rfl, rfl, rfl⟩, (by intro e h; cases h), rfl, rfl, rfl, rfl, rfl, rfl,
        (by intro c h; cases h), rfl⟩, rfl,
        ⟨fun _ _ => rfl, fun _ _ _ => rfl, ⟨rfl, rfl, rfl, rfl, rfl, rfl⟩, (by intro e h; cases h), rfl, rfl, rfl, rfl, rfl, rfl,
          (by intro c h; cases h), rfl⟩, rfl⟩
    have := fun ee ed => seg_pair ⟨2, false⟩ (.mk _ _ (by decide)) (by decide) rfl 3 13 3 4095 (by decide) (by decide)
      (by decide) ee ed _ _ h.flags h.fragment h6 h7 _ _ (m ee) (m ed) suf
    rw [← oct2_eq]
    exact this _ _

theorem ip4Fixed_needs : FieldsNeed ip4Fixed 20 20 := by
  exact .cons (bits_needs ⟨1, false⟩ valid1 _ 0 ⟨rfl, rfl, rfl, rfl, rfl, rfl⟩ rfl rfl rfl rfl (fun _ => rfl) rfl) (by decide)
    (.cons (bits_needs ⟨1, false⟩ valid1 _ 1 ⟨rfl, rfl, rfl, rfl, rfl, rfl⟩ rfl rfl rfl rfl (fun _ => rfl) rfl) (by decide)
    (.cons (int_needs _ valid1) (by decide) (.cons (int_needs _ valid2) (by decide) (.cons (int_needs _ valid2) (by decide)
    (.cons (bits_needs ⟨2, false⟩ valid2 _ 0 ⟨rfl, rfl, rfl, rfl, rfl, rfl⟩ rfl rfl rfl rfl (fun _ => rfl) rfl) (by decide)
    (.cons (bits_needs ⟨2, false⟩ valid2 _ 2 ⟨rfl, rfl, rfl, rfl, rfl, rfl⟩ rfl rfl rfl rfl (fun _ => rfl) rfl) (by decide)
    (.cons (int_needs _ valid1) (by decide) (.cons (int_needs _ valid1) (by decide) (.cons (int_needs _ valid2) (by decide)
    (.cons ipv4_needs (by decide) (.cons ipv4_needs (by decide) .nil (by decide)) (by decide)) (by decide)) (by decide)) (by decide)) (by decide)) (by decide)) (by decide)) (by decide)) (by decide)) (by decide)) (by decide)

theorem oct1_of (a : Byte) : oct1 a.toNat = [a] := by simp [oct1]

theorem oct2_of (a b : Byte) : oct2 (256 * a.toNat + b.toNat) = [a, b] := by
  have h1 := a.toNat_lt
  have h2 := b.toNat_lt
  have e1 : (256 * a.toNat + b.toNat) / 256 = a.toNat := by omega
  have e2 : (256 * a.toNat + b.toNat) % 256 = b.toNat := by omega
  simp only [oct2, e1, e2, UInt8.ofNat_toNat]

theorem oct4_of (a b c d : Byte) : oct4 (16777216 * a.toNat + 65536 * b.toNat + 256 * c.toNat + d.toNat) = [a, b, c, d] := by
  have h1 := a.toNat_lt
  have h2 := b.toNat_lt
  have h3 := c.toNat_lt
  have h4 := d.toNat_lt
  have e1 : (16777216 * a.toNat + 65536 * b.toNat + 256 * c.toNat + d.toNat) / 16777216 = a.toNat := by omega
  have e2 : (16777216 * a.toNat + 65536 * b.toNat + 256 * c.toNat + d.toNat) / 65536 % 256 = b.toNat := by omega
  have e3 : (16777216 * a.toNat + 65536 * b.toNat + 256 * c.toNat + d.toNat) / 256 % 256 = c.toNat := by omega
  have e4 : (16777216 * a.toNat + 65536 * b.toNat + 256 * c.toNat + d.toNat) % 256 = d.toNat := by omega
  simp only [oct4, e1, e2, e3, e4, UInt8.ofNat_toNat]

theorem list_succ {x : List Byte} {n : Nat} (h : x.length = n + 1) : ∃ a y, x = a :: y ∧ y.length = n := by
  cases x with
  | nil => simp at h
  | cons a y => exact ⟨a, y, rfl, by simpa using h⟩

/-- Any twenty bytes are the fixed part of some header. -/
theorem ip4_fixed_any (x : List Byte) (hx : x.length = 20) : ∃ h : Ip4Header, h.Sized ∧ h.options = [] ∧ h.fixed = x := by
  obtain ⟨a0, x0, rfl, hx0⟩ := list_succ hx
  obtain ⟨a1, x1, rfl, hx1⟩ := list_succ hx0
  obtain ⟨a2, x2, rfl, hx2⟩ := list_succ hx1
  obtain ⟨a3, x3, rfl, hx3⟩ := list_succ hx2
  obtain ⟨a4, x4, rfl, hx4⟩ := list_succ hx3
  obtain ⟨a5, x5, rfl, hx5⟩ := list_succ hx4
  obtain ⟨a6, x6, rfl, hx6⟩ := list_succ hx5
  obtain ⟨a7, x7, rfl, hx7⟩ := list_succ hx6
  obtain ⟨a8, x8, rfl, hx8⟩ := list_succ hx7
  obtain ⟨a9, x9, rfl, hx9⟩ := list_succ hx8
  obtain ⟨a10, x10, rfl, hx10⟩ := list_succ hx9
  obtain ⟨a11, x11, rfl, hx11⟩ := list_succ hx10
  have h0 := a0.toNat_lt
  have h1 := a1.toNat_lt
  have h2 := a2.toNat_lt
  have h3 := a3.toNat_lt
  have h4 := a4.toNat_lt
  have h5 := a5.toNat_lt
  have h6 := a6.toNat_lt
  have h7 := a7.toNat_lt
  have h8 := a8.toNat_lt
  have h9 := a9.toNat_lt
  have h10 := a10.toNat_lt
  have h11 := a11.toNat_lt
  refine ⟨⟨a0.toNat / 16, a0.toNat % 16, a1.toNat, 256 * a2.toNat + a3.toNat, 256 * a4.toNat + a5.toNat,
    (256 * a6.toNat + a7.toNat) / 8192, (256 * a6.toNat + a7.toNat) % 8192, a8.toNat, a9.toNat,
    256 * a10.toNat + a11.toNat, x11.take 4, x11.drop 4, []⟩, ?_, rfl, ?_⟩
  · constructor <;> simp only [List.length_take, List.length_drop] <;> omega
  · simp only [Ip4Header.fixed, Nat.div_add_mod, oct1_of, oct2_of, List.append_nil, List.take_append_drop, List.cons_append,
      List.nil_append]

/-- The headers the code takes: the length of the options is the difference in the arithmetic of `u8`. -/
structure Ip4Header.Held (h : Ip4Header) : Prop extends h.Sized where
  options : h.options.length = (4 * h.ihl + 236) % 256

theorem Ip4Header.Standard.held {h : Ip4Header} (hh : h.Standard) : h.Held :=
  ⟨hh.toSized, by have := hh.options; have := hh.long; have := hh.ihl; omega⟩

theorem Ip4Header.wire_eq (h : Ip4Header) : h.wire = h.fixed ++ h.options := by
  simp [Ip4Header.wire, Ip4Header.fixed]

theorem Ip4Header.value_eq (h : Ip4Header) : h.value = h.fixedValue ++ [.bytes h.options] := rfl

theorem ip4_cached (ca : Option CAttr) (env : Env Pkt) (h : Ip4Header) : cachedAfter ip4Fixed ca env h.fixedValue = ca := rfl

theorem ip4_length (vars : List (String × Nat)) (h : Ip4Header) :
    ip4OptionsLength (({ vars := vars } : Env Pkt).extend h.fixedValue) = (4 * h.ihl + 236) % 256 := rfl

theorem ip4_roundtrip (h : Ip4Header) (hh : h.Held) (ca ca' : Option CAttr) (fa fa' : Option FAttr) (suf : List Byte) :
    Writes (encStruct ip4 h.value ca fa) h.wire ∧ Reads (decStruct ip4 ca' fa') h.value h.wire suf := by
  refine C43_struct_roundtrip ip4 rfl rfl (by intro h; cases h) ca ca' fa fa' h.value h.wire suf ?_
  rw [h.wire_eq, h.value_eq]
  refine Segments.cons (ip4_fixed h hh.toSized _ _ _) ?_
  have e := Segments.one (cd := none) (fs := []) (vs := []) (fun suf => seg_slice ip4OptionsLength
    (({ vars := localVars ip4.getVars ca } : Env Pkt).extend h.fixedValue)
    (({ vars := localVars ip4.getVars ca' } : Env Pkt).extend h.fixedValue) h.options suf
    ((ip4_length _ h).trans hh.options.symm) ((ip4_length _ h).trans hh.options.symm)) rfl (.nil _ _ _ suf)
  rw [List.append_nil] at e
  exact e

theorem ip4_covers (ca : Option CAttr) (fa : Option FAttr) :
    Covers (decStruct ip4 ca fa) fun v w => ∃ h : Ip4Header, h.Held ∧ v = h.value ∧ w = h.wire := by
  have e : ∀ b, decStruct ip4 ca fa b = decFields false (ip4Fixed ++ [Pkt.slice { isUse := true, length := some ip4OptionsLength }])
      none none { vars := localVars [] ca } b := fun _ => rfl
  have h1 : Covers (decFields false ip4Fixed none none { vars := localVars [] ca })
      fun v w => ∃ h : Ip4Header, h.Sized ∧ v = h.fixedValue ∧ w = h.fixed := by
    refine Covers.fixed (ip4Fixed_needs _ _) fun x hx => ?_
    obtain ⟨h, hs, -, rfl⟩ := ip4_fixed_any x hx
    exact ⟨_, ⟨h, hs, rfl, rfl⟩, fun suf => (ip4_fixed h hs { vars := localVars [] ca } _ suf).reads⟩
  refine Covers.congr (h1.bind fun v w hv => (slice_covers ip4OptionsLength (cachedAfter ip4Fixed none { vars := localVars [] ca } v)
    (({ vars := localVars [] ca } : Env Pkt).extend v)).bind fun ws _ _ => Covers.pure (v ++ ws))
    (fun b => (e b).trans (decFields_append _ _ _ _ b)) |>.mono ?_
  rintro vs w ⟨v, w1, w2, rfl, ⟨h, hs, rfl, rfl⟩, ws, w3, w4, rfl, ⟨h3, rfl⟩, rfl, rfl⟩
  rw [ip4_length] at h3
  refine ⟨{ h with options := w3 }, ⟨⟨hs.1, hs.2, hs.3, hs.4, hs.5, hs.6, hs.7, hs.8, hs.9, hs.10, hs.11, hs.12⟩, h3⟩, rfl, ?_⟩
  rw [Ip4Header.wire_eq, List.append_nil]
  rfl

/-! ## TCP -/

/-- The parts up to the options. -/
def TcpHeader.fixed (h : TcpHeader) : List Byte :=
  oct2 h.source ++ (oct2 h.destination ++ (oct4 h.sequence ++ (oct4 h.acknowledgment ++
    (oct2 (4096 * h.offset + h.control) ++ (oct2 h.window ++ (oct2 h.checksum ++ (oct2 h.urgent ++ [])))))))

/-- Their values. -/
def TcpHeader.fixedValue (h : TcpHeader) : List Pkt :=
  [.num h.source, .num h.destination, .num h.sequence, .num h.acknowledgment, .num (4 * h.offset), .num h.control,
    .num h.window, .num h.checksum, .num h.urgent]

theorem tcp_fixed (h : TcpHeader) (hh : h.Sized) (ee ed : Env Pkt) (suf : List Byte) :
    SegRT tcpFixed none none ee ed h.fixedValue h.fixed suf := by
  obtain ⟨h1, h2, h3, h4, h5, h6, h7, h8, h9⟩ := hh
  refine Segments.roundtrip ?_
  refine .one (seg_u16 _ _ _ h1) rfl (.one (seg_u16 _ _ _ h2) rfl (.one (seg_u32 _ _ _ h3) rfl (.one (seg_u32 _ _ _ h4) rfl
    (.two (fun suf => ?_) rfl rfl (.one (seg_u16 _ _ _ h7) rfl (.one (seg_u16 _ _ _ h8) rfl (.one (seg_u16 _ _ _ h9) rfl
      (.nil _ _ _ _))))))))
  have m : ∀ env : Env Pkt, IsGroup Pkt.num ⟨2, false⟩ env ((tcpFixed.drop 4).take 2)
      [⟨{ bits := some (2 ^ 12 * (2 * 7 + 1)), bitsStart := true }, 12, 7, h.offset⟩, ⟨{ bits := some (2 ^ 0 * (2 * 2047 + 1)) }, 0, 2047, h.control⟩]
      [.num (4 * h.offset), .num h.control] := fun env =>
    ⟨⟨fun _ _ => rfl, fun _ _ _ => rfl, ⟨rfl, rfl, rfl, rfl, rfl, rfl⟩, (by intro e h; cases h), rfl, rfl, rfl, rfl,
        (by show Pkt.num (4 * h.offset / 4) = _; rw [Nat.mul_div_cancel_left _ (by omega)]),
        (by show Pkt.num (h.offset * 4 % 65536) = _; rw [Nat.mod_eq_of_lt (by omega), Nat.mul_comm]),
        (by intro c h; cases h), rfl⟩, rfl,
      ⟨fun _ _ => rfl, fun _ _ _ => rfl, ⟨rfl, rfl, rfl, rfl, rfl, rfl⟩, (by intro e h; cases h), rfl, rfl, rfl, rfl, rfl, rfl,
        (by intro c h; cases h), rfl⟩, rfl⟩
  have := fun ee ed => seg_pair ⟨2, false⟩ (.mk _ _ (by decide)) (by decide) rfl 4 12 7 2047 (by decide) (by decide)
    (by decide) ee ed _ _ h.offset h.control h5 h6 _ _ (m ee) (m ed) suf
  rw [← oct2_eq]
  exact this _ _

theorem tcpFixed_needs : FieldsNeed tcpFixed 20 20 := by
  exact .cons (int_needs _ valid2) (by decide) (.cons (int_needs _ valid2) (by decide) (.cons (int_needs _ valid4) (by decide)
    (.cons (int_needs _ valid4) (by decide)
    (.cons (bits_needs ⟨2, false⟩ valid2 _ 0 ⟨rfl, rfl, rfl, rfl, rfl, rfl⟩ rfl rfl rfl rfl (fun _ => rfl) rfl) (by decide)
    (.cons (bits_needs ⟨2, false⟩ valid2 _ 2 ⟨rfl, rfl, rfl, rfl, rfl, rfl⟩ rfl rfl rfl rfl (fun _ => rfl) rfl) (by decide)
    (.cons (int_needs _ valid2) (by decide) (.cons (int_needs _ valid2) (by decide) (.cons (int_needs _ valid2) (by decide) .nil
    (by decide)) (by decide)) (by decide)) (by decide)) (by decide)) (by decide)) (by decide)) (by decide)) (by decide)

/-- Any twenty bytes are the fixed part of some header. -/
theorem tcp_fixed_any (x : List Byte) (hx : x.length = 20) : ∃ h : TcpHeader, h.Sized ∧ h.options = [] ∧ h.fixed = x := by
  obtain ⟨a0, x0, rfl, hx0⟩ := list_succ hx
  obtain ⟨a1, x1, rfl, hx1⟩ := list_succ hx0
  obtain ⟨a2, x2, rfl, hx2⟩ := list_succ hx1
  obtain ⟨a3, x3, rfl, hx3⟩ := list_succ hx2
  obtain ⟨a4, x4, rfl, hx4⟩ := list_succ hx3
  obtain ⟨a5, x5, rfl, hx5⟩ := list_succ hx4
  obtain ⟨a6, x6, rfl, hx6⟩ := list_succ hx5
  obtain ⟨a7, x7, rfl, hx7⟩ := list_succ hx6
  obtain ⟨a8, x8, rfl, hx8⟩ := list_succ hx7
  obtain ⟨a9, x9, rfl, hx9⟩ := list_succ hx8
  obtain ⟨a10, x10, rfl, hx10⟩ := list_succ hx9
  obtain ⟨a11, x11, rfl, hx11⟩ := list_succ hx10
  obtain ⟨a12, x12, rfl, hx12⟩ := list_succ hx11
  obtain ⟨a13, x13, rfl, hx13⟩ := list_succ hx12
  obtain ⟨a14, x14, rfl, hx14⟩ := list_succ hx13
  obtain ⟨a15, x15, rfl, hx15⟩ := list_succ hx14
  obtain ⟨a16, x16, rfl, hx16⟩ := list_succ hx15
  obtain ⟨a17, x17, rfl, hx17⟩ := list_succ hx16
  obtain ⟨a18, x18, rfl, hx18⟩ := list_succ hx17
  obtain ⟨a19, x19, rfl, hx19⟩ := list_succ hx18
  obtain rfl := List.length_eq_zero_iff.1 hx19
  have h0 := a0.toNat_lt
  have h1 := a1.toNat_lt
  have h2 := a2.toNat_lt
  have h3 := a3.toNat_lt
  have h4 := a4.toNat_lt
  have h5 := a5.toNat_lt
  have h6 := a6.toNat_lt
  have h7 := a7.toNat_lt
  have h8 := a8.toNat_lt
  have h9 := a9.toNat_lt
  have h10 := a10.toNat_lt
  have h11 := a11.toNat_lt
  have h12 := a12.toNat_lt
  have h13 := a13.toNat_lt
  have h14 := a14.toNat_lt
  have h15 := a15.toNat_lt
  have h16 := a16.toNat_lt
  have h17 := a17.toNat_lt
  have h18 := a18.toNat_lt
  have h19 := a19.toNat_lt
  refine ⟨⟨256 * a0.toNat + a1.toNat, 256 * a2.toNat + a3.toNat,
    16777216 * a4.toNat + 65536 * a5.toNat + 256 * a6.toNat + a7.toNat,
    16777216 * a8.toNat + 65536 * a9.toNat + 256 * a10.toNat + a11.toNat,
    (256 * a12.toNat + a13.toNat) / 4096, (256 * a12.toNat + a13.toNat) % 4096, 256 * a14.toNat + a15.toNat,
    256 * a16.toNat + a17.toNat, 256 * a18.toNat + a19.toNat, []⟩, ?_, rfl, ?_⟩
  · constructor <;> simp only <;> omega
  · simp only [TcpHeader.fixed, Nat.div_add_mod, oct2_of, oct4_of, List.cons_append, List.nil_append]

/-- The headers the code takes: the length of the options is the difference in the arithmetic of `u16`. -/
structure TcpHeader.Held (h : TcpHeader) : Prop extends h.Sized where
  options : h.options.length = (4 * h.offset + 65516) % 65536

theorem TcpHeader.Standard.held {h : TcpHeader} (hh : h.Standard) : h.Held :=
  ⟨hh.toSized, by have := hh.options; have := hh.long; have := hh.offset; omega⟩

theorem TcpHeader.wire_eq (h : TcpHeader) : h.wire = h.fixed ++ h.options := by
  simp [TcpHeader.wire, TcpHeader.fixed]

theorem TcpHeader.value_eq (h : TcpHeader) : h.value = h.fixedValue ++ [.bytes h.options] := rfl

theorem tcp_length (vars : List (String × Nat)) (h : TcpHeader) :
    tcpOptionsLength (({ vars := vars } : Env Pkt).extend h.fixedValue) = (4 * h.offset + 65516) % 65536 := rfl

theorem tcp_roundtrip (h : TcpHeader) (hh : h.Held) (ca ca' : Option CAttr) (fa fa' : Option FAttr) (suf : List Byte) :
    Writes (encStruct tcp h.value ca fa) h.wire ∧ Reads (decStruct tcp ca' fa') h.value h.wire suf := by
  refine C43_struct_roundtrip tcp rfl rfl (by intro h; cases h) ca ca' fa fa' h.value h.wire suf ?_
  rw [h.wire_eq, h.value_eq]
  refine Segments.cons (tcp_fixed h hh.toSized _ _ _) ?_
  have e := Segments.one (cd := none) (fs := []) (vs := []) (fun suf => seg_slice tcpOptionsLength
    (({ vars := localVars tcp.getVars ca } : Env Pkt).extend h.fixedValue)
    (({ vars := localVars tcp.getVars ca' } : Env Pkt).extend h.fixedValue) h.options suf
    ((tcp_length _ h).trans hh.options.symm) ((tcp_length _ h).trans hh.options.symm)) rfl (.nil _ _ _ suf)
  rw [List.append_nil] at e
  exact e

theorem tcp_covers (ca : Option CAttr) (fa : Option FAttr) :
    Covers (decStruct tcp ca fa) fun v w => ∃ h : TcpHeader, h.Held ∧ v = h.value ∧ w = h.wire := by
  have e : ∀ b, decStruct tcp ca fa b = decFields false (tcpFixed ++ [Pkt.slice { isUse := true, length := some tcpOptionsLength }])
      none none { vars := localVars [] ca } b := fun _ => rfl
  have h1 : Covers (decFields false tcpFixed none none { vars := localVars [] ca })
      fun v w => ∃ h : TcpHeader, h.Sized ∧ v = h.fixedValue ∧ w = h.fixed := by
    refine Covers.fixed (tcpFixed_needs _ _) fun x hx => ?_
    obtain ⟨h, hs, -, rfl⟩ := tcp_fixed_any x hx
    exact ⟨_, ⟨h, hs, rfl, rfl⟩, fun suf => (tcp_fixed h hs { vars := localVars [] ca } _ suf).reads⟩
  refine Covers.congr (h1.bind fun v w hv => (slice_covers tcpOptionsLength (cachedAfter tcpFixed none { vars := localVars [] ca } v)
    (({ vars := localVars [] ca } : Env Pkt).extend v)).bind fun ws _ _ => Covers.pure (v ++ ws))
    (fun b => (e b).trans (decFields_append _ _ _ _ b)) |>.mono ?_
  rintro vs w ⟨v, w1, w2, rfl, ⟨h, hs, rfl, rfl⟩, ws, w3, w4, rfl, ⟨h3, rfl⟩, rfl, rfl⟩
  rw [tcp_length] at h3
  refine ⟨{ h with options := w3 }, ⟨⟨hs.1, hs.2, hs.3, hs.4, hs.5, hs.6, hs.7, hs.8, hs.9⟩, h3⟩, rfl, ?_⟩
  rw [TcpHeader.wire_eq, List.append_nil]
  rfl

/-! ## UDP -/

theorem udp_roundtrip (h : UdpHeader) (hh : h.Standard) (ca ca' : Option CAttr) (fa fa' : Option FAttr) (suf : List Byte) :
    Writes (encStruct udp h.value ca fa) h.wire ∧ Reads (decStruct udp ca' fa') h.value h.wire suf := by
  refine C43_struct_roundtrip udp rfl rfl (by intro h; cases h) ca ca' fa fa' h.value h.wire suf ?_
  obtain ⟨h1, h2, h3, h4⟩ := hh
  have e : h.wire = oct2 h.source ++ (oct2 h.destination ++ (oct2 h.length ++ (oct2 h.checksum ++ ([] ++ [])))) := by
    simp [UdpHeader.wire]
  rw [e]
  exact .one (seg_u16 _ _ _ h1) rfl (.one (seg_u16 _ _ _ h2) rfl (.one (seg_u16 _ _ _ h3) rfl (.one (seg_u16 _ _ _ h4) rfl
    (.one (seg_mark _ _) rfl (.nil _ _ _ _)))))

theorem udp_any (x : List Byte) (hx : x.length = 8) : ∃ h : UdpHeader, h.Standard ∧ h.wire = x := by
  obtain ⟨a0, x0, rfl, hx0⟩ := list_succ hx
  obtain ⟨a1, x1, rfl, hx1⟩ := list_succ hx0
  obtain ⟨a2, x2, rfl, hx2⟩ := list_succ hx1
  obtain ⟨a3, x3, rfl, hx3⟩ := list_succ hx2
  obtain ⟨a4, x4, rfl, hx4⟩ := list_succ hx3
  obtain ⟨a5, x5, rfl, hx5⟩ := list_succ hx4
  obtain ⟨a6, x6, rfl, hx6⟩ := list_succ hx5
  obtain ⟨a7, x7, rfl, hx7⟩ := list_succ hx6
  obtain rfl := List.length_eq_zero_iff.1 hx7
  have h0 := a0.toNat_lt
  have h1 := a1.toNat_lt
  have h2 := a2.toNat_lt
  have h3 := a3.toNat_lt
  have h4 := a4.toNat_lt
  have h5 := a5.toNat_lt
  have h6 := a6.toNat_lt
  have h7 := a7.toNat_lt
  refine ⟨⟨256 * a0.toNat + a1.toNat, 256 * a2.toNat + a3.toNat, 256 * a4.toNat + a5.toNat, 256 * a6.toNat + a7.toNat⟩, ?_, ?_⟩
  · constructor <;> simp only <;> omega
  · simp only [UdpHeader.wire, oct2_of, List.cons_append, List.nil_append]

theorem udp_needs : FieldsNeed udp.fields 8 8 :=
  .cons (int_needs _ valid2) (by decide) (.cons (int_needs _ valid2) (by decide) (.cons (int_needs _ valid2) (by decide)
    (.cons (int_needs _ valid2) (by decide) (.cons mark_needs (by decide) .nil (by decide)) (by decide)) (by decide))
    (by decide)) (by decide)

theorem udp_covers (ca : Option CAttr) (fa : Option FAttr) :
    Covers (decStruct udp ca fa) fun v w => ∃ h : UdpHeader, h.Standard ∧ v = h.value ∧ w = h.wire := by
  refine Covers.fixed (n := 8) (udp_needs none { vars := localVars [] ca }) fun x hx => ?_
  obtain ⟨h, hs, rfl⟩ := udp_any x hx
  exact ⟨_, ⟨h, hs, rfl, rfl⟩, fun suf => (udp_roundtrip h hs ca ca fa fa suf).2⟩

/-! ## Ethernet -/

theorem eth_roundtrip (h : EthHeader) (hh : h.Standard) (ca ca' : Option CAttr) (fa fa' : Option FAttr) (suf : List Byte) :
    Writes (encStruct ethernet (ethValue h.destination h.source h.type) ca fa) h.wire ∧
      Reads (decStruct ethernet ca' fa') (ethValue h.destination h.source h.type) h.wire suf := by
  refine C43_struct_roundtrip ethernet rfl rfl (by intro h; cases h) ca ca' fa fa' _ h.wire suf ?_
  obtain ⟨h1, h2, h3⟩ := hh
  have e : h.wire = h.destination ++ (h.source ++ (oct2 h.type ++ ([] ++ []))) := by simp [EthHeader.wire]
  rw [e]
  exact .one (seg_mac _ _ _ h1) rfl (.one (seg_mac _ _ _ h2) rfl (.one (seg_u16 _ _ _ h3) rfl
    (.one (seg_mark _ _) rfl (.nil _ _ _ _))))

theorem ethAlone_roundtrip (h : EthHeader) (hh : h.Standard) (ca ca' : Option CAttr) (fa fa' : Option FAttr) (suf : List Byte) :
    Writes (encStruct ethernetAlone [.bytes h.destination, .bytes h.source, .num h.type] ca fa) h.wire ∧
      Reads (decStruct ethernetAlone ca' fa') [.bytes h.destination, .bytes h.source, .num h.type] h.wire suf := by
  refine C43_struct_roundtrip ethernetAlone rfl rfl (by intro h; cases h) ca ca' fa fa' _ h.wire suf ?_
  obtain ⟨h1, h2, h3⟩ := hh
  have e : h.wire = h.destination ++ (h.source ++ (oct2 h.type ++ [])) := by simp [EthHeader.wire]
  rw [e]
  exact .one (seg_mac _ _ _ h1) rfl (.one (seg_mac _ _ _ h2) rfl (.one (seg_u16 _ _ _ h3) rfl (.nil _ _ _ _)))

theorem eth_any (x : List Byte) (hx : x.length = 14) : ∃ h : EthHeader, h.Standard ∧ h.wire = x := by
  have e : x = x.take 6 ++ ((x.drop 6).take 6 ++ (x.drop 6).drop 6) := by
    rw [List.take_append_drop, List.take_append_drop]
  have hl : ((x.drop 6).drop 6).length = 2 := by simp only [List.length_drop]; omega
  obtain ⟨a, y, e1, hy⟩ := list_succ hl
  obtain ⟨b, z, rfl, hz⟩ := list_succ hy
  obtain rfl := List.length_eq_zero_iff.1 hz
  have h1 := a.toNat_lt
  have h2 := b.toNat_lt
  refine ⟨⟨x.take 6, (x.drop 6).take 6, 256 * a.toNat + b.toNat⟩, ?_, ?_⟩
  · constructor <;> simp only [List.length_take, List.length_drop] <;> omega
  · simp only [EthHeader.wire, oct2_of]
    rw [← e1]
    exact e.symm

theorem eth_needs : FieldsNeed ethernet.fields 14 14 :=
  .cons mac_needs (by decide) (.cons mac_needs (by decide) (.cons (int_needs _ valid2) (by decide) (.cons mark_needs (by decide)
    .nil (by decide)) (by decide)) (by decide)) (by decide)

theorem ethAlone_needs : FieldsNeed ethernetAlone.fields 14 14 :=
  .cons mac_needs (by decide) (.cons mac_needs (by decide) (.cons (int_needs _ valid2) (by decide)
    .nil (by decide)) (by decide)) (by decide)

theorem eth_covers (ca : Option CAttr) (fa : Option FAttr) : Covers (decStruct ethernet ca fa) fun v w =>
    ∃ h : EthHeader, h.Standard ∧ v = ethValue h.destination h.source h.type ∧ w = h.wire := by
  refine Covers.fixed (n := 14) (eth_needs none { vars := localVars [] ca }) fun x hx => ?_
  obtain ⟨h, hs, rfl⟩ := eth_any x hx
  exact ⟨_, ⟨h, hs, rfl, rfl⟩, fun suf => (eth_roundtrip h hs ca ca fa fa suf).2⟩

theorem ethAlone_covers (ca : Option CAttr) (fa : Option FAttr) : Covers (decStruct ethernetAlone ca fa) fun v w =>
    ∃ h : EthHeader, h.Standard ∧ v = [.bytes h.destination, .bytes h.source, .num h.type] ∧ w = h.wire := by
  refine Covers.fixed (n := 14) (ethAlone_needs none { vars := localVars [] ca }) fun x hx => ?_
  obtain ⟨h, hs, rfl⟩ := eth_any x hx
  exact ⟨_, ⟨h, hs, rfl, rfl⟩, fun suf => (ethAlone_roundtrip h hs ca ca fa fa suf).2⟩

/-! ## C97 -/

theorem implements_of {S : StructDef Pkt} {P : H → Prop} {value : H → List Pkt} {wire : H → List Byte}
    (h1 : ∀ h, P h → ∀ (ca ca' : Option CAttr) (fa fa' : Option FAttr) (suf : List Byte),
      Writes (encStruct S (value h) ca fa) (wire h) ∧ Reads (decStruct S ca' fa') (value h) (wire h) suf)
    (h2 : ∀ (ca : Option CAttr) (fa : Option FAttr), Covers (decStruct S ca fa) fun v w => ∃ h, P h ∧ v = value h ∧ w = wire h) :
    Implements S P value wire := by
  intro ca fa
  refine ⟨fun h hh => (h1 h hh ca ca fa fa []).1, fun pre r hp => ?_⟩
  rcases h2 ca fa pre r hp with ⟨v, w, suf, k1, ⟨h, hh, rfl, rfl⟩, k3⟩ | ⟨p, b', k⟩
  · exact .inl ⟨h, suf, hh, k1, k3⟩
  · refine .inr ⟨?_, p, b', k⟩
    rintro ⟨h, suf, hh, rfl⟩
    have := (h1 h hh ca ca fa fa suf).2 pre (by rw [List.length_append] at hp; omega)
    rw [k] at this
    cases this

/-- C97 for UDP: every header, and nothing else. -/
theorem C97_udp : Implements udp UdpHeader.Standard UdpHeader.value UdpHeader.wire :=
  implements_of (fun h hh ca ca' fa fa' suf => udp_roundtrip h hh ca ca' fa fa' suf) udp_covers

/-- C97 for IPv4, what the code implements: headers whose options are as long as `header_length - 20` in the arithmetic of
`u8`. -/
theorem C97_ip4_held_partial : Implements ip4 Ip4Header.Held Ip4Header.value Ip4Header.wire :=
  implements_of (fun h hh ca ca' fa fa' suf => ip4_roundtrip h hh ca ca' fa fa' suf) ip4_covers

/-- C97 for TCP, what the code implements: headers whose options are as long as `header_length - 20` in the arithmetic of
`u16`. -/
theorem C97_tcp_held_partial : Implements tcp TcpHeader.Held TcpHeader.value TcpHeader.wire :=
  implements_of (fun h hh ca ca' fa fa' suf => tcp_roundtrip h hh ca ca' fa fa' suf) tcp_covers

/-- C97 for Ethernet, what the code implements: the destination is called `smac`, the source `dmac`. -/
theorem C97_ethernet_partial :
    Implements ethernet EthHeader.Standard (fun h => ethValue h.destination h.source h.type) EthHeader.wire ∧
    Implements ethernetAlone EthHeader.Standard (fun h => [.bytes h.destination, .bytes h.source, .num h.type]) EthHeader.wire :=
  ⟨implements_of (fun h hh ca ca' fa fa' suf => eth_roundtrip h hh ca ca' fa fa' suf) eth_covers,
    implements_of (fun h hh ca ca' fa fa' suf => ethAlone_roundtrip h hh ca ca' fa fa' suf) ethAlone_covers⟩

/-- C97, the headers of the standards: exactly those of at least five words among the ones the code takes; they are
written and read back. -/
theorem C97_standard_partial :
    (∀ h : Ip4Header, h.Standard ↔ h.Held ∧ 5 ≤ h.ihl) ∧ (∀ h : TcpHeader, h.Standard ↔ h.Held ∧ 5 ≤ h.offset) ∧
    ∀ (ca ca' : Option CAttr) (fa fa' : Option FAttr) (suf : List Byte),
      (∀ h : Ip4Header, h.Standard → Writes (encStruct ip4 h.value ca fa) h.wire ∧ Reads (decStruct ip4 ca' fa') h.value h.wire suf) ∧
      ∀ h : TcpHeader, h.Standard → Writes (encStruct tcp h.value ca fa) h.wire ∧ Reads (decStruct tcp ca' fa') h.value h.wire suf := by
  refine ⟨fun h => ⟨fun hh => ⟨hh.held, hh.long⟩, fun ⟨hh, hl⟩ => ⟨hh.toSized, hl, ?_⟩⟩,
    fun h => ⟨fun hh => ⟨hh.held, hh.long⟩, fun ⟨hh, hl⟩ => ⟨hh.toSized, hl, ?_⟩⟩, fun ca ca' fa fa' suf =>
    ⟨fun h hh => ip4_roundtrip h hh.held ca ca' fa fa' suf, fun h hh => tcp_roundtrip h hh.held ca ca' fa fa' suf⟩⟩
  · have := hh.options
    have := hh.ihl
    omega
  · have := hh.options
    have := hh.offset
    omega

/-- The headers of the example programs (examples/packet_ipv4_example.rs:33, examples/packet_tcp_example.rs:25-26,
examples/packet_ethernet_example.rs:17). -/
def ip4Sample : Ip4Header := ⟨4, 5, 0, 64, 0xb5f2, 0, 0, 64, 6, 0xa97c, [10, 1, 1, 234], [10, 10, 5, 85], []⟩
def tcpSample : TcpHeader := ⟨51411, 502, 0xe0769016, 0xc4449b5a, 8, 0x018, 65535, 0x6c1c, 0,
  [1, 1, 8, 10, 0x37, 0xc4, 0x50, 0xe2, 0, 0xba, 0x7c, 0x1c]⟩
def ethSample : EthHeader := ⟨[255, 255, 255, 255, 255, 255], [0, 0, 0, 0, 0, 0], 0x800⟩
def udpSample : UdpHeader := ⟨32795, 53, 36, 34285⟩

theorem ip4Sample_standard : ip4Sample.Standard := by
  refine { long := by decide, options := by decide, toSized := ?_ }
  constructor <;> decide

theorem tcpSample_standard : tcpSample.Standard := by
  refine { long := by decide, options := by decide, toSized := ?_ }
  constructor <;> decide

example : ip4Sample.wire = [0x45, 0x00, 0x00, 0x40, 0xb5, 0xf2, 0x00, 0x00, 0x40, 0x06, 0xa9, 0x7c, 0x0a, 0x01, 0x01, 0xea,
    0x0a, 0x0a, 0x05, 0x55] := by decide
example : tcpSample.wire = [0xc8, 0xd3, 0x01, 0xf6, 0xe0, 0x76, 0x90, 0x16, 0xc4, 0x44, 0x9b, 0x5a, 0x80, 0x18, 0xff, 0xff,
    0x6c, 0x1c, 0x00, 0x00, 0x01, 0x01, 0x08, 0x0a, 0x37, 0xc4, 0x50, 0xe2, 0x00, 0xba, 0x7c, 0x1c] := by decide
example : ethSample.Standard ∧ ethSample.wire = [0xff, 0xff, 0xff, 0xff, 0xff, 0xff, 0, 0, 0, 0, 0, 0, 8, 0] :=
  ⟨by constructor <;> decide, by decide⟩
example : udpSample.Standard ∧ udpSample.wire = [0x80, 0x1b, 0x00, 0x35, 0x00, 0x24, 0x85, 0xed] :=
  ⟨by constructor <;> decide, by decide⟩
/-- The header of the example, decoded in place. -/
example (rest : List Byte) (h : 20 + rest.length ≤ isizeMax) :
    decStruct ip4 none none ⟨ip4Sample.wire ++ rest, 0⟩ = (.ok ip4Sample.value, ⟨ip4Sample.wire ++ rest, 20⟩) :=
  ((C97_standard_partial.2.2 none none none none rest).1 _ ip4Sample_standard).2 [] (by
    have : ip4Sample.wire.length = 20 := by decide
    simp only [List.length_nil, this]
    omega)

/-- An IPv4 header that claims to have no words. -/
def ip4Short : Ip4Header := ⟨4, 0, 0, 0, 0, 0, 0, 0, 0, 0, [0, 0, 0, 0], [0, 0, 0, 0], List.replicate 236 0⟩

theorem ip4Short_held : ip4Short.Held := by
  refine ⟨?_, List.length_replicate⟩
  constructor <;> decide

/-- A TCP header that claims to have no words. -/
def tcpShort : TcpHeader := ⟨0, 0, 0, 0, 0, 0, 0, 0, 0, List.replicate 65516 0⟩

theorem tcpShort_held : tcpShort.Held := by
  refine ⟨?_, List.length_replicate⟩
  constructor <;> decide

theorem implements_unique {S : StructDef Pkt} {P Q : H → Prop} {value : H → List Pkt} {wire : H → List Byte} (h1 : Implements S P value wire)
    (h2 : Implements S Q value wire) (h : H) (hh : P h) (hl : (wire h).length ≤ isizeMax) :
    ∃ h' suf, Q h' ∧ wire h = wire h' ++ suf := by
  rcases (h2 none none).2 [] (wire h) (by simpa using hl) with ⟨h', suf, k1, k2, -⟩ | ⟨-, p, b', k⟩
  · exact ⟨h', suf, k1, k2⟩
  · rcases (h1 none none).2 [] (wire h) (by simpa using hl) with ⟨h', suf, -, -, k3⟩ | ⟨k3, -⟩
    · rw [k] at k3
      cases k3
    · exact absurd ⟨h, [], hh, by simp⟩ k3

/-- C97 is violated: the types for IPv4 and TCP accept headers that claim to be shorter than five words (the difference
wraps around, or panics with overflow checks), and the types for Ethernet have the names of the addresses exchanged. -/
theorem C97_violated :
    ¬ Implements ip4 Ip4Header.Standard Ip4Header.value Ip4Header.wire ∧
    ¬ Implements tcp TcpHeader.Standard TcpHeader.value TcpHeader.wire ∧
    ¬ Implements ethernet EthHeader.Standard (fun h => ethValue h.source h.destination h.type) EthHeader.wire ∧
    ¬ Implements ethernetAlone EthHeader.Standard (fun h => [.bytes h.source, .bytes h.destination, .num h.type]) EthHeader.wire := by
  refine ⟨fun h => ?_, fun h => ?_, fun h => ?_, fun h => ?_⟩
  · obtain ⟨h', suf, k1, k2⟩ := implements_unique C97_ip4_held_partial h ip4Short ip4Short_held
      (by
        simp only [Ip4Header.wire, ip4Short, oct1, oct2, List.length_append, List.length_cons, List.length_nil, List.length_replicate]
        rw [isizeMax_def]; decide)
    have e : UInt8.ofNat (16 * 4 + 0) = UInt8.ofNat (16 * h'.version + h'.ihl) := (List.cons.inj k2).1
    have e := congrArg UInt8.toNat e
    have := k1.long
    have := k1.ihl
    have := k1.version
    simp only [UInt8.toNat_ofNat'] at e
    omega
  · obtain ⟨h', suf, k1, k2⟩ := implements_unique C97_tcp_held_partial h tcpShort tcpShort_held
      (by
        simp only [TcpHeader.wire, tcpShort, oct4, oct2, List.length_append, List.length_cons, List.length_nil, List.length_replicate]
        rw [isizeMax_def]; decide)
    have e : some (UInt8.ofNat ((4096 * 0 + 0) / 256)) = some (UInt8.ofNat ((4096 * h'.offset + h'.control) / 256)) :=
      congrArg (·[12]?) k2
    have e := congrArg UInt8.toNat (Option.some.inj e)
    have := k1.long
    have := k1.offset
    have := k1.control
    simp only [UInt8.toNat_ofNat'] at e
    omega
  · have hs : (⟨[1, 2, 3, 4, 5, 6], [7, 8, 9, 10, 11, 12], 2048⟩ : EthHeader).Standard := by constructor <;> decide
    obtain ⟨n, w⟩ := (h none none).1 _ hs [] (by rw [isizeMax_def]; decide)
    have : encStruct ethernet (ethValue [7, 8, 9, 10, 11, 12] [1, 2, 3, 4, 5, 6] 2048) none none ⟨[], 0⟩ =
      (.ok 14, ⟨[7, 8, 9, 10, 11, 12, 1, 2, 3, 4, 5, 6, 8, 0], 14⟩) := by decide +kernel
    rw [show ([] : List Byte).length = 0 from rfl] at w
    rw [this] at w
    have w : [7, 8, 9, 10, 11, 12, 1, 2, 3, 4, 5, 6, 8, 0] =
      (⟨[1, 2, 3, 4, 5, 6], [7, 8, 9, 10, 11, 12], 2048⟩ : EthHeader).wire := congrArg (·.2.data) w
    exact absurd w (by decide)
  · have hs : (⟨[1, 2, 3, 4, 5, 6], [7, 8, 9, 10, 11, 12], 2048⟩ : EthHeader).Standard := by constructor <;> decide
    obtain ⟨n, w⟩ := (h none none).1 _ hs [] (by rw [isizeMax_def]; decide)
    have : encStruct ethernetAlone [.bytes [7, 8, 9, 10, 11, 12], .bytes [1, 2, 3, 4, 5, 6], .num 2048] none none ⟨[], 0⟩ =
      (.ok 14, ⟨[7, 8, 9, 10, 11, 12, 1, 2, 3, 4, 5, 6, 8, 0], 14⟩) := by decide +kernel
    rw [show ([] : List Byte).length = 0 from rfl] at w
    rw [this] at w
    have w : [7, 8, 9, 10, 11, 12, 1, 2, 3, 4, 5, 6, 8, 0] =
      (⟨[1, 2, 3, 4, 5, 6], [7, 8, 9, 10, 11, 12], 2048⟩ : EthHeader).wire := congrArg (·.2.data) w
    exact absurd w (by decide)

end JBytes
