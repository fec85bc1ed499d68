import Verif.PropPackets
/-!
# Packets in layers (C98)

examples/packet_parse_example.rs: Ethernet, then IPv4 if the type says so, then TCP or UDP if the protocol says so, then
what is left.
-/

namespace JBytes
open M

/-! ## Specification -/

/-- What follows the IPv4 header. -/
inductive Transport where
  | tcp (h : TcpHeader)
  | udp (h : UdpHeader)
  | other

/-- A packet in layers. -/
structure Packet where
  ethernet : EthHeader
  network : Option Ip4Header
  transport : Transport
  payload : List Byte

def Transport.wire : Transport → List Byte
  | .tcp h => h.wire
  | .udp h => h.wire
  | .other => []

def networkWire : Option Ip4Header → List Byte
  | some h => h.wire
  | none => []

/-- The layers follow each other. -/
def Packet.wire (f : Packet) : List Byte := f.ethernet.wire ++ (networkWire f.network ++ (f.transport.wire ++ f.payload))

/-- The type says what the network layer is. -/
def NetworkFits (type : Nat) : Option Ip4Header → Prop
  | some h => type = 0x800 ∧ h.Held
  | none => type ≠ 0x800

/-- The protocol of the network layer says what the transport layer is. -/
def TransportFits (network : Option Ip4Header) : Transport → Prop
  | .tcp h => (∃ ip, network = some ip ∧ ip.protocol = 6) ∧ h.Held
  | .udp h => (∃ ip, network = some ip ∧ ip.protocol = 17) ∧ h.Standard
  | .other => ∀ ip, network = some ip → ip.protocol ≠ 6 ∧ ip.protocol ≠ 17

/-- The layers fit together. -/
structure Packet.Fits (f : Packet) : Prop where
  ethernet : f.ethernet.Standard
  network : NetworkFits f.ethernet.type f.network
  transport : TransportFits f.network f.transport

/-- The value of `Layer3`. -/
def networkValue : Option Ip4Header → Pkt
  | some h => .variant 0 [.record h.value]
  | none => .variant 1 []

/-- The value of `Layer4`. -/
def Transport.value : Transport → Pkt
  | .tcp h => .variant 0 [.record h.value]
  | .udp h => .variant 1 [.record h.value]
  | .other => .variant 2 []

/-- The value of `Layer`. -/
def Packet.value (f : Packet) : List Pkt :=
  [.record (ethValue f.ethernet.destination f.ethernet.source f.ethernet.type), networkValue f.network, f.transport.value,
    .bytes f.payload]

/-! ## Enums without a tag on the wire -/

/-- The tag is given by the field. -/
def branchOf (n : Nat) : Option FAttr := some { branch := some n }

theorem variant_dec (S : StructDef Pkt) (env : Env Pkt) (i : Nat) (name : List Byte) (t : Tag) (b : Buf) :
    decVariant none env i { attrs := { isUse := true }, name := name, branchValue := some t, tuple := true, fields := [Pkt.struct S {}] } b =
      mapM' (fun vs => (i, [Pkt.record vs])) (decStruct S none none) b := by
  have e : ∀ b, fieldStep (Pkt.struct S {}) none env b = mapM' Pkt.record (decStruct S none none) b := fun b =>
    fieldStep_plain (Pkt.struct S {}) ⟨rfl, rfl, rfl, rfl, rfl, rfl⟩ rfl rfl rfl rfl rfl rfl none env b
  have l := decFields_noLeak [Pkt.struct S {}] none none env b
    ⟨by simp, .inl rfl⟩
  rw [decFields_cons, bind_apply, e, mapM'_apply] at l
  show (decFields true [Pkt.struct S {}] none none env >>= fun vs => (Pure.pure (i, vs) : M (Nat × List Pkt))) b = _
  rw [bind_apply, l, mapM'_apply]
  rcases decStruct S none none b with ⟨o, b'⟩
  cases o <;> rfl

theorem layer3_dec (n : Nat) (b : Buf) : decEnum layer3 none (branchOf n) b =
    if n = 0x800 then mapM' (fun vs => (0, [Pkt.record vs])) (decStruct ip4 none none) b else (.ok (1, []), b) := by
  have h : findArm (.num n) 0 (layer3.variants.zip layer3.numbers) =
      if n = 0x800 then some (0, layer3.variants[0]) else some (1, layer3.variants[1]) := by
    show (if (Tag.num 0x800 == Tag.num n) then some (0, layer3.variants[0]) else some (1, layer3.variants[1])) = _
    by_cases hn : n = 0x800
    · subst hn; rfl
    · rw [if_neg hn, if_neg (by simpa using fun h : _ = _ => hn h.symm)]
  show decArm layer3 _ (.num n) b = _
  unfold decArm
  rw [h]
  by_cases hn : n = 0x800
  · simp only [if_pos hn]
    exact variant_dec ip4 _ 0 _ _ b
  · simp only [if_neg hn]
    rfl

theorem layer4_dec (n : Nat) (b : Buf) : decEnum layer4 none (branchOf n) b =
    if n = 6 then mapM' (fun vs => (0, [Pkt.record vs])) (decStruct tcp none none) b
    else if n = 17 then mapM' (fun vs => (1, [Pkt.record vs])) (decStruct udp none none) b
    else (.ok (2, []), b) := by
  have h : findArm (.num n) 0 (layer4.variants.zip layer4.numbers) =
      if n = 6 then some (0, layer4.variants[0]) else if n = 17 then some (1, layer4.variants[1])
      else some (2, layer4.variants[2]) := by
    show (if (Tag.num 6 == Tag.num n) then some (0, layer4.variants[0])
      else if (Tag.num 17 == Tag.num n) then some (1, layer4.variants[1]) else some (2, layer4.variants[2])) = _
    by_cases hn : n = 6
    · subst hn; rfl
    · rw [if_neg hn, if_neg (by simpa using fun h : _ = _ => hn h.symm)]
      by_cases hn : n = 17
      · subst hn; rfl
      · rw [if_neg hn, if_neg (by simpa using fun h : _ = _ => hn h.symm)]
  show decArm layer4 _ (.num n) b = _
  unfold decArm
  rw [h]
  by_cases hn : n = 6
  · simp only [if_pos hn]
    exact variant_dec tcp _ 0 _ _ b
  · by_cases hn' : n = 17
    · simp only [if_neg hn, if_pos hn']
      exact variant_dec udp _ 1 _ _ b
    · simp only [if_neg hn, if_neg hn']
      rfl

theorem variant_enc (E : EnumDef Pkt) (S : StructDef Pkt) (hc : E.container = none) (hm : E.mode = .uint) (num n : Nat)
    (name : List Byte) (t : Tag) (vs : List Pkt) (w : List Byte) (h : Writes (encStruct S vs none none) w) :
    Writes (encVariant E { attrs := { isUse := true }, name := name, branchValue := some t, tuple := true, fields := [Pkt.struct S {}] }
      num [.record vs] none (branchOf n)) w := by
  refine h.congr fun b => ?_
  have l := encFields_noLeak [Pkt.struct S {}] E.container none { vars := localVars E.getVars none } [.record vs] b
    ⟨by simp, .inl rfl⟩
  rw [hc, encFields_cons, bind_apply] at l
  have e : fieldEnc (Pkt.struct S {}) none { vars := localVars E.getVars none } (.record vs) b =
      (encStruct S vs none none >>= fun m => (Pure.pure (0 + m) : M Nat)) b := rfl
  rw [e, bind_apply] at l
  have t : encVariant E { attrs := { isUse := true }, name := name, branchValue := some t, tuple := true, fields := [Pkt.struct S {}] }
      num [.record vs] none (branchOf n) b = (encFields true [Pkt.struct S {}] none none { vars := localVars E.getVars none } [.record vs]
        >>= fun m => (Pure.pure (0 + m) : M Nat)) b := by
    simp only [encVariant, encTagMode, hm, hc]
    rfl
  rw [t, bind_apply, l]
  rcases encStruct S vs none none b with ⟨o, b'⟩
  cases o with
  | ok m => simp only [encFields, bind_apply, pure_apply, Nat.zero_add, Nat.add_zero]
  | _ => rfl

theorem layer3_enc (n : Nat) (vs : List Pkt) (w : List Byte) (h : Writes (encStruct ip4 vs none none) w) :
    Writes (encEnum layer3 (0, [.record vs]) none (branchOf n)) w := variant_enc layer3 ip4 rfl rfl 0x800 n _ _ vs w h

theorem layer4_enc_tcp (n : Nat) (vs : List Pkt) (w : List Byte) (h : Writes (encStruct tcp vs none none) w) :
    Writes (encEnum layer4 (0, [.record vs]) none (branchOf n)) w := variant_enc layer4 tcp rfl rfl 6 n _ _ vs w h

theorem layer4_enc_udp (n : Nat) (vs : List Pkt) (w : List Byte) (h : Writes (encStruct udp vs none none) w) :
    Writes (encEnum layer4 (1, [.record vs]) none (branchOf n)) w := variant_enc layer4 udp rfl rfl 17 n _ _ vs w h

theorem layer3_enc_other (n : Nat) : Writes (encEnum layer3 (1, []) none (branchOf n)) [] :=
  Appends.pure0.writes

theorem layer4_enc_other (n : Nat) : Writes (encEnum layer4 (2, []) none (branchOf n)) [] :=
  Appends.pure0.writes

/-! ## The layers -/

/-- A field of a struct without container modifiers whose own modifiers do not change its value. -/
theorem seg_own (f : Field Pkt) (hord : Ordinary f.attrs) (hu : f.attrs.untake = false) (ho : f.attrs.byteorder = none)
    (hoff : f.attrs.offset = none) (hi : f.attrs.ifExpr = none) (hc : f.attrs.checkValue = none)
    (hvd : f.attrs.valueDecode = none) (hve : f.attrs.valueEncode = none) (ee ed : Env Pkt) (v : Pkt) (w suf : List Byte)
    (hw : Writes (f.enc v none (ownModifiers f.attrs ee)) w) (hr : Reads (f.dec none (ownModifiers f.attrs ed)) v w suf) :
    SegRT [f] none none ee ed [v] w suf := by
  have g : ∀ env, gap f.attrs env = 0 := fun env => by rw [gap, hoff]; rfl
  have sv : sentValue f.attrs ee v = v := by rw [sentValue, hve]; rfl
  have := C43_field_plain f none none ee ed v w suf hord hu (by intro e h; rw [ho] at h; cases h)
    (by intro e h; rw [ho] at h; cases h) ((g _).trans (g _).symm) (by rw [sv]; exact hw) (fun _ => by rw [sv]; exact hr)
    (by intro c h; rw [hi] at h; cases h) (by rw [sv, finalValue, hvd]; rfl) (by intro c h; rw [hc] at h; cases h)
  rw [g] at this
  exact C43_field_segment this

/-- The number by which the network layer is found. -/
theorem layerType_eq (vars : List (String × Nat)) (f : Packet) :
    layerType (({ vars := vars } : Env Pkt).extend (f.value.take 1)) = f.ethernet.type := rfl

/-- The number by which the transport layer is found: that of the IPv4 header, 0 if there is none. -/
theorem layerProtocol_eq (vars : List (String × Nat)) (f : Packet) :
    layerProtocol (({ vars := vars } : Env Pkt).extend (f.value.take 2)) = (f.network.map (·.protocol)).getD 0 := by
  cases h : f.network <;> simp only [Packet.value, h] <;> rfl

/-- The decoders of the second and the third field. -/
def networkDec (n : Nat) : M Pkt := mapM' (fun x => Pkt.variant x.1 x.2) (decEnum layer3 none (branchOf n))
def transportDec (n : Nat) : M Pkt := mapM' (fun x => Pkt.variant x.1 x.2) (decEnum layer4 none (branchOf n))

theorem reads_empty {m : M α} {v : α} (h : ∀ b, m b = (.ok v, b)) (suf : List Byte) : Reads m v [] suf := fun pre _ => by
  rw [h]; rfl

theorem covers_empty {m : M α} {v : α} (h : ∀ b, m b = (.ok v, b)) : Covers m fun v' w => v' = v ∧ w = [] :=
  (Covers.pure v).congr h

theorem network_reads (t : Nat) (o : Option Ip4Header) (h : NetworkFits t o) (suf : List Byte) :
    Reads (networkDec t) (networkValue o) (networkWire o) suf := by
  cases o with
  | some h' =>
    obtain ⟨rfl, hh⟩ := h
    refine Reads.mapped (f := fun x : Nat × List Pkt => Pkt.variant x.1 x.2) (a := (0, [Pkt.record h'.value])) ?_
    refine Reads.congr (((ip4_roundtrip h' hh none none none none suf).2).mapped fun vs => (0, [Pkt.record vs])) fun b _ => ?_
    rw [layer3_dec, if_pos rfl]
  | none =>
    refine reads_empty (fun b => ?_) suf
    rw [networkDec, mapM'_apply, layer3_dec, if_neg h]
    rfl

theorem network_covers (t : Nat) :
    Covers (networkDec t) fun v w => ∃ o, NetworkFits t o ∧ v = networkValue o ∧ w = networkWire o := by
  by_cases ht : t = 0x800
  · refine Covers.mono ((((ip4_covers none none).map fun vs => (0, [Pkt.record vs])).congr fun b => ?_).map fun x => Pkt.variant x.1 x.2) ?_
    · rw [layer3_dec, if_pos ht]
    · rintro v w ⟨x, rfl, vs, rfl, h, hh, rfl, rfl⟩
      exact ⟨some h, ⟨ht, hh⟩, rfl, rfl⟩
  · refine (covers_empty (v := networkValue none) fun b => ?_).mono ?_
    · rw [networkDec, mapM'_apply, layer3_dec, if_neg ht]
      rfl
    · rintro v w ⟨rfl, rfl⟩
      exact ⟨none, ht, rfl, rfl⟩

theorem network_writes (t : Nat) (o : Option Ip4Header) (h : NetworkFits t o) (a : FieldAttrs Pkt) (n : Nat) :
    Writes ((Pkt.enum layer3 a).enc (networkValue o) none (branchOf n)) (networkWire o) := by
  cases o with
  | some h' => exact layer3_enc n _ _ (ip4_roundtrip h' h.2 none none none none []).1
  | none => exact layer3_enc_other n

/-- The protocol, 0 without an IPv4 header. -/
def protocolOf (o : Option Ip4Header) : Nat := (o.map (·.protocol)).getD 0

theorem transport_reads (o : Option Ip4Header) (t : Transport) (h : TransportFits o t) (suf : List Byte) :
    Reads (transportDec (protocolOf o)) t.value t.wire suf := by
  cases t with
  | tcp h' =>
    obtain ⟨⟨ip, rfl, hp⟩, hh⟩ := h
    have hp : protocolOf (some ip) = 6 := hp
    refine Reads.mapped (f := fun x : Nat × List Pkt => Pkt.variant x.1 x.2) (a := (0, [Pkt.record h'.value])) ?_
    refine Reads.congr (((tcp_roundtrip h' hh none none none none suf).2).mapped fun vs => (0, [Pkt.record vs])) fun b _ => ?_
    rw [layer4_dec, if_pos hp]
  | udp h' =>
    obtain ⟨⟨ip, rfl, hp⟩, hh⟩ := h
    have hp : protocolOf (some ip) = 17 := hp
    refine Reads.mapped (f := fun x : Nat × List Pkt => Pkt.variant x.1 x.2) (a := (1, [Pkt.record h'.value])) ?_
    refine Reads.congr (((udp_roundtrip h' hh none none none none suf).2).mapped fun vs => (1, [Pkt.record vs])) fun b _ => ?_
    rw [layer4_dec, hp, if_neg (by decide), if_pos rfl]
  | other =>
    refine reads_empty (fun b => ?_) suf
    have hp : protocolOf o ≠ 6 ∧ protocolOf o ≠ 17 := by
      cases o with
      | none => exact ⟨by decide, by decide⟩
      | some ip => exact h ip rfl
    rw [transportDec, mapM'_apply, layer4_dec, if_neg hp.1, if_neg hp.2]
    rfl

theorem protocol_some {o : Option Ip4Header} {n : Nat} (h : protocolOf o = n) (hn : n ≠ 0) : ∃ ip, o = some ip ∧ ip.protocol = n := by
  cases o with
  | none => exact absurd h.symm hn
  | some ip => exact ⟨ip, rfl, h⟩

theorem transport_covers (o : Option Ip4Header) :
    Covers (transportDec (protocolOf o)) fun v w => ∃ t, TransportFits o t ∧ v = t.value ∧ w = t.wire := by
  by_cases h6 : protocolOf o = 6
  · refine Covers.mono ((((tcp_covers none none).map fun vs => (0, [Pkt.record vs])).congr fun b => ?_).map fun x => Pkt.variant x.1 x.2) ?_
    · rw [layer4_dec, if_pos h6]
    · rintro v w ⟨x, rfl, vs, rfl, h, hh, rfl, rfl⟩
      exact ⟨.tcp h, ⟨protocol_some h6 (by decide), hh⟩, rfl, rfl⟩
  · by_cases h17 : protocolOf o = 17
    · refine Covers.mono ((((udp_covers none none).map fun vs => (1, [Pkt.record vs])).congr fun b => ?_).map fun x => Pkt.variant x.1 x.2) ?_
      · rw [layer4_dec, if_neg h6, if_pos h17]
      · rintro v w ⟨x, rfl, vs, rfl, h, hh, rfl, rfl⟩
        exact ⟨.udp h, ⟨protocol_some h17 (by decide), hh⟩, rfl, rfl⟩
    · refine (covers_empty (v := Transport.other.value) fun b => ?_).mono ?_
      · rw [transportDec, mapM'_apply, layer4_dec, if_neg h6, if_neg h17]
        rfl
      · rintro v w ⟨rfl, rfl⟩
        exact ⟨.other, fun ip h => by subst h; exact ⟨h6, h17⟩, rfl, rfl⟩

theorem transport_writes (o : Option Ip4Header) (t : Transport) (h : TransportFits o t) (a : FieldAttrs Pkt) (n : Nat) :
    Writes ((Pkt.enum layer4 a).enc t.value none (branchOf n)) t.wire := by
  cases t with
  | tcp h' => exact layer4_enc_tcp n _ _ (tcp_roundtrip h' h.2 none none none none []).1
  | udp h' => exact layer4_enc_udp n _ _ (udp_roundtrip h' h.2 none none none none []).1
  | other => exact layer4_enc_other n

theorem layer_roundtrip (f : Packet) (hf : f.Fits) (ca ca' : Option CAttr) (fa fa' : Option FAttr) :
    Writes (encStruct layer f.value ca fa) f.wire ∧ Reads (decStruct layer ca' fa') f.value f.wire [] := by
  refine C43_struct_roundtrip layer rfl rfl (by intro h; cases h) ca ca' fa fa' f.value f.wire [] ?_
  have e : f.wire = f.ethernet.wire ++ (networkWire f.network ++ (f.transport.wire ++ (f.payload ++ []))) := by
    simp [Packet.wire]
  rw [e]
  have pe : bytesWire none (some { remaining := true }) f.payload = f.payload := by
    simp [bytesWire, heads, framingOf, Framing.wire]
  have h1 := encBytes_appends f.payload none (some { remaining := true }) (fun k hk => by cases hk)
  have h2 := decBytes_reads f.payload [] none (some { remaining := true }) rfl
  rw [pe] at h1 h2
  refine Segments.one (fun suf => seg_codec _ rfl _ _ _ _ _ ?_ ?_) rfl (.one (fun suf => ?_) rfl (.one (fun suf => ?_) rfl
    (Segments.cons (fs := [Pkt.slice { isUse := true, remaining := true }]) (vs := [.bytes f.payload]) ?_ (.nil _ _ _ _))))
  · exact (eth_roundtrip f.ethernet hf.ethernet none none none none suf).1
  · exact ((eth_roundtrip f.ethernet hf.ethernet none none none none suf).2).mapped Pkt.record
  · exact seg_own _ ⟨rfl, rfl, rfl, rfl, rfl, rfl⟩ rfl rfl rfl rfl rfl rfl rfl _ _ _ _ _
      (network_writes _ _ hf.network _ _) (network_reads _ _ hf.network suf)
  · refine seg_own _ ⟨rfl, rfl, rfl, rfl, rfl, rfl⟩ rfl rfl rfl rfl rfl rfl rfl _ _ _ _ _
      (transport_writes _ _ hf.transport _ _) ?_
    have := transport_reads _ _ hf.transport suf
    rw [protocolOf, ← layerProtocol_eq (localVars layer.getVars ca')] at this
    exact this
  · exact seg_own _ ⟨rfl, rfl, rfl, rfl, rfl, rfl⟩ rfl rfl rfl rfl rfl rfl rfl _ _ _ _ _ h1.writes (h2.mapped Pkt.bytes)

/-- What is left, whatever it is. -/
theorem rest_reads (env : Env Pkt) : ∀ pre r : List Byte, pre.length + r.length ≤ isizeMax →
    decFields false [Pkt.slice { isUse := true, remaining := true }] none none env ⟨pre ++ r, pre.length⟩ =
      (.ok [.bytes r], ⟨pre ++ r, pre.length + r.length⟩) := by
  intro pre r hp
  have pe : bytesWire none (some { remaining := true }) r = r := by
    simp [bytesWire, heads, framingOf, Framing.wire]
  have h2 := decBytes_reads r [] none (some { remaining := true }) rfl
  rw [pe] at h2
  have := h2 pre (by simpa using hp)
  rw [List.append_nil] at this
  rw [decFields_cons, bind_apply, fieldStep_plain _ ⟨rfl, rfl, rfl, rfl, rfl, rfl⟩ rfl rfl rfl rfl rfl rfl]
  have e : (Pkt.slice { isUse := true, remaining := true }).dec none (ownModifiers (Pkt.slice { isUse := true, remaining := true }).attrs env)
    = mapM' Pkt.bytes (decBytes none (some { remaining := true })) := rfl
  rw [e, mapM'_apply, this]
  rfl

theorem decFields_one (f : Field V) (ca : Option CAttr) (env : Env V) (b : Buf) :
    decFields false [f] ca none env b = (fieldStep f ca env >>= fun v => (Pure.pure [v] : M (List V))) b := by
  rw [decFields_cons, bind_apply, bind_apply]
  rcases fieldStep f ca env b with ⟨x, b'⟩
  cases x <;> rfl

/-- The first three fields. -/
theorem layer_covers (vars : List (String × Nat)) : Covers (decFields false (layer.fields.take 3) none none { vars := vars })
    fun v w => ∃ f : Packet, f.Fits ∧ f.payload = [] ∧ v = f.value.take 3 ∧ w = f.wire := by
  have e1 : ∀ (env : Env Pkt) b, fieldStep (Pkt.struct ethernet {}) none env b = mapM' Pkt.record (decStruct ethernet none none) b :=
    fun env b => fieldStep_plain (Pkt.struct ethernet {}) ⟨rfl, rfl, rfl, rfl, rfl, rfl⟩ rfl rfl rfl rfl rfl rfl none env b
  have e2 : ∀ (env : Env Pkt) b, fieldStep (Pkt.enum layer3 { isUse := true, branch := some layerType }) none env b =
      networkDec (layerType env) b :=
    fun env b => fieldStep_plain (Pkt.enum layer3 { isUse := true, branch := some layerType }) ⟨rfl, rfl, rfl, rfl, rfl, rfl⟩
      rfl rfl rfl rfl rfl rfl none env b
  have e3 : ∀ (env : Env Pkt) b, fieldStep (Pkt.enum layer4 { isUse := true, branch := some layerProtocol }) none env b =
      transportDec (layerProtocol env) b :=
    fun env b => fieldStep_plain (Pkt.enum layer4 { isUse := true, branch := some layerProtocol }) ⟨rfl, rfl, rfl, rfl, rfl, rfl⟩
      rfl rfl rfl rfl rfl rfl none env b
  have c1 := (((eth_covers none none).map Pkt.record).congr (e1 { vars := vars }))
  refine Covers.mono (Covers.congr (c1.bindWith (W' := fun v w1 vs w => ∃ eth : EthHeader, eth.Standard ∧ w1 = eth.wire ∧
      v = .record (ethValue eth.destination eth.source eth.type) ∧ ∃ o t, NetworkFits eth.type o ∧ TransportFits o t ∧
        vs = [v, networkValue o, t.value] ∧ w = networkWire o ++ t.wire) ?_) (decFields_cons _ _ _ _)) ?_
  · rintro v w ⟨vs, rfl, eth, he, rfl, rfl⟩
    generalize hv : Pkt.record (ethValue eth.destination eth.source eth.type) = v
    have c2 := (network_covers eth.type).congr (m' := fieldStep (Pkt.enum layer3 { isUse := true, branch := some layerType }) none
      (({ vars := vars } : Env Pkt).push v)) fun b => by rw [e2, ← hv]; rfl
    refine Covers.mono (Covers.bind (W := fun vs w => ∃ o t, NetworkFits eth.type o ∧ TransportFits o t ∧
      vs = [networkValue o, t.value] ∧ w = networkWire o ++ t.wire) ?_ fun us _ _ => Covers.pure (v :: us)) ?_
    · refine Covers.mono (Covers.congr (c2.bindWith (W' := fun u w1 vs w => ∃ o t, u = networkValue o ∧ w1 = networkWire o ∧
        NetworkFits eth.type o ∧ TransportFits o t ∧ vs = [networkValue o, t.value] ∧ w = t.wire) ?_) (decFields_cons _ _ _ _)) ?_
      · rintro u w ⟨o, ho, rfl, rfl⟩
        have hp : layerProtocol ((({ vars := vars } : Env Pkt).push v).push (networkValue o)) = protocolOf o := by
          rw [← hv]; exact layerProtocol_eq vars ⟨eth, o, .other, []⟩
        have c3 := (transport_covers o).congr (m' := fieldStep (Pkt.enum layer4 { isUse := true, branch := some layerProtocol }) none
          ((({ vars := vars } : Env Pkt).push v).push (networkValue o))) fun b => by rw [e3, hp]
        refine Covers.mono (Covers.bind (W := fun vs w => ∃ t, TransportFits o t ∧ vs = [t.value] ∧ w = t.wire) ?_ fun us _ _ =>
          Covers.pure (networkValue o :: us)) ?_
        · refine Covers.mono (Covers.congr (c3.bind fun u _ _ => Covers.pure [u]) fun b => ?_) ?_
          · exact decFields_one (Pkt.enum layer4 { isUse := true, branch := some layerProtocol }) none _ b
          · rintro vs w ⟨v, w1, w2, rfl, ⟨t, ht, rfl, rfl⟩, rfl, rfl⟩
            exact ⟨t, ht, rfl, by simp⟩
        · rintro vs w ⟨v, w1, w2, rfl, ⟨t, ht, rfl, rfl⟩, rfl, rfl⟩
          exact ⟨o, t, rfl, rfl, ho, ht, rfl, by simp⟩
      · rintro vs w ⟨u, w1, w2, rfl, -, o, t, rfl, rfl, ho, ht, rfl, rfl⟩
        exact ⟨o, t, ho, ht, rfl, rfl⟩
    · rintro vs w ⟨us, w1, w2, rfl, ⟨o, t, ho, ht, rfl, rfl⟩, rfl, rfl⟩
      exact ⟨eth, he, rfl, hv.symm, o, t, ho, ht, rfl, by simp⟩
  · rintro vs w ⟨v, w1, w2, rfl, -, eth, he, rfl, rfl, o, t, ho, ht, rfl, rfl⟩
    exact ⟨⟨eth, o, t, []⟩, ⟨he, ho, ht⟩, rfl, rfl, by simp [Packet.wire]⟩

/-! ## C98 -/

/-- C98: a packet of these layers is written as the sequence of its headers; an input is read if it is such a packet, the
whole of it, and otherwise the error says that bytes are missing. -/
theorem C98_layers (ca : Option CAttr) (fa : Option FAttr) :
    (∀ f : Packet, f.Fits → Writes (encStruct layer f.value ca fa) f.wire) ∧
    ∀ pre r : List Byte, pre.length + r.length ≤ isizeMax →
      (∃ f : Packet, f.Fits ∧ r = f.wire ∧
        decStruct layer ca fa ⟨pre ++ r, pre.length⟩ = (.ok f.value, ⟨pre ++ r, pre.length + r.length⟩)) ∨
      (¬∃ f : Packet, f.Fits ∧ r = f.wire) ∧
        ∃ p b', decStruct layer ca fa ⟨pre ++ r, pre.length⟩ = (.err ⟨p, .invalidByteLength⟩, b') := by
  refine ⟨fun f hf => (layer_roundtrip f hf ca ca fa fa).1, fun pre r hp => ?_⟩
  have e : ∀ b, decStruct layer ca fa b = (decFields false (layer.fields.take 3) none none { vars := localVars [] ca } >>= fun vs =>
      decFields false [Pkt.slice { isUse := true, remaining := true }] none none (({ vars := localVars [] ca } : Env Pkt).extend vs) >>= fun ws =>
      (Pure.pure (vs ++ ws) : M (List Pkt))) b := by
    intro b
    refine Eq.trans (b := decFields false (layer.fields.take 3 ++ [Pkt.slice { isUse := true, remaining := true }]) none none
      { vars := localVars [] ca } b) rfl ?_
    rw [decFields_append, bind_apply, bind_apply]
    rcases decFields false (layer.fields.take 3) none none { vars := localVars [] ca } b with ⟨o, b'⟩
    cases o with
    | ok vs =>
      have : cachedAfter (layer.fields.take 3) none ({ vars := localVars [] ca } : Env Pkt) vs = none := by
        rcases vs with _ | ⟨a, _ | ⟨b, _ | ⟨c, _⟩⟩⟩ <;> rfl
      simp only [this]
    | _ => rfl
  rcases layer_covers (localVars [] ca) pre r hp with ⟨v, w, suf, rfl, ⟨f, hf, h0, rfl, rfl⟩, k⟩ | ⟨p, b', k⟩
  · have hw : f.wire ++ suf = (⟨f.ethernet, f.network, f.transport, suf⟩ : Packet).wire := by
      simp [Packet.wire, h0]
    refine .inl ⟨⟨f.ethernet, f.network, f.transport, suf⟩, ⟨hf.1, hf.2, hf.3⟩, hw, ?_⟩
    rw [e, bind_apply, k]
    simp only
    have := rest_reads (({ vars := localVars [] ca } : Env Pkt).extend (f.value.take 3)) (pre ++ f.wire) suf
      (by simp only [List.length_append] at hp ⊢; omega)
    simp only [List.append_assoc, List.length_append] at this
    rw [bind_apply, this]
    simp only [List.length_append, Nat.add_assoc]
    rfl
  · refine .inr ⟨?_, p, b', by rw [e, bind_apply, k]⟩
    rintro ⟨f, hf, rfl⟩
    have := (layer_roundtrip f hf ca ca fa fa).2 pre (by simpa using hp)
    rw [List.append_nil, e, bind_apply, k] at this
    cases this

/-- C98, taken apart and put together: what is read from an input is written as that input, whatever the input is. -/
theorem C98_restored (ca ca' : Option CAttr) (fa fa' : Option FAttr) (pre r : List Byte) (hp : pre.length + r.length ≤ isizeMax)
    (v : List Pkt) (b' : Buf) (h : decStruct layer ca fa ⟨pre ++ r, pre.length⟩ = (.ok v, b')) :
    b'.pos = pre.length + r.length ∧ Writes (encStruct layer v ca' fa') r := by
  rcases (C98_layers ca fa).2 pre r hp with ⟨f, hf, k1, k2⟩ | ⟨-, p, b'', k⟩
  · rw [k2] at h
    cases h
    refine ⟨rfl, ?_⟩
    rw [k1]
    exact (C98_layers ca' fa').1 f hf
  · rw [k] at h
    cases h

/-- The same for single headers. -/
theorem C98_headers_restored (ca ca' : Option CAttr) (fa fa' : Option FAttr) (S : StructDef Pkt)
    (hS : S = ip4 ∨ S = tcp ∨ S = udp ∨ S = ethernet ∨ S = ethernetAlone) (pre r : List Byte)
    (hp : pre.length + r.length ≤ isizeMax) (v : List Pkt) (b' : Buf)
    (h : decStruct S ca fa ⟨pre ++ r, pre.length⟩ = (.ok v, b')) :
    ∃ w suf, r = w ++ suf ∧ b'.pos = pre.length + w.length ∧ Writes (encStruct S v ca' fa') w := by
  have main : ∀ {H : Type} {S : StructDef Pkt} {P : H → Prop} {value : H → List Pkt} {wire : H → List Byte},
      Implements S P value wire → decStruct S ca fa ⟨pre ++ r, pre.length⟩ = (.ok v, b') →
      ∃ w suf, r = w ++ suf ∧ b'.pos = pre.length + w.length ∧ Writes (encStruct S v ca' fa') w := by
    intro H S P value wire hi h
    rcases (hi ca fa).2 pre r hp with ⟨x, suf, hx, k1, k2⟩ | ⟨-, p, b'', k⟩
    · rw [k2] at h
      cases h
      exact ⟨wire x, suf, k1, rfl, (hi ca' fa').1 x hx⟩
    · rw [k] at h
      cases h
  rcases hS with rfl | rfl | rfl | rfl | rfl
  · exact main C97_ip4_held_partial h
  · exact main C97_tcp_held_partial h
  · exact main C97_udp h
  · exact main C97_ethernet_partial.1 h
  · exact main C97_ethernet_partial.2 h

/-- The packet of the example program, examples/packet_parse_example.rs:110-114: a DNS query over UDP. -/
def packetSample : Packet :=
  ⟨⟨[0x00, 0xc0, 0x9f, 0x32, 0x41, 0x8c], [0x00, 0xe0, 0x18, 0xb1, 0x0c, 0xad], 0x800⟩,
    some ⟨4, 5, 0, 56, 0, 2, 0, 64, 17, 0x6547, [0xc0, 0xa8, 0xaa, 0x08], [0xc0, 0xa8, 0xaa, 0x14], []⟩,
    .udp ⟨32795, 53, 36, 34285⟩,
    [0x10, 0x32, 0x01, 0x00, 0x00, 0x01, 0x00, 0x00, 0x00, 0x00, 0x00, 0x00, 0x06, 0x67, 0x6f, 0x6f, 0x67, 0x6c, 0x65, 0x03,
      0x63, 0x6f, 0x6d, 0x00, 0x00, 0x10, 0x00, 0x01]⟩

theorem packetSample_fits : packetSample.Fits := by
  refine ⟨by constructor <;> decide, ⟨rfl, { options := by decide, toSized := ?_ }⟩, ⟨⟨_, rfl, rfl⟩, ?_⟩⟩
  · constructor <;> decide
  · constructor <;> decide

example : packetSample.wire = [0x00, 0xc0, 0x9f, 0x32, 0x41, 0x8c, 0x00, 0xe0, 0x18, 0xb1, 0x0c, 0xad, 0x08, 0x00, 0x45, 0x00,
    0x00, 0x38, 0x00, 0x00, 0x40, 0x00, 0x40, 0x11, 0x65, 0x47, 0xc0, 0xa8, 0xaa, 0x08, 0xc0, 0xa8,
    0xaa, 0x14, 0x80, 0x1b, 0x00, 0x35, 0x00, 0x24, 0x85, 0xed, 0x10, 0x32, 0x01, 0x00, 0x00, 0x01,
    0x00, 0x00, 0x00, 0x00, 0x00, 0x00, 0x06, 0x67, 0x6f, 0x6f, 0x67, 0x6c, 0x65, 0x03, 0x63, 0x6f,
    0x6d, 0x00, 0x00, 0x10, 0x00, 0x01] := by decide

/-- It is read, to its end. -/
example : decStruct layer none none ⟨packetSample.wire, 0⟩ = (.ok packetSample.value, ⟨packetSample.wire, 70⟩) := by
  have := (layer_roundtrip packetSample packetSample_fits none none none none).2 [] (by rw [isizeMax_def]; decide)
  rw [List.append_nil] at this
  exact this

/-- Thirteen bytes are no packet. -/
example : ∃ p b', decStruct layer none none ⟨[1, 2, 3, 4, 5, 6, 7, 8, 9, 10, 11, 12, 13], 0⟩ = (.err ⟨p, .invalidByteLength⟩, b') := by
  rcases (C98_layers none none).2 [] [1, 2, 3, 4, 5, 6, 7, 8, 9, 10, 11, 12, 13] (by rw [isizeMax_def]; decide) with ⟨f, hf, h, -⟩ | ⟨-, h⟩
  · have := congrArg List.length h
    have h1 := hf.ethernet.destination
    have h2 := hf.ethernet.source
    simp [Packet.wire, EthHeader.wire, oct2] at this
    omega
  · exact h

end JBytes
