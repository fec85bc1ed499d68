import Verif.Socket
import Verif.PropHttp
import Verif.PropFrames
/-!
# C105: the two sides of the socket example understand each other
-/

namespace JBytes
open M

/-! ## Specification -/

/-- The bodies of the protocol: an address, a number of bytes, and the bytes. -/
inductive SocketBody where
  | readReq (address length : Byte)
  | readRsp (address length : Byte) (data : List Byte)
  | writeReq (address length : Byte) (data : List Byte)
  | writeRsp (address length : Byte)
  | stop

structure SocketMsg where
  version : Byte
  body : SocketBody

/-- The body on the wire: its kind first. -/
def SocketBody.wire : SocketBody → List Byte
  | .readReq a l => [1, a, l]
  | .readRsp a l d => 2 :: a :: l :: d
  | .writeReq a l d => 3 :: a :: l :: d
  | .writeRsp a l => [4, a, l]
  | .stop => [5]

def SocketMsg.wire (m : SocketMsg) : List Byte := m.version :: m.body.wire

/-- The stated number of bytes is the number of bytes. -/
def SocketBody.Fits : SocketBody → Prop
  | .readRsp _ l d => d.length = l.toNat
  | .writeReq _ l d => d.length = l.toNat
  | _ => True

def SocketMsg.Fits (m : SocketMsg) : Prop := m.body.Fits

/-- The value of the Rust type. -/
def SocketBody.value : SocketBody → Pkt
  | .readReq a l => .variant 0 [.num a.toNat, .num l.toNat]
  | .readRsp a l d => .variant 1 [.num a.toNat, .num l.toNat, .bytes d]
  | .writeReq a l d => .variant 2 [.num a.toNat, .num l.toNat, .bytes d]
  | .writeRsp a l => .variant 3 [.num a.toNat, .num l.toNat]
  | .stop => .variant 4 []

def SocketMsg.value (m : SocketMsg) : List Pkt := [.num m.version.toNat, m.body.value]

/-! ## Fields -/

theorem u8_seg (ee ed : Env Pkt) (x : Byte) (suf : List Byte) : SegRT [Pkt.u8] none none ee ed [.num x.toNat] [x] suf := by
  have := seg_u8 ee ed x.toNat x.toNat_lt suf
  rw [oct1_of] at this
  exact this

/-- The address and the number of bytes. -/
theorem pair_seg (ee ed : Env Pkt) (a l : Byte) (suf : List Byte) :
    Segments none [Pkt.u8, Pkt.u8] none ee ed [.num a.toNat, .num l.toNat] [a, l] suf :=
  Segments.one (w1 := [a]) (u8_seg ee ed a) rfl (Segments.one (w1 := [l]) (w2 := []) (u8_seg _ _ l) rfl (.nil _ _ _ suf))

theorem pair_covers (env : Env Pkt) : Covers (decFields false [Pkt.u8, Pkt.u8] none none env) fun vs w =>
    ∃ a l : Byte, vs = [.num a.toNat, .num l.toNat] ∧ w = [a, l] := by
  have h : FieldsNeed [Pkt.u8, Pkt.u8] 2 2 := FieldsNeed.cons (int_needs ⟨1, false⟩ valid1) (by decide)
    (FieldsNeed.cons (int_needs ⟨1, false⟩ valid1) (by decide) .nil (by decide)) (by decide)
  refine Covers.fixed (h none env) fun x hx => ?_
  obtain ⟨a, y, rfl, hy⟩ := list_succ hx
  obtain ⟨l, z, rfl, hz⟩ := list_succ hy
  obtain rfl := List.length_eq_zero_iff.mp hz
  exact ⟨_, ⟨a, l, rfl, rfl⟩, fun suf => (pair_seg env env a l suf).roundtrip.reads⟩

/-- With the bytes. -/
theorem triple_seg (ee ed : Env Pkt) (he : ee.fields = []) (hd : ed.fields = []) (a l : Byte) (d suf : List Byte) (h : d.length = l.toNat) :
    Segments none [Pkt.u8, Pkt.u8, socketData] none ee ed [.num a.toNat, .num l.toNat, .bytes d] (a :: l :: d) suf := by
  have := Segments.one (w1 := d) (w2 := []) (fun suf => seg_slice (fun env => env.pktNum 1)
    ((ee.extend [Pkt.num a.toNat]).extend [Pkt.num l.toNat]) ((ed.extend [Pkt.num a.toNat]).extend [Pkt.num l.toNat]) d suf
    (by simp [Env.extend, Env.push, Env.pktNum, he, h]) (by simp [Env.extend, Env.push, Env.pktNum, hd, h])) rfl (.nil none _ _ suf)
  rw [List.append_nil] at this
  exact Segments.one (w1 := [a]) (u8_seg ee ed a) rfl (Segments.one (w1 := [l]) (w2 := d) (u8_seg _ _ l) rfl this)

theorem triple_covers (env : Env Pkt) (he : env.fields = []) :
    Covers (decFields false [Pkt.u8, Pkt.u8, socketData] none none env) fun vs w =>
      ∃ (a l : Byte) (d : List Byte), d.length = l.toNat ∧ vs = [.num a.toNat, .num l.toNat, .bytes d] ∧ w = a :: l :: d := by
  refine Covers.congr ((pair_covers env).bind fun v w hv => (slice_covers (fun env => env.pktNum 1)
    (cachedAfter [Pkt.u8, Pkt.u8] none env v) (env.extend v)).bind fun ws _ _ => Covers.pure (v ++ ws))
    (fun b => decFields_append [Pkt.u8, Pkt.u8] [socketData] none env b) |>.mono ?_
  rintro vs w ⟨v, w1, w2, rfl, ⟨a, l, rfl, rfl⟩, ws, w3, w4, rfl, ⟨h3, rfl⟩, rfl, rfl⟩
  refine ⟨a, l, w3, ?_, rfl, by simp⟩
  rw [h3]
  simp [Env.extend, Env.pktNum, he]

/-! ## Variants -/

theorem socket_arm (env : Env Pkt) (i : Nat) (v : Variant Pkt) (hv : v.attrs = {}) (ht : v.tuple = false) (b : Buf) :
    decVariant none env i v b = mapM' (fun vs => (i, vs)) (decFields false v.fields none none env) b := by
  obtain ⟨a, n, d, bd, bb, bv, br, t, fs⟩ := v
  simp only at hv ht
  subst hv ht
  rfl

/-- The arms of `match value`. -/
theorem socket_match (env : Env Pkt) (t : Byte) (b : Buf) : decArm socketBody env (.num t.toNat) b =
    if t = 1 then mapM' (fun vs => (0, vs)) (decFields false [Pkt.u8, Pkt.u8] none none env) b
    else if t = 2 then mapM' (fun vs => (1, vs)) (decFields false [Pkt.u8, Pkt.u8, socketData] none none env) b
    else if t = 3 then mapM' (fun vs => (2, vs)) (decFields false [Pkt.u8, Pkt.u8, socketData] none none env) b
    else if t = 4 then mapM' (fun vs => (3, vs)) (decFields false [Pkt.u8, Pkt.u8] none none env) b
    else if t = 5 then (.ok (4, []), b)
    else (fail .invalidByteLength : M (Nat × List Pkt)) b := by
  have e : ∀ x : Byte, (Tag.num x.toNat == Tag.num t.toNat) = decide (t = x) := fun x => by
    by_cases h : t = x
    · subst h; simp
    · have : x.toNat ≠ t.toNat := fun k => h (UInt8.toNat_inj.mp k).symm
      simp [h, this]
  have h : findArm (.num t.toNat) 0 (socketBody.variants.zip socketBody.numbers) =
      if t = 1 then some (0, socketBody.variants[0]) else if t = 2 then some (1, socketBody.variants[1])
      else if t = 3 then some (2, socketBody.variants[2]) else if t = 4 then some (3, socketBody.variants[3])
      else if t = 5 then some (4, socketBody.variants[4]) else none := by
    show (if (Tag.num (1 : Byte).toNat == Tag.num t.toNat) then some (0, socketBody.variants[0])
      else if (Tag.num (2 : Byte).toNat == Tag.num t.toNat) then some (1, socketBody.variants[1])
      else if (Tag.num (3 : Byte).toNat == Tag.num t.toNat) then some (2, socketBody.variants[2])
      else if (Tag.num (4 : Byte).toNat == Tag.num t.toNat) then some (3, socketBody.variants[3])
      else if (Tag.num (5 : Byte).toNat == Tag.num t.toNat) then some (4, socketBody.variants[4]) else none) = _
    simp only [e, decide_eq_true_eq]
  unfold decArm
  rw [h]
  by_cases h1 : t = 1
  · simp only [if_pos h1]; exact socket_arm env 0 _ rfl rfl b
  by_cases h2 : t = 2
  · simp only [if_neg h1, if_pos h2]; exact socket_arm env 1 _ rfl rfl b
  by_cases h3 : t = 3
  · simp only [if_neg h1, if_neg h2, if_pos h3]; exact socket_arm env 2 _ rfl rfl b
  by_cases h4 : t = 4
  · simp only [if_neg h1, if_neg h2, if_neg h3, if_pos h4]; exact socket_arm env 3 _ rfl rfl b
  by_cases h5 : t = 5
  · simp only [if_neg h1, if_neg h2, if_neg h3, if_neg h4, if_pos h5]; rfl
  · simp only [if_neg h1, if_neg h2, if_neg h3, if_neg h4, if_neg h5]

theorem body_dec (b : Buf) : decEnum socketBody none none b =
    (takeU8 >>= fun t => decArm socketBody { vars := [] } (.num t.toNat)) b := by
  show (decTag none none none >>= fun n => decArm socketBody { vars := localVars [] none } (.num n)) b = _
  have e : decTag none none none b = (takeU8 >>= fun x => (Pure.pure x.toNat : M Nat)) b := rfl
  rw [bind_apply, bind_apply, e, bind_apply]
  rcases takeU8 b with ⟨o, b'⟩
  cases o <;> rfl

theorem body_reads (x : SocketBody) (hx : x.Fits) (suf : List Byte) :
    Reads (mapM' (fun x => Pkt.variant x.1 x.2) (decEnum socketBody none none)) x.value x.wire suf := by
  have key : ∀ (t : Byte) (i : Nat) (vs : List Pkt) (w : List Byte), Reads (decArm socketBody { vars := [] } (.num t.toNat)) (i, vs) w suf →
      Reads (mapM' (fun x => Pkt.variant x.1 x.2) (decEnum socketBody none none)) (.variant i vs) (t :: w) suf := by
    intro t i vs w h
    exact (((Reads.u8 t (w ++ suf)).bind h).congr fun b _ => body_dec b).mapped fun x => Pkt.variant x.1 x.2
  cases x with
  | readReq a l =>
    exact key 1 0 _ _ (((pair_seg { vars := [] } _ a l suf).roundtrip.reads.mapped fun vs => (0, vs)).congr fun b _ => socket_match _ 1 b)
  | readRsp a l d =>
    exact key 2 1 _ _ (((triple_seg { vars := [] } { vars := [] } rfl rfl a l d suf hx).roundtrip.reads.mapped fun vs => (1, vs)).congr
      fun b _ => socket_match _ 2 b)
  | writeReq a l d =>
    exact key 3 2 _ _ (((triple_seg { vars := [] } { vars := [] } rfl rfl a l d suf hx).roundtrip.reads.mapped fun vs => (2, vs)).congr
      fun b _ => socket_match _ 3 b)
  | writeRsp a l =>
    exact key 4 3 _ _ (((pair_seg { vars := [] } _ a l suf).roundtrip.reads.mapped fun vs => (3, vs)).congr fun b _ => socket_match _ 4 b)
  | stop => exact key 5 4 _ _ ((Reads.pure (4, []) suf).congr fun b _ => socket_match _ 5 b)

theorem u8_take_covers : Covers takeU8 fun x w => w = [x] := by
  have h : Needs takeU8 1 1 := by
    intro b hb
    rw [takeU8_apply b hb]
    constructor
    · intro h
      rw [dif_pos (by omega)]
      exact ⟨_, rfl⟩
    · intro h
      rw [dif_neg (by omega)]
      exact ⟨_, _, rfl⟩
  refine Covers.fixed h fun x hx => ?_
  obtain ⟨a, y, rfl, hy⟩ := list_succ hx
  obtain rfl := List.length_eq_zero_iff.mp hy
  exact ⟨a, rfl, fun suf => Reads.u8 a suf⟩

theorem body_covers : Covers (mapM' (fun x => Pkt.variant x.1 x.2) (decEnum socketBody none none)) fun v w =>
    ∃ x : SocketBody, x.Fits ∧ v = x.value ∧ w = x.wire := by
  have arm : ∀ t : Byte, Covers (decArm socketBody { vars := [] } (.num t.toNat)) fun v w =>
      ∃ x : SocketBody, x.Fits ∧ .variant v.1 v.2 = x.value ∧ t :: w = x.wire := by
    intro t
    by_cases h1 : t = 1
    · subst h1
      refine Covers.mono (((pair_covers { vars := [] }).map fun vs => (0, vs)).congr fun b => socket_match _ 1 b) ?_
      rintro v w ⟨vs, rfl, a, l, rfl, rfl⟩
      exact ⟨.readReq a l, trivial, rfl, rfl⟩
    by_cases h2 : t = 2
    · subst h2
      refine Covers.mono (((triple_covers { vars := [] } rfl).map fun vs => (1, vs)).congr fun b => socket_match _ 2 b) ?_
      rintro v w ⟨vs, rfl, a, l, d, h, rfl, rfl⟩
      exact ⟨.readRsp a l d, h, rfl, rfl⟩
    by_cases h3 : t = 3
    · subst h3
      refine Covers.mono (((triple_covers { vars := [] } rfl).map fun vs => (2, vs)).congr fun b => socket_match _ 3 b) ?_
      rintro v w ⟨vs, rfl, a, l, d, h, rfl, rfl⟩
      exact ⟨.writeReq a l d, h, rfl, rfl⟩
    by_cases h4 : t = 4
    · subst h4
      refine Covers.mono (((pair_covers { vars := [] }).map fun vs => (3, vs)).congr fun b => socket_match _ 4 b) ?_
      rintro v w ⟨vs, rfl, a, l, rfl, rfl⟩
      exact ⟨.writeRsp a l, trivial, rfl, rfl⟩
    by_cases h5 : t = 5
    · subst h5
      refine Covers.mono ((Covers.pure (4, [])).congr fun b => socket_match _ 5 b) ?_
      rintro v w ⟨rfl, rfl⟩
      exact ⟨.stop, trivial, rfl, rfl⟩
    · intro pre r _
      refine .inr ?_
      rw [socket_match, if_neg h1, if_neg h2, if_neg h3, if_neg h4, if_neg h5]
      exact ⟨_, _, rfl⟩
  refine Covers.mono ((((u8_take_covers.bindWith (W' := fun t _ v w => ∃ x : SocketBody, x.Fits ∧ .variant v.1 v.2 = x.value ∧ t :: w = x.wire)
    fun t w _ => arm t)).congr body_dec).map fun x => Pkt.variant x.1 x.2) ?_
  rintro v w ⟨x, rfl, t, w1, w2, rfl, rfl, y, hy, h1, h2⟩
  exact ⟨y, hy, h1, h2⟩

/-! ## Writing -/

theorem u8_writes (env : Env Pkt) (x : Byte) : Writes (fieldEnc Pkt.u8 none env (.num x.toNat)) [x] := by
  refine fieldEnc_plain Pkt.u8 ⟨rfl, rfl, rfl, rfl, rfl, rfl⟩ rfl rfl rfl rfl none env _ _ ?_
  have := int_writes ⟨1, false⟩ valid1 x.toNat none none rfl rfl
  rw [show toBytes (effectiveOrder none none) (⟨1, false⟩ : IntKind).size x.toNat = [x] from (oct1_eq _).trans (oct1_of x)] at this
  exact this

theorem data_writes (env : Env Pkt) (d : List Byte) : Writes (fieldEnc socketData none env (.bytes d)) d := by
  refine fieldEnc_plain socketData ⟨rfl, rfl, rfl, rfl, rfl, rfl⟩ rfl rfl rfl rfl none env _ _ ?_
  have := (encBytes_appends d none (some { length := some (env.pktNum 1) }) (by intro k h; cases h)).writes
  rw [show bytesWire none (some { length := some (env.pktNum 1) }) d = d by simp [bytesWire, heads, framingOf, Framing.wire]] at this
  exact this

theorem pair_writes (env : Env Pkt) (a l : Byte) :
    Writes (encFields false [Pkt.u8, Pkt.u8] none none env [.num a.toNat, .num l.toNat]) [a, l] :=
  encFields_cons_writes (w := [a]) (u8_writes env a) (encFields_cons_writes (w := [l]) (u8_writes _ l) (encFields_nil_writes none _))

theorem triple_writes (env : Env Pkt) (a l : Byte) (d : List Byte) :
    Writes (encFields false [Pkt.u8, Pkt.u8, socketData] none none env [.num a.toNat, .num l.toNat, .bytes d]) (a :: l :: d) := by
  have := encFields_cons_writes (w := [a]) (u8_writes env a) (encFields_cons_writes (w := [l]) (u8_writes _ l)
    (encFields_cons_writes (data_writes _ d) (encFields_nil_writes none _)))
  rw [List.append_nil] at this
  exact this

theorem socket_variant_writes (t : Byte) (v : Variant Pkt) (hv : v.attrs = {}) (hn : NoLeak none v.fields) (vs : List Pkt) (w : List Byte)
    (h : Writes (encFields false v.fields none none { vars := [] } vs) w) :
    Writes (encVariant socketBody v t.toNat vs none none) (t :: w) := by
  refine ((Appends.pushU8 t).writes.seq h).congr fun b => ?_
  have e : encVariant socketBody v t.toNat vs none none b = (encTag none none none false t.toNat >>= fun n =>
      encFields true v.fields none none { vars := [] } vs >>= fun m => (Pure.pure (n + m) : M Nat)) b := by
    obtain ⟨a, n, d, bd, bb, bv, br, tt, fs⟩ := v
    simp only at hv
    subst hv
    rfl
  have e2 : encTag none none none false t.toNat = pushU8 t := by
    show pushU8 (UInt8.ofNat t.toNat) = _
    rw [UInt8.ofNat_toNat]
  rw [e, e2, bind_apply, bind_apply]
  rcases pushU8 t b with ⟨o, b'⟩
  cases o with
  | ok n =>
    simp only
    rw [bind_apply, encFields_noLeak _ _ _ _ _ _ hn, bind_apply]
  | _ => rfl

theorem body_writes (x : SocketBody) : Writes ((Pkt.enum socketBody {}).enc x.value none none) x.wire := by
  have p : NoLeak none [Pkt.u8, Pkt.u8] := ⟨by simp [Pkt.u8, Pkt.int], .inl rfl⟩
  have q : NoLeak none [Pkt.u8, Pkt.u8, socketData] := ⟨by simp [Pkt.u8, Pkt.int, socketData, Pkt.slice], .inl rfl⟩
  cases x with
  | readReq a l => exact socket_variant_writes 1 socketBody.variants[0] rfl p _ _ (pair_writes _ a l)
  | readRsp a l d => exact socket_variant_writes 2 socketBody.variants[1] rfl q _ _ (triple_writes _ a l d)
  | writeReq a l d => exact socket_variant_writes 3 socketBody.variants[2] rfl q _ _ (triple_writes _ a l d)
  | writeRsp a l => exact socket_variant_writes 4 socketBody.variants[3] rfl p _ _ (pair_writes _ a l)
  | stop => exact socket_variant_writes 5 socketBody.variants[4] rfl ⟨.nil, .inl rfl⟩ _ _ (encFields_nil_writes none _)

/-! ## Messages -/

theorem message_roundtrip (m : SocketMsg) (hm : m.Fits) (ca ca' : Option CAttr) (fa fa' : Option FAttr) (suf : List Byte) :
    Writes (encStruct socketMessage m.value ca fa) m.wire ∧ Reads (decStruct socketMessage ca' fa') m.value m.wire suf := by
  have b : ∀ (ee ed : Env Pkt) (suf : List Byte), SegRT [Pkt.enum socketBody {}] none none ee ed [m.body.value] m.body.wire suf :=
    fun ee ed suf => seg_codec _ rfl ee ed _ _ suf (body_writes m.body) (body_reads m.body hm suf)
  refine C43_struct_roundtrip socketMessage rfl rfl (by intro h; cases h) ca ca' fa fa' _ _ suf ?_
  have := Segments.one (w1 := [m.version]) (u8_seg { vars := localVars [] ca } { vars := localVars [] ca' } m.version) rfl
    (Segments.one (fs := []) (vs := []) (b _ _) rfl (.nil none _ _ suf))
  rw [List.append_nil] at this
  exact this

theorem message_covers (ca : Option CAttr) (fa : Option FAttr) : Covers (decStruct socketMessage ca fa) fun v w =>
    ∃ m : SocketMsg, m.Fits ∧ v = m.value ∧ w = m.wire := by
  have c1 : ∀ env : Env Pkt, Covers (decFields false [Pkt.u8] none none env) fun vs w => ∃ x : Byte, vs = [.num x.toNat] ∧ w = [x] := by
    intro env
    have h : FieldsNeed [Pkt.u8] 1 1 := FieldsNeed.cons (int_needs ⟨1, false⟩ valid1) (by decide) .nil (by decide)
    refine Covers.fixed (h none env) fun x hx => ?_
    obtain ⟨a, y, rfl, hy⟩ := list_succ hx
    obtain rfl := List.length_eq_zero_iff.mp hy
    exact ⟨_, ⟨a, rfl, rfl⟩, fun suf => (u8_seg env env a suf).reads⟩
  have c2 : ∀ env : Env Pkt, Covers (decFields false [Pkt.enum socketBody {}] none none env) fun vs w =>
      ∃ x : SocketBody, x.Fits ∧ vs = [x.value] ∧ w = x.wire := by
    intro env
    refine Covers.mono (Covers.congr ((body_covers.congr (fieldStep_plain (Pkt.enum socketBody {}) ⟨rfl, rfl, rfl, rfl, rfl, rfl⟩
      rfl rfl rfl rfl rfl rfl none env)).bind fun u _ _ => Covers.pure [u]) (decFields_one _ none env)) ?_
    rintro vs w ⟨v, w1, w2, rfl, ⟨x, hx, rfl, rfl⟩, rfl, rfl⟩
    exact ⟨x, hx, rfl, by simp⟩
  refine Covers.mono (Covers.congr ((c1 { vars := localVars [] ca }).bind fun v w hv => (c2 (({ vars := localVars [] ca } : Env Pkt).extend v)).bind
    fun ws _ _ => Covers.pure (v ++ ws)) fun b => ?_) ?_
  · exact decFields_append [Pkt.u8] [Pkt.enum socketBody {}] none _ b
  · rintro vs w ⟨v, w1, w2, rfl, ⟨x, rfl, rfl⟩, ws, w3, w4, rfl, ⟨y, hy, rfl, rfl⟩, rfl, rfl⟩
    exact ⟨⟨x, y⟩, hy, rfl, by simp [SocketMsg.wire]⟩

/-! ## C105 -/

/-- C105: `Message` implements the protocol: every message whose stated number of bytes is right is written as its layout, an input
that begins with one is read as that message, and any other is refused. -/
theorem C105_messages : Implements socketMessage SocketMsg.Fits SocketMsg.value SocketMsg.wire :=
  implements_of message_roundtrip message_covers

/-- C105: also a message that states a wrong number of bytes is sent. -/
theorem C105_written (m : SocketMsg) (h : m.wire.length ≤ isizeMax) : socketSend m.value = .ok m.wire := by
  have hw : Writes (encStruct socketMessage m.value none none) m.wire := by
    have := encFields_cons_writes (w := [m.version]) (u8_writes { vars := localVars [] none } m.version)
      (encFields_cons_writes (fieldEnc_plain (Pkt.enum socketBody {}) ⟨rfl, rfl, rfl, rfl, rfl, rfl⟩ rfl rfl rfl rfl none _ _ _
        (body_writes m.body)) (encFields_nil_writes none _))
    rw [List.append_nil] at this
    exact this
  obtain ⟨n, e⟩ := hw [] (by simpa using h)
  simp only [socketSend, encodeTop, Buf.new]
  simp only [List.nil_append, List.length_nil, Nat.zero_add] at e
  rw [e]

theorem receive_ok (m : SocketMsg) (hm : m.Fits) (suf : List Byte) (h : m.wire.length + suf.length ≤ isizeMax) :
    socketReceive (m.wire ++ suf) = .ok m.value := by
  have := (message_roundtrip m hm none none none none suf).2 [] (by simpa using h)
  simp only [List.nil_append, List.length_nil] at this
  simp only [socketReceive, decodeTop, Buf.ofBytes]
  rw [this]

theorem receive_refused (r : List Byte) (h : r.length ≤ isizeMax) (hn : ¬ ∃ (m : SocketMsg) (suf : List Byte), m.Fits ∧ r = m.wire ++ suf) :
    socketReceive r = .panic := by
  rcases (C105_messages none none).2 [] r (by simpa using h) with ⟨m, suf, hm, e, _⟩ | ⟨_, p, b', e⟩
  · exact absurd ⟨m, suf, hm, e⟩ hn
  · simp only [List.nil_append, List.length_nil] at e
    simp only [socketReceive, decodeTop, Buf.ofBytes]
    rw [e]

theorem readInto_length (n : Nat) (c : List Byte) (h : c.length ≤ n) : (readInto n c).length = n := by
  rw [readInto, List.length_append, List.length_replicate]
  omega

/-- C105: a message that one `read` yields whole is understood, whatever the size of the buffer and whatever was received behind it. -/
theorem C105_delivered (m : SocketMsg) (hm : m.Fits) (n : Nat) (more : List Byte) (hn : (m.wire ++ more).length ≤ n) (hi : n ≤ isizeMax) :
    socketReceive (readInto n (m.wire ++ more)) = .ok m.value := by
  have hl := readInto_length n _ hn
  have e : readInto n (m.wire ++ more) = m.wire ++ (more ++ List.replicate (n - (m.wire ++ more).length) 0) := by
    rw [readInto, List.append_assoc]
  rw [e] at hl ⊢
  refine receive_ok m hm _ ?_
  rw [List.length_append] at hl
  omega

/-- The answer by the first bytes of the buffer, if there is one: the read request of the example is answered by three bytes,
responses and `Stop` by `Stop`. -/
def serverAnswer : List Byte → Option (List Byte)
  | 1 :: 1 :: 2 :: 3 :: _ => some [1, 2, 2, 3, 0, 1, 2]
  | 1 :: 2 :: _ => some [1, 5]
  | 1 :: 4 :: _ => some [1, 5]
  | 1 :: 5 :: _ => some [1, 5]
  | _ => none

theorem answer_none {v t a l : Byte} (r : List Byte) (h : ¬ (v = 1 ∧ t = 1 ∧ a = 2 ∧ l = 3)) (h' : ¬ (v = 1 ∧ (t = 2 ∨ t = 4 ∨ t = 5))) :
    serverAnswer (v :: t :: a :: l :: r) = none := by
  unfold serverAnswer
  split <;> simp_all

theorem list_four {p : List Byte} (h : 4 ≤ p.length) : ∃ v t a l r, p = v :: t :: a :: l :: r ∧ r.length + 4 = p.length := by
  match p, h with
  | v :: t :: a :: l :: r, _ => exact ⟨v, t, a, l, r, rfl, rfl⟩

/-- The message in the front of a long enough buffer. -/
theorem receive_front (v t a l : Byte) (r : List Byte) (h : l.toNat ≤ r.length) (hi : r.length + 4 ≤ isizeMax) :
    socketReceive (v :: t :: a :: l :: r) =
      if t = 1 then .ok (⟨v, .readReq a l⟩ : SocketMsg).value
      else if t = 2 then .ok (⟨v, .readRsp a l (r.take l.toNat)⟩ : SocketMsg).value
      else if t = 3 then .ok (⟨v, .writeReq a l (r.take l.toNat)⟩ : SocketMsg).value
      else if t = 4 then .ok (⟨v, .writeRsp a l⟩ : SocketMsg).value
      else if t = 5 then .ok (⟨v, .stop⟩ : SocketMsg).value
      else .panic := by
  have ht : (r.take l.toNat).length = l.toNat := by rw [List.length_take]; omega
  have key : ∀ (m : SocketMsg) (suf : List Byte), m.Fits → v :: t :: a :: l :: r = m.wire ++ suf →
      socketReceive (v :: t :: a :: l :: r) = .ok m.value := by
    intro m suf hm e
    have hl := congrArg List.length e
    rw [List.length_append] at hl
    simp only [List.length_cons] at hl
    rw [e]
    exact receive_ok m hm suf (by omega)
  by_cases h1 : t = 1
  · rw [if_pos h1]
    exact key ⟨v, .readReq a l⟩ r trivial (by subst h1; rfl)
  by_cases h2 : t = 2
  · rw [if_neg h1, if_pos h2]
    exact key ⟨v, .readRsp a l (r.take l.toNat)⟩ (r.drop l.toNat) ht (by subst h2; simp [SocketMsg.wire, SocketBody.wire])
  by_cases h3 : t = 3
  · rw [if_neg h1, if_neg h2, if_pos h3]
    exact key ⟨v, .writeReq a l (r.take l.toNat)⟩ (r.drop l.toNat) ht (by subst h3; simp [SocketMsg.wire, SocketBody.wire])
  by_cases h4 : t = 4
  · rw [if_neg h1, if_neg h2, if_neg h3, if_pos h4]
    exact key ⟨v, .writeRsp a l⟩ r trivial (by subst h4; rfl)
  by_cases h5 : t = 5
  · rw [if_neg h1, if_neg h2, if_neg h3, if_neg h4, if_pos h5]
    exact key ⟨v, .stop⟩ (a :: l :: r) trivial (by subst h5; rfl)
  · rw [if_neg h1, if_neg h2, if_neg h3, if_neg h4, if_neg h5]
    refine receive_refused _ (by simpa using hi) ?_
    rintro ⟨⟨v', x⟩, suf, -, e⟩
    cases x <;> simp only [SocketMsg.wire, SocketBody.wire, List.cons_append, List.cons.injEq] at e <;> simp_all

theorem isize_small : 2048 ≤ isizeMax := by
  rw [isizeMax_def]; decide

/-- C105: what the server does with every possible result of its `read`. -/
theorem C105_server_partial (chunk : List Byte) (h : chunk.length ≤ 1024) :
    handleConnection chunk = match serverAnswer (readInto 1024 chunk) with
      | some r => .ok r
      | none => .panic := by
  have hi := isize_small
  have hl := readInto_length 1024 chunk h
  obtain ⟨v, t, a, l, r, e, hr⟩ := list_four (p := readInto 1024 chunk) (by omega)
  have hll : l.toNat < 256 := l.toNat_lt
  have rf := receive_front v t a l r (by omega) (by omega)
  have stop : socketSend [.num 1, .variant 4 []] = .ok [1, 5] := C105_written ⟨1, .stop⟩ (by simp [SocketMsg.wire, SocketBody.wire]; omega)
  have rsp : socketSend [.num 1, .variant 1 [.num 2, .num 3, .bytes [0, 1, 2]]] = .ok [1, 2, 2, 3, 0, 1, 2] :=
    C105_written ⟨1, .readRsp 2 3 [0, 1, 2]⟩ (by simp [SocketMsg.wire, SocketBody.wire]; omega)
  have num : ∀ (x : Byte) (k : Byte), x.toNat = k.toNat ↔ x = k := fun x k => UInt8.toNat_inj
  rw [handleConnection, e, rf]
  by_cases hv : v = 1
  rotate_left
  · have hv' : v.toNat ≠ 1 := fun k => hv ((num v 1).mp k)
    have ea : serverAnswer (v :: t :: a :: l :: r) = none := answer_none r (fun k => hv k.1) (fun k => hv k.1)
    rw [ea]
    by_cases h1 : t = 1
    · simp only [if_pos h1, SocketMsg.value, SocketBody.value, if_pos hv']
    by_cases h2 : t = 2
    · simp only [if_neg h1, if_pos h2, SocketMsg.value, SocketBody.value, if_pos hv']
    by_cases h3 : t = 3
    · simp only [if_neg h1, if_neg h2, if_pos h3, SocketMsg.value, SocketBody.value, if_pos hv']
    by_cases h4 : t = 4
    · simp only [if_neg h1, if_neg h2, if_neg h3, if_pos h4, SocketMsg.value, SocketBody.value, if_pos hv']
    by_cases h5 : t = 5
    · simp only [if_neg h1, if_neg h2, if_neg h3, if_neg h4, if_pos h5, SocketMsg.value, SocketBody.value, if_pos hv']
    · simp only [if_neg h1, if_neg h2, if_neg h3, if_neg h4, if_neg h5]
  · subst hv
    have hv' : ¬ ((1 : Byte).toNat ≠ 1) := by decide
    by_cases h1 : t = 1
    · subst h1
      simp only [if_true, SocketMsg.value, SocketBody.value, if_neg hv']
      by_cases hal : a = 2 ∧ l = 3
      · obtain ⟨rfl, rfl⟩ := hal
        simp only [rsp, serverAnswer]
        rfl
      · have : ¬ (a.toNat = 2 ∧ l.toNat = 3) := fun k => hal ⟨(num a 2).mp k.1, (num l 3).mp k.2⟩
        rw [if_neg this]
        have ea : serverAnswer (1 :: 1 :: a :: l :: r) = none := answer_none r (fun k => hal k.2.2) (by decide)
        rw [ea]
    by_cases h2 : t = 2
    · subst h2
      simp only [if_neg h1, if_true, SocketMsg.value, SocketBody.value, if_neg hv', stop, serverAnswer]
    by_cases h3 : t = 3
    · subst h3
      simp only [if_neg h1, if_neg h2, if_true, SocketMsg.value, SocketBody.value, if_neg hv', serverAnswer]
      refine if_neg ?_
      rintro ⟨-, k1, k2⟩
      have := congrArg List.length k2
      rw [List.length_take] at this
      simp only [List.length_cons, List.length_nil] at this
      omega
    by_cases h4 : t = 4
    · subst h4
      simp only [if_neg h1, if_neg h2, if_neg h3, if_true, SocketMsg.value, SocketBody.value, if_neg hv', stop, serverAnswer]
    by_cases h5 : t = 5
    · subst h5
      simp only [if_neg h1, if_neg h2, if_neg h3, if_neg h4, if_true, SocketMsg.value, SocketBody.value, if_neg hv', stop, serverAnswer]
    · simp only [if_neg h1, if_neg h2, if_neg h3, if_neg h4, if_neg h5]
      have ea : serverAnswer (1 :: t :: a :: l :: r) = none := answer_none r (fun k => h1 k.2.1) (fun k => by
        rcases k.2 with k | k | k
        · exact h2 k
        · exact h4 k
        · exact h5 k)
      rw [ea]

/-- C105: the client accepts exactly the response it expects. -/
theorem C105_client_partial (chunk : List Byte) (h : chunk.length ≤ 10) :
    ((∃ more, readInto 10 chunk = [1, 2, 2, 3, 0, 1, 2] ++ more) → clientResponse chunk = .ok ()) ∧
    ((¬ ∃ more, readInto 10 chunk = [1, 2, 2, 3, 0, 1, 2] ++ more) → clientResponse chunk = .panic) := by
  have hi := isize_small
  have hl := readInto_length 10 chunk h
  constructor
  · rintro ⟨more, e⟩
    rw [clientResponse, e]
    have hm : more.length = 3 := by rw [e] at hl; simpa using hl
    have := receive_ok ⟨1, .readRsp 2 3 [0, 1, 2]⟩ rfl more (by simp [SocketMsg.wire, SocketBody.wire]; omega)
    rw [show ([1, 2, 2, 3, 0, 1, 2] : List Byte) = (⟨1, .readRsp 2 3 [0, 1, 2]⟩ : SocketMsg).wire from rfl, this]
    rfl
  · intro hn
    rw [clientResponse]
    by_cases hx : ∃ (m : SocketMsg) (suf : List Byte), m.Fits ∧ readInto 10 chunk = m.wire ++ suf
    · obtain ⟨m, suf, hm, e⟩ := hx
      have hl' := hl
      rw [e, List.length_append] at hl'
      rw [e, receive_ok m hm suf (by omega)]
      obtain ⟨v, x⟩ := m
      cases x with
      | readRsp a l d =>
        simp only [SocketMsg.value, SocketBody.value]
        refine if_neg ?_
        rintro ⟨k1, k2, k3, rfl⟩
        refine hn ⟨suf, ?_⟩
        rw [e]
        obtain rfl : v = 1 := UInt8.toNat_inj.mp k1
        obtain rfl : a = 2 := UInt8.toNat_inj.mp k2
        obtain rfl : l = 3 := UInt8.toNat_inj.mp k3
        rfl
      | _ => rfl
    · rw [receive_refused _ (by omega) hx]

/-- C105: the exchange of the example, if each `read` yields the message that was sent. -/
theorem C105_exchange : ∃ req rsp, clientRequest = .ok req ∧ handleConnection req = .ok rsp ∧ clientResponse rsp = .ok () := by
  have hi := isize_small
  refine ⟨[1, 1, 2, 3], [1, 2, 2, 3, 0, 1, 2], C105_written ⟨1, .readReq 2 3⟩ (by simp [SocketMsg.wire, SocketBody.wire]; omega), ?_, ?_⟩
  · rw [C105_server_partial _ (by decide)]
    rfl
  · exact (C105_client_partial _ (by decide)).1 ⟨[0, 0, 0], rfl⟩

theorem wire_prefix {m m' : SocketMsg} {s s' : List Byte} (hm : m.Fits) (hm' : m'.Fits) (h : m.wire ++ s = m'.wire ++ s') : m = m' := by
  obtain ⟨v, x⟩ := m
  obtain ⟨v', x'⟩ := m'
  cases x <;> cases x' <;> simp only [SocketMsg.wire, SocketBody.wire, List.cons_append, List.cons.injEq] at h <;>
    first
    | (exfalso; revert h; decide)
    | (exact absurd h.2.1 (by decide))
    | skip
  · obtain ⟨rfl, -, rfl, rfl, -⟩ := h; rfl
  · obtain ⟨rfl, -, rfl, rfl, k⟩ := h
    obtain ⟨rfl, -⟩ := List.append_inj k (Eq.trans hm (Eq.symm hm'))
    rfl
  · obtain ⟨rfl, -, rfl, rfl, k⟩ := h
    obtain ⟨rfl, -⟩ := List.append_inj k (Eq.trans hm (Eq.symm hm'))
    rfl
  · obtain ⟨rfl, -, rfl, rfl, -⟩ := h; rfl
  · obtain ⟨rfl, -⟩ := h; rfl

theorem wire_short (m : SocketMsg) (hm : m.Fits) : m.wire.length ≤ 259 := by
  obtain ⟨v, x⟩ := m
  cases x with
  | readRsp a l d =>
    have := l.toNat_lt
    have : d.length = l.toNat := hm
    simp only [SocketMsg.wire, SocketBody.wire, List.length_cons]
    omega
  | writeReq a l d =>
    have := l.toNat_lt
    have : d.length = l.toNat := hm
    simp only [SocketMsg.wire, SocketBody.wire, List.length_cons]
    omega
  | _ => simp [SocketMsg.wire, SocketBody.wire]

theorem front_message (v t a l : Byte) (r : List Byte) (h : l.toNat ≤ r.length) (ht : t = 1 ∨ t = 2 ∨ t = 3 ∨ t = 4 ∨ t = 5) :
    ∃ (m : SocketMsg) (suf : List Byte), m.Fits ∧ v :: t :: a :: l :: r = m.wire ++ suf := by
  have hl : (r.take l.toNat).length = l.toNat := by rw [List.length_take]; omega
  rcases ht with rfl | rfl | rfl | rfl | rfl
  · exact ⟨⟨v, .readReq a l⟩, r, trivial, rfl⟩
  · exact ⟨⟨v, .readRsp a l (r.take l.toNat)⟩, r.drop l.toNat, hl, by simp [SocketMsg.wire, SocketBody.wire]⟩
  · exact ⟨⟨v, .writeReq a l (r.take l.toNat)⟩, r.drop l.toNat, hl, by simp [SocketMsg.wire, SocketBody.wire]⟩
  · exact ⟨⟨v, .writeRsp a l⟩, r, trivial, rfl⟩
  · exact ⟨⟨v, .stop⟩, a :: l :: r, trivial, rfl⟩

theorem wire_kind (m : SocketMsg) : ∃ (v t : Byte) (w : List Byte), m.wire = v :: t :: w ∧ (t = 1 ∨ t = 2 ∨ t = 3 ∨ t = 4 ∨ t = 5) := by
  obtain ⟨v, x⟩ := m
  cases x <;> exact ⟨_, _, _, rfl, by decide⟩

theorem zeros_of_prefix : ∀ {x s : List Byte} {n : Nat}, List.replicate n 0 = x ++ s → ∀ y ∈ x, y = 0 := by
  intro x s n h y hy
  have : y ∈ List.replicate n (0 : Byte) := h ▸ List.mem_append_left s hy
  exact (List.mem_replicate.mp this).2

/-- C105: a message of which only the first part has arrived, but its kind, is taken for a whole message: that message itself if
what is missing is zero, and another one if not. -/
theorem C105_cut (m : SocketMsg) (hm : m.Fits) (k : Nat) (hk : 2 ≤ k) :
    ∃ m' : SocketMsg, m'.Fits ∧ socketReceive (readInto 1024 (m.wire.take k)) = .ok m'.value ∧
      (m' = m ↔ ∀ x ∈ m.wire.drop k, x = 0) := by
  have hi := isize_small
  have hs := wire_short m hm
  have hc : (m.wire.take k).length ≤ 259 := by rw [List.length_take]; omega
  have hl := readInto_length 1024 (m.wire.take k) (by omega)
  obtain ⟨v, t, a, l, r, e, hr⟩ := list_four (p := readInto 1024 (m.wire.take k)) (by omega)
  have hll := l.toNat_lt
  have ht : t = 1 ∨ t = 2 ∨ t = 3 ∨ t = 4 ∨ t = 5 := by
    obtain ⟨v', t', w, ew, ht'⟩ := wire_kind m
    obtain ⟨j, rfl⟩ : ∃ j, k = j + 2 := ⟨k - 2, by omega⟩
    rw [ew] at e
    simp only [List.take_succ_cons, readInto, List.cons_append, List.cons.injEq] at e
    rw [← e.2.1]
    exact ht'
  obtain ⟨m', suf, hm', e'⟩ := front_message v t a l r (by omega) ht
  have ep : readInto 1024 (m.wire.take k) = m'.wire ++ suf := e.trans e'
  have hl' := hl
  rw [ep, List.length_append] at hl'
  refine ⟨m', hm', by rw [ep]; exact receive_ok m' hm' suf (by omega), ?_, ?_⟩
  · rintro rfl
    have h := ep
    conv at h => rhs; rw [← List.take_append_drop k m'.wire, List.append_assoc]
    rw [readInto] at h
    exact zeros_of_prefix (List.append_cancel_left h)
  · intro hz
    have hd : m.wire.drop k = List.replicate (m.wire.drop k).length 0 := List.eq_replicate_iff.mpr ⟨rfl, hz⟩
    have hn : (m.wire.drop k).length ≤ 1024 - (m.wire.take k).length := by
      rw [List.length_drop, List.length_take]; omega
    obtain ⟨j, hj⟩ : ∃ j, 1024 - (m.wire.take k).length = (m.wire.drop k).length + j := ⟨_, (Nat.add_sub_cancel' hn).symm⟩
    refine wire_prefix hm' hm (s := suf) (s' := List.replicate j 0) ?_
    rw [← ep, readInto, hj, ← List.replicate_append_replicate, ← hd, ← List.append_assoc, List.take_append_drop]

theorem value_inj {m m' : SocketMsg} (h : m.value = m'.value) : m = m' := by
  obtain ⟨v, x⟩ := m
  obtain ⟨v', x'⟩ := m'
  cases x <;> cases x' <;> simp_all [SocketMsg.value, SocketBody.value, UInt8.toNat_inj]

/-- C105: a message longer than the buffer of the receiver is not understood, whatever part of it `read` yields. -/
theorem C105_long (m : SocketMsg) (n k : Nat) (hk : k ≤ n) (hl : n < m.wire.length) (hi : n ≤ isizeMax) :
    socketReceive (readInto n (m.wire.take k)) ≠ .ok m.value := by
  intro h
  have hc : (m.wire.take k).length ≤ n := by rw [List.length_take]; omega
  have hp := readInto_length n _ hc
  by_cases hx : ∃ (m' : SocketMsg) (suf : List Byte), m'.Fits ∧ readInto n (m.wire.take k) = m'.wire ++ suf
  · obtain ⟨m', suf, hm, e⟩ := hx
    rw [e, List.length_append] at hp
    rw [e, receive_ok m' hm suf (by omega)] at h
    obtain rfl := value_inj (Out.ok.inj h)
    omega
  · rw [receive_refused _ (by omega) hx] at h
    cases h

/-- C105: no write request is ever answered. -/
theorem C105_write_request (v a l : Byte) (d more : List Byte) (h : (⟨v, .writeReq a l d⟩ : SocketMsg).wire.length + more.length ≤ 1024) :
    handleConnection ((⟨v, .writeReq a l d⟩ : SocketMsg).wire ++ more) = .panic := by
  rw [C105_server_partial _ (by rw [List.length_append]; exact h)]
  show (match serverAnswer (v :: 3 :: a :: l :: ((d ++ more) ++ _)) with | some r => Out.ok r | none => Out.panic) = _
  rw [answer_none _ (by simp) (by simp)]

/-- C105 in full: however the network delivers a message, the receiver understands it or refuses it; and the requests of the protocol
are answered. -/
def socketWorks : Prop :=
  (∀ (m : SocketMsg) (k : Nat), m.Fits → socketReceive (readInto 1024 (m.wire.take k)) = .ok m.value ∨
    socketReceive (readInto 1024 (m.wire.take k)) = .panic) ∧
  (∀ (m : SocketMsg), m.Fits → socketReceive (readInto 10 (m.wire.take 10)) = .ok m.value) ∧
  (∀ (m : SocketMsg), m.Fits → m.version = 1 → ∃ r, handleConnection m.wire = .ok r)

/-- C105 does not hold: of a response of three bytes the first five bytes are a response of three zeros; a response of
seven bytes is too long for the client; the write request of the example is not answered, because the bytes that the server compares with
are four (`\0` and `1` in place of `\x01`); nor is the read request if its last byte comes later. -/
theorem C105_violated : ¬ socketWorks ∧
    socketReceive (readInto 1024 ((⟨1, .readRsp 2 3 [1, 2, 3]⟩ : SocketMsg).wire.take 5)) = .ok (⟨1, .readRsp 2 3 [1, 0, 0]⟩ : SocketMsg).value ∧
    socketReceive (readInto 10 ((⟨1, .readRsp 2 7 [1, 2, 3, 4, 5, 6, 7]⟩ : SocketMsg).wire.take 10)) = .panic ∧
    handleConnection (⟨1, .writeReq 2 3 [0, 1, 2]⟩ : SocketMsg).wire = .panic ∧
    handleConnection ((⟨1, .readReq 2 3⟩ : SocketMsg).wire.take 3) = .panic := by
  have hi := isize_small
  have h1 : socketReceive (readInto 1024 ((⟨1, .readRsp 2 3 [1, 2, 3]⟩ : SocketMsg).wire.take 5)) =
      .ok (⟨1, .readRsp 2 3 [1, 0, 0]⟩ : SocketMsg).value := by
    have e : readInto 1024 ((⟨1, .readRsp 2 3 [1, 2, 3]⟩ : SocketMsg).wire.take 5) =
        (⟨1, .readRsp 2 3 [1, 0, 0]⟩ : SocketMsg).wire ++ List.replicate 1017 0 := by decide +kernel
    rw [e]
    exact receive_ok ⟨1, .readRsp 2 3 [1, 0, 0]⟩ rfl _ (by rw [List.length_replicate]; simp [SocketMsg.wire, SocketBody.wire]; omega)
  have h2 : socketReceive (readInto 10 ((⟨1, .readRsp 2 7 [1, 2, 3, 4, 5, 6, 7]⟩ : SocketMsg).wire.take 10)) = .panic := by
    refine receive_refused _ (by rw [readInto_length _ _ (by decide)]; omega) ?_
    rintro ⟨⟨v, x⟩, suf, hm, e⟩
    replace e : [1, 2, 2, 7, 1, 2, 3, 4, 5, 6] = (⟨v, x⟩ : SocketMsg).wire ++ suf := e
    have hl := congrArg List.length e
    cases x <;> simp only [SocketMsg.wire, SocketBody.wire, List.cons_append, List.cons.injEq] at e
    case readRsp a l d =>
      obtain ⟨-, -, -, rfl, -⟩ := e
      have hm : d.length = 7 := hm
      simp only [SocketMsg.wire, SocketBody.wire, List.length_append, List.length_cons, List.length_nil, hm] at hl
      omega
    all_goals exact absurd e.2.1 (by decide)
  have h3 : handleConnection (⟨1, .writeReq 2 3 [0, 1, 2]⟩ : SocketMsg).wire = .panic := by
    have := C105_write_request 1 2 3 [0, 1, 2] [] (by decide)
    rw [List.append_nil] at this
    exact this
  refine ⟨fun h => ?_, h1, h2, h3, ?_⟩
  · obtain ⟨r, hr⟩ := h.2.2 ⟨1, .writeReq 2 3 [0, 1, 2]⟩ rfl rfl
    rw [h3] at hr
    cases hr
  · rw [C105_server_partial _ (by decide)]
    rfl

/-! ## Examples -/

/-- The hypotheses of `C105_cut` and `C105_delivered` hold for a request to write. -/
example : (⟨1, .writeReq 2 3 [0, 1, 2]⟩ : SocketMsg).Fits := rfl

example : ∃ m' : SocketMsg, m'.Fits ∧ m' ≠ ⟨1, .writeReq 2 3 [0, 1, 2]⟩ ∧
    socketReceive (readInto 1024 ((⟨1, .writeReq 2 3 [0, 1, 2]⟩ : SocketMsg).wire.take 5)) = .ok m'.value := by
  obtain ⟨m', h1, h2, h3⟩ := C105_cut ⟨1, .writeReq 2 3 [0, 1, 2]⟩ rfl 5 (by decide)
  exact ⟨m', h1, fun h => absurd (h3.mp h) (by decide), h2⟩

/-- The test of the server and the client: a request followed by zeros. -/
example : handleConnection [1, 1, 2, 3] = .ok [1, 2, 2, 3, 0, 1, 2] := by
  rw [C105_server_partial _ (by decide)]
  rfl

example : handleConnection [1, 5] = .ok [1, 5] := by
  rw [C105_server_partial _ (by decide)]
  rfl

/-- A connection that is closed before anything is sent. -/
example : handleConnection [] = .panic := by
  rw [C105_server_partial _ (by decide)]
  rfl

end JBytes
