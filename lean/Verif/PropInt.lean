import Verif.IntLemmas
import Verif.CodecAddr
/-!
# Properties of the integer codec: C19 - C25

`FAttr` arguments are arbitrary except for the modifiers a theorem mentions.
-/

namespace JBytes
open M

/-! ## C19 -/

/-- Specification: field first, then container, then big-endian. -/
def effectiveOrder (ca : Option CAttr) (fa : Option FAttr) : ByteOrder :=
  ((fa.bind (·.byteorder)).or (ca.bind (·.byteorder))).getD .be

theorem getByteorder_eq (ca : Option CAttr) (fa : Option FAttr) : getByteorder ca fa = effectiveOrder ca fa := by
  unfold getByteorder effectiveOrder
  cases fa.bind (·.byteorder) <;> cases ca.bind (·.byteorder) <;> rfl

/-- C19: on both sides, integers (with or without `length`), floats and IP and MAC addresses are read and
written in the effective order. -/
theorem C19_byteorder (ca : Option CAttr) (fa : Option FAttr) (o : ByteOrder) (ho : o = effectiveOrder ca fa) :
    (∀ (k : IntKind) (v : Nat), fa.bind (·.bits) = none → fa.bind (·.length) = none →
      decInt k ca fa = takeScalar k.scalar o ∧ encInt k v ca fa = pushScalar k.scalar v o) ∧
    (∀ (k : IntKind) (v n : Nat), fa.bind (·.bits) = none → fa.bind (·.length) = some n → n ≤ k.size →
      decInt k ca fa = (takeUint n o >>= fun w => Pure.pure (fromU64 k w)) ∧
      encInt k v ca fa = pushUint (asU64 k v) n o) ∧
    (decF32 ca fa = takeScalar .f32 o ∧ decF64 ca fa = takeScalar .f64 o) ∧
    (∀ v, encF32 v ca fa = pushScalar .f32 v o ∧ encF64 v ca fa = pushScalar .f64 v o) ∧
    (∀ v, encIp v ca fa = pushByteorderArray v o ∧ encMac v ca fa = pushUint (macToBits v) 6 o) ∧
    decIpv4 ca fa = (takeScalar .u32 o >>= fun v => Pure.pure (toBE 4 v)) ∧
    decIpv6 ca fa = (takeScalar .u128 o >>= fun v => Pure.pure (toBE 16 v)) ∧
    decMac ca fa = (takeUint 6 o >>= fun v => Pure.pure (macFromBits v)) := by
  rw [← getByteorder_eq] at ho
  subst ho
  have bits_none : ∀ (k : IntKind) (v : Nat) (o : ByteOrder), fa.bind (·.bits) = none →
      encBits k v o fa = Pure.pure v := by
    intro k v o h
    unfold encBits
    cases fa with
    | none => rfl
    | some fr =>
      have h : fr.bits = none := h
      simp only [h]
  have bind_pure' : ∀ {α : Type} (m : M α), (m >>= fun v => (Pure.pure v : M α)) = m := by
    intro α m
    funext b
    rw [bind_apply]
    rcases m b with ⟨o, b'⟩
    cases o <;> rfl
  refine ⟨?_, ?_, ⟨rfl, rfl⟩, fun _ => ⟨rfl, rfl⟩, fun _ => ⟨rfl, rfl⟩, rfl, rfl, rfl⟩
  · intro k v hb hl
    unfold decInt decWord encInt
    simp only [hb, hl, bits_none k v _ hb]
    exact ⟨bind_pure' _, rfl⟩
  · intro k v n hb hl hn
    unfold decInt decWord encInt
    simp only [hb, hl, bits_none k v _ hb]
    rw [if_neg (by omega)]
    refine ⟨bind_pure' _, ?_⟩
    show (if k.size < n then _ else _) = _
    rw [if_neg (by omega)]

example : effectiveOrder (some { byteorder := some .le }) (some { byteorder := some .be }) = .be ∧
    effectiveOrder (some { byteorder := some .le }) (some {}) = .le ∧ effectiveOrder none none = .be := by
  decide

/-! ## C20, C21 -/

theorem encInt_length (k : IntKind) (v n : Nat) (ca : Option CAttr) (fr : FAttr) (hb : fr.bits = none)
    (hl : fr.length = some n) (hn : n ≤ k.size) :
    encInt k v ca (some fr) = pushUint (asU64 k v) n (effectiveOrder ca (some fr)) :=
  (((C19_byteorder ca (some fr) _ rfl).2.1) k v n hb hl hn).2

theorem decInt_length (k : IntKind) (n : Nat) (ca : Option CAttr) (fr : FAttr) (hb : fr.bits = none)
    (hl : fr.length = some n) (hn : n ≤ k.size) :
    decInt k ca (some fr) = (takeUint n (effectiveOrder ca (some fr)) >>= fun w => Pure.pure (fromU64 k w)) :=
  (((C19_byteorder ca (some fr) _ rfl).2.1) k 0 n hb hl hn).1

theorem isValueOf_toBytes (o : ByteOrder) {n v : Nat} (h : v < 256 ^ n) : IsValueOf o (toBytes o n v) v := by
  have := isValueOf_fromBytes o (toBytes o n v)
  rwa [fromBytes_toBytes, Nat.mod_eq_of_lt h] at this

/-- C20: an integer with `length = n` (at most 8 bytes and at most its own size) occupies exactly `n` bytes, whose
value in the effective order is the number; a non-negative value below `256^n` comes back, whatever surrounds it. -/
theorem C20_length_roundtrip (k : IntKind) (v n : Nat) (ca : Option CAttr) (fr : FAttr) (hb : fr.bits = none)
    (hl : fr.length = some n) (hk : n ≤ k.size) (h8 : n ≤ 8) (hv : v < 256 ^ n) (hnn : 0 ≤ k.toInt v) :
    ∃ w : List Byte, w.length = n ∧ IsValueOf (effectiveOrder ca (some fr)) w v ∧ Appends (encInt k v ca (some fr)) w ∧
      ∀ suf, Reads (decInt k ca (some fr)) v w suf := by
  have hvk : v < modulus k.size := Nat.lt_of_lt_of_le hv (Nat.pow_le_pow_right (by omega) hk)
  have hN : k.NonNeg v := by
    unfold IntKind.toInt at hnn
    by_cases hs : k.signed = true ∧ 2 * v ≥ modulus k.size
    · rw [if_pos hs] at hnn
      omega
    · cases h : k.signed
      · exact .inl h
      · exact .inr (by simp [h] at hs; omega)
  refine ⟨toBytes (effectiveOrder ca (some fr)) n v, by simp, isValueOf_toBytes _ hv, ?_, ?_⟩
  · rw [encInt_length k v n ca fr hb hl hk, asU64_small k v hN,
      Nat.mod_eq_of_lt (show v < modulus 8 from Nat.lt_of_lt_of_le hv (Nat.pow_le_pow_right (by omega) h8))]
    exact Appends.uint v n _ h8
  · intro suf
    rw [decInt_length k n ca fr hb hl hk]
    have := (Reads.uint (effectiveOrder ca (some fr)) n v suf h8 hv).map (fromU64 k)
    rw [fromU64_eq, Nat.mod_eq_of_lt hvk] at this
    exact this

/-- C20: a `length` larger than the type is an error on both sides, in every buffer state, and nothing is read
or written. -/
theorem C20_length_too_large (k : IntKind) (v n : Nat) (ca : Option CAttr) (fr : FAttr) (hb : fr.bits = none)
    (hl : fr.length = some n) (hk : k.size < n) (b : Buf) :
    decInt k ca (some fr) b = (.err ⟨b.pos, .invalidByteLength⟩, b) ∧
    encInt k v ca (some fr) b = (.err ⟨b.pos, .invalidByteLength⟩, b) := by
  unfold decInt decWord encInt encBits
  simp only [Option.bind_some, hb, hl, if_pos hk]
  exact ⟨rfl, rfl⟩

example : (encInt ⟨4, true⟩ 0x1234 none (some { length := some 2 }) ⟨[], 0⟩) = (.ok 2, ⟨[0x12, 0x34], 2⟩) ∧
    (decInt ⟨4, true⟩ none (some { length := some 2 }) ⟨[0x12, 0x34, 0x56], 0⟩)
      = (.ok 0x1234, ⟨[0x12, 0x34, 0x56], 2⟩) := by decide +kernel

/-- C21, the part that holds: a signed value, negative or not, comes back when `length` is the full size of the
type (at most 8 bytes).  Missing from the full statement: negative values with a smaller `length`
(`C21_violated`); non-negative values are covered by `C20_length_roundtrip`. -/
theorem C21_full_width_partial (k : IntKind) (v : Nat) (ca : Option CAttr) (fr : FAttr)
    (hb : fr.bits = none) (hl : fr.length = some k.size) (h8 : k.size ≤ 8) (hv : v < modulus k.size) :
    ∃ w : List Byte, w.length = k.size ∧ IsValueOf (effectiveOrder ca (some fr)) w v ∧ Appends (encInt k v ca (some fr)) w ∧
      ∀ suf, Reads (decInt k ca (some fr)) v w suf := by
  have hmod : asU64 k v % modulus k.size = v := by
    have hdvd : modulus k.size ∣ modulus 8 := Nat.pow_dvd_pow 256 h8
    unfold asU64 castInt IntKind.ofInt IntKind.toInt
    have h8p := modulus_pos 8
    have hkp := modulus_pos k.size
    obtain ⟨c, hc⟩ := hdvd
    have key : ∀ i : Int, ((i % (modulus 8 : Int)).toNat % modulus k.size : Nat) = (i % (modulus k.size : Int)).toNat := by
      intro i
      have hnn := Int.emod_nonneg i (b := (modulus 8 : Int)) (by omega)
      have hnn2 := Int.emod_nonneg i (b := (modulus k.size : Int)) (by omega)
      apply Int.natCast_inj.mp
      rw [Int.natCast_emod, Int.toNat_of_nonneg hnn, Int.toNat_of_nonneg hnn2]
      exact Int.emod_emod_of_dvd i ⟨c, by rw [hc]; exact Int.natCast_mul _ _⟩
    rw [key]
    split
    · rw [Int.sub_emod_right, ← Int.natCast_emod, Int.toNat_natCast, Nat.mod_eq_of_lt hv]
    · rw [← Int.natCast_emod, Int.toNat_natCast, Nat.mod_eq_of_lt hv]
  refine ⟨toBytes (effectiveOrder ca (some fr)) k.size v, by simp, isValueOf_toBytes _ hv, ?_, ?_⟩
  · rw [encInt_length k v k.size ca fr hb hl (Nat.le_refl _)]
    have := Appends.uint (asU64 k v) k.size (effectiveOrder ca (some fr)) h8
    rwa [← toBytes_mod, show 256 ^ k.size = modulus k.size from rfl, hmod] at this
  · intro suf
    rw [decInt_length k k.size ca fr hb hl (Nat.le_refl _)]
    have := (Reads.uint (effectiveOrder ca (some fr)) k.size v suf h8 hv).map (fromU64 k)
    rw [fromU64_eq, Nat.mod_eq_of_lt hv] at this
    exact this

/-- C21 is violated: an `i32` holding -1 with `length = 2` decodes to 65535. -/
theorem C21_violated : ∃ (w : List Byte) (b : Buf),
    (⟨4, true⟩ : IntKind).toInt 0xFFFFFFFF = -1 ∧
    encInt ⟨4, true⟩ 0xFFFFFFFF none (some { length := some 2 }) ⟨[], 0⟩ = (.ok 2, ⟨w, 2⟩) ∧
    decInt ⟨4, true⟩ none (some { length := some 2 }) ⟨w, 0⟩ = (.ok 0xFFFF, b) ∧
    (⟨4, true⟩ : IntKind).toInt 0xFFFF = 65535 :=
  ⟨[0xFF, 0xFF], ⟨[0xFF, 0xFF], 2⟩, by decide +kernel⟩

example : (⟨2, true⟩ : IntKind).toInt 0xFFFE = -2 ∧
    decInt ⟨2, true⟩ none (some { length := some 2 }) ⟨[0xFF, 0xFE], 0⟩ = (.ok 0xFFFE, ⟨[0xFF, 0xFE], 2⟩) := by
  decide +kernel

/-! ## C22, C23 -/

/-- With `bits`, decoding is decoding without `bits` followed by mask and shift. -/
theorem decInt_bits (k : IntKind) (ca : Option CAttr) (fr : FAttr) (mask t q : Nat) (hb : fr.bits = some mask)
    (hm : mask % modulus k.size = 2 ^ t * (2 * q + 1)) (hmn : k.NonNeg (2 ^ t * (2 * q + 1))) (b : Buf) :
    decInt k ca (some fr) b = mapM' (fun w => (w &&& 2 ^ t * (2 * q + 1)) / 2 ^ t)
      (decInt k ca (some { fr with bits := none })) b := by
  have hlt : 2 ^ t * (2 * q + 1) < modulus k.size := hm ▸ Nat.mod_lt _ (modulus_pos _)
  have key : ∀ w : Nat, bitsShr k (8 * k.size) (w &&& 2 ^ t * (2 * q + 1)) (2 ^ t * (2 * q + 1))
      = (w &&& 2 ^ t * (2 * q + 1)) / 2 ^ t := fun w =>
    bitsShr_eq k t q _ _ (shift_lt hlt) hlt hmn (land_lt_right hlt) (hmn.mono Nat.and_le_right)
  rw [mapM'_apply]
  unfold decInt
  simp only [Option.bind_some, hb, fromU64_eq, hm, key]
  have e : getByteorder ca (some { fr with bits := none }) = getByteorder ca (some fr) := rfl
  rw [e, bind_apply, bind_apply]
  rcases decWord k (getByteorder ca (some fr)) fr.length b with ⟨o, b'⟩
  cases o <;> rfl

/-- C22: for an unsigned type and a mask that is not zero in the type, `mask = 2^t * odd`, decoding with
`bits` gives the masked word shifted right by `t`; it fails exactly as the plain decode fails. -/
theorem C22_bits_value (k : IntKind) (hu : k.signed = false) (ca : Option CAttr) (fr : FAttr)
    (mask t q : Nat) (hb : fr.bits = some mask) (hm : mask % 2 ^ (8 * k.size) = 2 ^ t * (2 * q + 1)) (b : Buf) :
    (∀ w b', decInt k ca (some { fr with bits := none }) b = (.ok w, b') →
      decInt k ca (some fr) b = (.ok ((w &&& 2 ^ t * (2 * q + 1)) / 2 ^ t), b')) ∧
    (∀ e b', decInt k ca (some { fr with bits := none }) b = (.err e, b') →
      decInt k ca (some fr) b = (.err e, b')) := by
  rw [← modulus_eq_two_pow] at hm
  have h := decInt_bits k ca fr mask t q hb hm (.inl hu) b
  rw [mapM'_apply] at h
  constructor
  · intro w b' hw
    rw [h, hw]
  · intro e b' he
    rw [h, he]

example : decInt ⟨2, false⟩ none (some { bits := some 0x0FF0 }) ⟨[0xAB, 0xCD], 0⟩
    = (.ok 0xBC, ⟨[0xAB, 0xCD], 2⟩) ∧ 0x0FF0 % 2 ^ (8 * 2) = 2 ^ 4 * (2 * 127 + 1) := by decide +kernel

/-- C23, the part that holds: on a signed type a mask that does not contain the sign bit gives the same field
value as on the unsigned type.  Missing from the full statement: masks containing the sign bit
(`C23_violated`). -/
theorem C23_signed_bits_partial (k : IntKind) (ca : Option CAttr) (fr : FAttr)
    (mask t q : Nat) (hb : fr.bits = some mask) (hm : mask % 2 ^ (8 * k.size) = 2 ^ t * (2 * q + 1))
    (hs : 2 * (2 ^ t * (2 * q + 1)) < 2 ^ (8 * k.size)) (b : Buf) :
    ∀ w b', decInt k ca (some { fr with bits := none }) b = (.ok w, b') →
      decInt k ca (some fr) b = (.ok ((w &&& 2 ^ t * (2 * q + 1)) / 2 ^ t), b') ∧
      0 ≤ k.toInt ((w &&& 2 ^ t * (2 * q + 1)) / 2 ^ t) := by
  rw [← modulus_eq_two_pow] at hm hs
  have h := decInt_bits k ca fr mask t q hb hm (.inr hs) b
  rw [mapM'_apply] at h
  intro w b' hw
  refine ⟨by rw [h, hw], ?_⟩
  have hle : (w &&& 2 ^ t * (2 * q + 1)) / 2 ^ t ≤ 2 ^ t * (2 * q + 1) :=
    Nat.le_trans (Nat.div_le_self _ _) Nat.and_le_right
  rw [IntKind.NonNeg.toInt (.inr (by omega))]
  exact Int.natCast_nonneg _

/-- C23 is violated: an `i8` with mask 0xF0 decodes the byte 0x80 to -8, the `u8` to 8. -/
theorem C23_violated :
    decInt ⟨1, true⟩ none (some { bits := some 0xF0 }) ⟨[0x80], 0⟩ = (.ok 0xF8, ⟨[0x80], 1⟩) ∧
    (⟨1, true⟩ : IntKind).toInt 0xF8 = -8 ∧
    decInt ⟨1, false⟩ none (some { bits := some 0xF0 }) ⟨[0x80], 0⟩ = (.ok 0x08, ⟨[0x80], 1⟩) := by
  decide +kernel

example : decInt ⟨1, true⟩ none (some { bits := some 0x70 }) ⟨[0xA5], 0⟩ = (.ok 2, ⟨[0xA5], 1⟩) := by
  decide +kernel

end JBytes
