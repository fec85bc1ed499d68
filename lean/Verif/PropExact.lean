import Verif.PropGetter
import Verif.PropInt
import Verif.PropIO
import Verif.PropWrite
import Verif.PropEnum
/-!
# Exactly when

For properties that the code does not meet in full: the cases in which it does, as equivalences.
-/

namespace JBytes
open M

/-! ## Signed integers in few bytes (C07, C21) -/

theorem emod_toInt (k : IntKind) (v n : Nat) (hn : n ≤ k.size) :
    k.toInt v % ((256 ^ n : Nat) : Int) = ((v % 256 ^ n : Nat) : Int) := by
  rw [Int.natCast_emod]
  unfold IntKind.toInt
  split
  · obtain ⟨c, hc⟩ : (256 ^ n : Nat) ∣ modulus k.size := Nat.pow_dvd_pow 256 hn
    rw [hc, Int.natCast_mul, Int.sub_mul_emod_self_left]
  · rfl

/-- The low `n` bytes of a number that fits them, taken as a number of the whole type. -/
theorem narrow_iff (k : IntKind) (v n : Nat) (hv : v < modulus k.size) (hn : n ≤ k.size)
    (h1 : -((256 ^ n : Nat) : Int) ≤ 2 * k.toInt v) (h2 : 2 * k.toInt v < ((256 ^ n : Nat) : Int)) :
    k.toInt (v % 256 ^ n) = k.toInt v ↔ 0 ≤ k.toInt v ∨ n = k.size := by
  have hx := emod_toInt k v n hn
  have hpos : 0 < 256 ^ n := Nat.pow_pos (by omega)
  have hle : 256 ^ n ≤ modulus k.size := Nat.pow_le_pow_right (by omega) hn
  constructor
  · intro h
    by_cases h0 : 0 ≤ k.toInt v
    · exact .inl h0
    · right
      refine Classical.byContradiction fun hne => ?_
      have h3 : 256 ^ n * 256 ≤ modulus k.size := by
        rw [← Nat.pow_succ]
        exact Nat.pow_le_pow_right (by omega) (by omega)
      have hlt : v % 256 ^ n < 256 ^ n := Nat.mod_lt _ hpos
      rw [IntKind.toInt_small k _ (by omega)] at h
      omega
  · rintro (h0 | rfl)
    · have : k.toInt v % ((256 ^ n : Nat) : Int) = k.toInt v := Int.emod_eq_of_lt h0 (by omega)
      rw [this] at hx
      rw [IntKind.toInt_small k _ (by omega), ← hx]
    · rw [Nat.mod_eq_of_lt (show v < 256 ^ k.size from hv)]

/-- C21, exactly: a value that fits `length = n` bytes occupies `n` bytes, from which its low bytes without the sign are
read; they are the value if and only if it is not negative or `n` is the size of the type. -/
theorem C21_iff (k : IntKind) (v n : Nat) (ca : Option CAttr) (fr : FAttr) (hb : fr.bits = none)
    (hl : fr.length = some n) (hk : n ≤ k.size) (h8 : n ≤ 8) (hv : v < modulus k.size)
    (h1 : -(256 ^ n : Int) ≤ 2 * k.toInt v) (h2 : 2 * k.toInt v < 256 ^ n) :
    ∃ (w : List Byte) (x : Nat), w.length = n ∧ Appends (encInt k v ca (some fr)) w ∧
      (∀ suf, Reads (decInt k ca (some fr)) x w suf) ∧
      (k.toInt x = k.toInt v ↔ 0 ≤ k.toInt v ∨ n = k.size) := by
  have hpos : 0 < 256 ^ n := Nat.pow_pos (by omega)
  have hle : 256 ^ n ≤ modulus k.size := Nat.pow_le_pow_right (by omega) hk
  have hlt : v % 256 ^ n < 256 ^ n := Nat.mod_lt _ hpos
  have hcast : ((256 ^ n : Nat) : Int) = 256 ^ n := Int.natCast_pow 256 n
  have hmod : asU64 k v % 256 ^ n = v % 256 ^ n := by
    obtain ⟨c, hc⟩ : (256 ^ n : Nat) ∣ modulus 8 := Nat.pow_dvd_pow 256 h8
    apply Int.natCast_inj.mp
    rw [← emod_toInt k v n hk, Int.natCast_emod]
    have h8p := modulus_pos 8
    have : ((asU64 k v : Nat) : Int) = k.toInt v % (modulus 8 : Int) := by
      unfold asU64 castInt IntKind.ofInt
      exact Int.toNat_of_nonneg (Int.emod_nonneg _ (Int.ofNat_ne_zero.2 (Nat.ne_of_gt h8p)))
    rw [this]
    exact Int.emod_emod_of_dvd _ ⟨c, by rw [hc]; exact Int.natCast_mul _ _⟩
  refine ⟨toBytes (effectiveOrder ca (some fr)) n (v % 256 ^ n), v % 256 ^ n, by simp, ?_, ?_,
    narrow_iff k v n hv hk (by rw [hcast]; exact h1) (by rw [hcast]; exact h2)⟩
  · rw [encInt_length k v n ca fr hb hl hk]
    have := Appends.uint (asU64 k v) n (effectiveOrder ca (some fr)) h8
    rwa [← toBytes_mod, hmod] at this
  · intro suf
    rw [decInt_length k n ca fr hb hl hk]
    have := (Reads.uint (effectiveOrder ca (some fr)) n (v % 256 ^ n) suf h8 hlt).map (fromU64 k)
    rw [fromU64_eq, Nat.mod_eq_of_lt (by omega)] at this
    exact this

/-- C07, signed, exactly: a value that fits `n` bytes and is written with `push_int` comes back from `take_int` if and
only if it is not negative or `n` is 8. -/
theorem C07_int_iff (o : ByteOrder) (i : Int) (n : Nat) (h0 : 0 < n) (hn : n ≤ 8)
    (h1 : -(256 ^ n : Int) ≤ 2 * i) (h2 : 2 * i < 256 ^ n)
    (b : Buf) (hs : b.pos + n ≤ isizeMax) (hd : b.data.length ≤ isizeMax) :
    ∃ data' w, pushUint (i64.ofInt i) n o b = (.ok n, ⟨data', b.pos + n⟩) ∧
      takeUint n o ⟨data', b.pos⟩ = (.ok w, ⟨data', b.pos + n⟩) ∧ (i64.toInt w = i ↔ 0 ≤ i ∨ n = 8) := by
  obtain ⟨data', e1, e2⟩ := C07_uint_roundtrip o (i64.ofInt i) n h0 hn b hs hd
  refine ⟨data', _, e1, e2, ?_⟩
  have hcast : ((256 ^ n : Nat) : Int) = 256 ^ n := Int.natCast_pow 256 n
  have hle : ((256 ^ n : Nat) : Int) ≤ ((256 ^ 8 : Nat) : Int) := Int.ofNat_le.2 (Nat.pow_le_pow_right (by omega) hn)
  rw [hcast] at hle
  have hfit : i64.toInt (i64.ofInt i) = i := by
    refine asInt_fits i64 (by decide) i ?_
    show -(2 ^ (8 * 8 - 1)) ≤ i ∧ i < 2 ^ (8 * 8 - 1)
    have : ((256 ^ 8 : Nat) : Int) = 2 * 2 ^ (8 * 8 - 1) := by decide
    omega
  have := narrow_iff i64 (i64.ofInt i) n (IntKind.ofInt_lt i64 i) hn (by rw [hfit, hcast]; exact h1)
    (by rw [hfit, hcast]; exact h2)
  rw [hfit] at this
  exact this

/-- -3 in two bytes of an i32 is lost, 3 is kept. -/
example (v : Nat) (hv : v = (⟨4, true⟩ : IntKind).ofInt (-3) ∨ v = 3) : ∃ (w : List Byte) (x : Nat), w.length = 2 ∧
    Appends (encInt ⟨4, true⟩ v none (some { length := some 2 })) w ∧
    (∀ suf, Reads (decInt ⟨4, true⟩ none (some { length := some 2 })) x w suf) ∧
    ((⟨4, true⟩ : IntKind).toInt x = (⟨4, true⟩ : IntKind).toInt v ↔ 0 ≤ (⟨4, true⟩ : IntKind).toInt v ∨ 2 = 4) :=
  C21_iff ⟨4, true⟩ v 2 none { length := some 2 } rfl rfl (by decide) (by decide)
    (by rcases hv with rfl | rfl <;> decide) (by rcases hv with rfl | rfl <;> decide)
    (by rcases hv with rfl | rfl <;> decide)

unseal isizeMax usizeMod in
/-- -2 in three bytes is lost. -/
example : ∃ data' w, pushUint (i64.ofInt (-2)) 3 .be ⟨[], 0⟩ = (.ok 3, ⟨data', 0 + 3⟩) ∧
    takeUint 3 .be ⟨data', 0⟩ = (.ok w, ⟨data', 0 + 3⟩) ∧ (i64.toInt w = -2 ↔ (0 : Int) ≤ -2 ∨ 3 = 8) :=
  C07_int_iff .be (-2) 3 (by decide) (by decide) (by decide) (by decide) ⟨[], 0⟩ (by decide +kernel) (by decide +kernel)

/-! ## Seeking (C16) -/

/-- C16, exactly: the number that a successful seek returns is the new position if and only if the seek does not
move. -/
theorem C16_iff (s : SeekFrom) (d : List Byte) (p : Nat) (hd : d.length ≤ isizeMax)
    (hp : p ≤ isizeMax) (hr : s.Representable) (hnn : (⟨d, p⟩ : FileSpec).Reaches s) :
    ∃ r b', ioSeek s ⟨d, p⟩ = (.ok (some r), b') ∧ (b'.pos : Int) = (⟨d, p⟩ : FileSpec).target s ∧
      (r = b'.pos ↔ b'.pos = p) := by
  refine ⟨p, _, C16_seek_partial s d p hd hp hr hnn, Int.toNat_of_nonneg hnn.1, ?_⟩
  exact eq_comm

unseal isizeMax usizeMod in
/-- Two bytes forward from position 1. -/
example : ∃ r b', ioSeek (.current 2) ⟨[7, 8, 9, 10], 1⟩ = (.ok (some r), b') ∧
    (b'.pos : Int) = (⟨[7, 8, 9, 10], 1⟩ : FileSpec).target (.current 2) ∧ (r = b'.pos ↔ b'.pos = 1) :=
  C16_iff (.current 2) [7, 8, 9, 10] 1 (by decide +kernel) (by decide +kernel)
    (by unfold SeekFrom.Representable; decide +kernel) (by decide +kernel)

/-! ## Bits of signed types (C23) -/

theorem toInt_bounds (k : IntKind) (hk : 0 < k.size) (v : Nat) (hv : v < modulus k.size) : FitsInt k (k.toInt v) := by
  have := (asInt_spec k hk (k.toInt v)).1
  unfold asInt at this
  rwa [IntKind.ofInt_toInt k v hv] at this

theorem toInt_shr1 (k : IntKind) (hk : 0 < k.size) (v : Nat) (hv : v < modulus k.size) :
    k.toInt (k.shr1 v) = k.toInt v / 2 ∧ k.shr1 v < modulus k.size := by
  refine ⟨?_, IntKind.ofInt_lt _ _⟩
  have hb := toInt_bounds k hk v hv
  refine asInt_fits k hk (k.toInt v / 2) ?_
  have hpow : (0 : Int) < 2 ^ (8 * k.size - 1) := Int.pow_pos (by decide)
  have hpow2 : (0 : Int) < 2 ^ (8 * k.size) := Int.pow_pos (by decide)
  unfold FitsInt at hb ⊢
  split at hb
  · rw [if_pos ‹_›]
    omega
  · rw [if_neg ‹_›]
    omega

theorem modulus_even (n : Nat) (h : 0 < n) : modulus n % 2 = 0 := by
  obtain ⟨m, rfl⟩ : ∃ m, n = m + 1 := ⟨n - 1, by omega⟩
  unfold modulus
  rw [Nat.pow_succ]
  omega

theorem toInt_parity (k : IntKind) (hk : 0 < k.size) (v : Nat) : k.toInt v % 2 = ((v % 2 : Nat) : Int) := by
  have := modulus_even k.size hk
  unfold IntKind.toInt
  split <;> omega

/-- The loop that moves a bit-field to the right, for every pattern: an arithmetic shift. -/
theorem bitsShr_arith (k : IntKind) (hk : 0 < k.size) (t : Nat) : ∀ (n v m : Nat) (q : Int), t ≤ n →
    v < modulus k.size → m < modulus k.size → k.toInt m = 2 ^ t * (2 * q + 1) →
    bitsShr k n v m = k.ofInt (k.toInt v / 2 ^ t) := by
  induction t with
  | zero =>
    intro n v m q _ hv _ hm
    have hp := toInt_parity k hk m
    rw [hm] at hp
    rw [bitsShr_odd k n v m (by omega)]
    simp [IntKind.ofInt_toInt k v hv]
  | succ t ih =>
    intro n v m q hn hv hmm hm
    have hm2 : k.toInt m = 2 * (2 ^ t * (2 * q + 1)) := by
      rw [hm, Int.pow_succ, Int.mul_comm (2 ^ t) 2, Int.mul_assoc]
    have hp := toInt_parity k hk m
    rw [hm2] at hp
    cases n with
    | zero => omega
    | succ n =>
      rw [bitsShr, if_pos (by omega)]
      obtain ⟨e1, e2⟩ := toInt_shr1 k hk v hv
      obtain ⟨f1, f2⟩ := toInt_shr1 k hk m hmm
      rw [ih n _ _ q (by omega) e2 f2 (by rw [f1, hm2]; omega), e1]
      congr 1
      rw [Int.ediv_ediv_of_nonneg (by decide), Int.pow_succ, Int.mul_comm 2]

theorem two_pow_split {k : IntKind} {t : Nat} (ht : t < 8 * k.size) :
    modulus k.size = 2 ^ t * (2 * 2 ^ (8 * k.size - t - 1)) := by
  rw [modulus_eq_two_pow, ← Nat.pow_succ', ← Nat.pow_add]
  congr 1
  omega

/-- C23, exactly: on a signed type the field value is the one that the unsigned type gives if and only if the bit of the
word at the sign is not set in the mask and the word, or the mask has no trailing zeros. -/
theorem C23_iff (k : IntKind) (hs : k.signed = true) (hk : 0 < k.size) (ca : Option CAttr) (fr : FAttr)
    (mask t q : Nat) (hb : fr.bits = some mask) (hm : mask % 2 ^ (8 * k.size) = 2 ^ t * (2 * q + 1)) (b b' : Buf)
    (w : Nat) (hw : decInt k ca (some { fr with bits := none }) b = (.ok w, b')) :
    ∃ x, decInt k ca (some fr) b = (.ok x, b') ∧
      (x = (w &&& 2 ^ t * (2 * q + 1)) / 2 ^ t ↔ 2 * (w &&& 2 ^ t * (2 * q + 1)) < 2 ^ (8 * k.size) ∨ t = 0) := by
  rw [← modulus_eq_two_pow] at hm ⊢
  have hlt : 2 ^ t * (2 * q + 1) < modulus k.size := hm ▸ Nat.mod_lt _ (modulus_pos _)
  have ht : t ≤ 8 * k.size := shift_lt hlt
  have ht' : t < 8 * k.size := by
    refine Nat.lt_of_le_of_ne ht fun e => ?_
    rw [modulus_eq_two_pow, e] at hlt
    have : 2 ^ (8 * k.size) * 1 ≤ 2 ^ (8 * k.size) * (2 * q + 1) := Nat.mul_le_mul_left _ (by omega)
    omega
  have hsplit := two_pow_split (k := k) ht'
  generalize hB : 2 ^ (8 * k.size - t - 1) = B at hsplit
  have hBpos : 0 < B := hB ▸ Nat.pow_pos (by omega)
  have hA : 0 < 2 ^ t := Nat.pow_pos (by omega)
  obtain ⟨q', hq'⟩ : ∃ q' : Int, k.toInt (2 ^ t * (2 * q + 1)) = 2 ^ t * (2 * q' + 1) := by
    unfold IntKind.toInt
    split
    · refine ⟨q - B, ?_⟩
      rw [hsplit]
      push_cast
      rw [← Int.mul_sub]
      congr 1
      omega
    · exact ⟨q, by push_cast; rfl⟩
  have hylt : w &&& 2 ^ t * (2 * q + 1) < modulus k.size := land_lt_right hlt
  refine ⟨k.ofInt (k.toInt (w &&& 2 ^ t * (2 * q + 1)) / 2 ^ t), ?_, ?_⟩
  · have key := bitsShr_arith k hk t (8 * k.size) (w &&& 2 ^ t * (2 * q + 1)) (2 ^ t * (2 * q + 1)) q' ht hylt hlt hq'
    have e : getByteorder ca (some { fr with bits := none }) = getByteorder ca (some fr) := rfl
    unfold decInt at hw ⊢
    simp only [Option.bind_some, hb, fromU64_eq, hm] at hw ⊢
    rw [e, bind_apply] at hw
    rw [bind_apply]
    rcases hd : decWord k (getByteorder ca (some fr)) fr.length b with ⟨o, b1⟩
    rw [hd] at hw
    cases o with
    | ok w1 =>
      simp only [pure_apply, Prod.mk.injEq, Out.ok.injEq] at hw ⊢
      obtain ⟨rfl, rfl⟩ := hw
      exact ⟨key, rfl⟩
    | _ => simp at hw
  · obtain ⟨c, hc⟩ : 2 ^ t ∣ w &&& 2 ^ t * (2 * q + 1) := by
      have : (w &&& 2 ^ t * (2 * q + 1)) % 2 ^ t = 0 := by
        rw [Nat.and_mod_two_pow, Nat.mul_mod_right, Nat.and_zero]
      exact Nat.dvd_of_mod_eq_zero this
    generalize w &&& 2 ^ t * (2 * q + 1) = y at hc hylt ⊢
    have hdiv : y / 2 ^ t = c := by rw [hc, Nat.mul_div_cancel_left _ hA]
    have hcB : c < 2 * B := by
      rw [hsplit, hc] at hylt
      exact Nat.lt_of_mul_lt_mul_left hylt
    rw [hdiv]
    by_cases hneg : 2 * y < modulus k.size
    · have : k.toInt y / 2 ^ t = ((c : Nat) : Int) := by
        rw [IntKind.toInt_small k y hneg, hc]
        push_cast
        exact Int.mul_ediv_cancel_left _ (Int.ne_of_gt (Int.pow_pos (by omega)))
      rw [this, IntKind.ofInt_natCast]
      have : c < modulus k.size := by
        have : c ≤ y := by rw [← hdiv]; exact Nat.div_le_self _ _
        omega
      simp [hneg, Nat.mod_eq_of_lt this]
    · have hto : k.toInt y = y - (modulus k.size : Int) := by
        unfold IntKind.toInt
        rw [if_pos ⟨hs, by omega⟩]
      have hd2 : k.toInt y / 2 ^ t = (c : Int) - 2 * B := by
        rw [hto, hc, hsplit]
        push_cast
        rw [← Int.mul_sub]
        exact Int.mul_ediv_cancel_left _ (Int.ne_of_gt (Int.pow_pos (by omega)))
      have hx : ((k.ofInt (k.toInt y / 2 ^ t) : Nat) : Int) = c - 2 * B + modulus k.size := by
        unfold IntKind.ofInt
        have hMB : 2 * B ≤ modulus k.size := by
          rw [hsplit]
          exact Nat.le_mul_of_pos_left _ hA
        rw [hd2, ← Int.add_emod_right, Int.emod_eq_of_lt (by omega) (by omega)]
        omega
      constructor
      · intro h
        right
        rw [h] at hx
        have hM : modulus k.size = 2 * B := by omega
        rw [hsplit] at hM
        have : 2 ^ t = 1 := Nat.eq_of_mul_eq_mul_right (show 0 < 2 * B by omega) (by omega)
        rcases t with _ | t
        · rfl
        · rw [Nat.pow_succ] at this
          omega
      · rintro (h | rfl)
        · exact absurd h hneg
        · rw [Nat.pow_zero, Nat.one_mul] at hsplit
          omega

/-- The top nibble of a signed byte: right for 0x35, wrong for 0x95. -/
example (w : Nat) (b b' : Buf) (hw : decInt ⟨1, true⟩ none (some { bits := none }) b = (.ok w, b')) :
    ∃ x, decInt ⟨1, true⟩ none (some { bits := some 0xf0 }) b = (.ok x, b') ∧
      (x = (w &&& 2 ^ 4 * (2 * 7 + 1)) / 2 ^ 4 ↔ 2 * (w &&& 2 ^ 4 * (2 * 7 + 1)) < 2 ^ (8 * 1) ∨ 4 = 0) :=
  C23_iff ⟨1, true⟩ rfl (by decide) none { bits := some 0xf0 } 0xf0 4 7 rfl (by decide) b b' w hw
example : decInt ⟨1, true⟩ none (some { bits := none }) ⟨[0x95], 0⟩ = (.ok 0x95, ⟨[0x95], 1⟩) := by decide +kernel

/-- C45, exactly: where the tag survives and the fields round trip, the value is decoded if and only if its variant is
the first to accept the tag. -/
theorem C45_iff {V : Type} (E : EnumDef V) (hw : E.withDecode = none) (ca ca' : Option CAttr)
    (fa : Option FAttr) (i : Nat) (v : Variant V) (num : Nat) (t : Tag) (vs : List V) (tw w suf : List Byte)
    (hm : ∀ u, E.mode ≠ .startsWith u) (hv : E.IsVariant i v num) (ht : TagWire E v num ca fa t tw)
    (ho : effectiveOrder ca' fa = effectiveOrder ca fa)
    (hb : BodyRT E v { vars := localVars E.getVars ca } { vars := localVars E.getVars ca' } vs w suf)
    (hsize : (tw ++ (List.replicate (gap v.attrs { vars := localVars E.getVars ca }) v.attrs.full ++ w)).length +
      suf.length ≤ isizeMax) :
    ∃ w', w' = tw ++ (List.replicate (gap v.attrs { vars := localVars E.getVars ca }) v.attrs.full ++ w) ∧
      Writes (encEnum E (i, vs) ca fa) w' ∧ (Reads (decEnum E ca' fa) (i, vs) w' suf ↔ E.Selects t i v) := by
  refine ⟨_, rfl, encVariant_writes hv ht.writes hb, ?_, ?_⟩
  · intro hr
    have r1 := hr [] (by simpa using hsize)
    have r := ht.reads (ca' := ca') ho
      (List.replicate (gap v.attrs { vars := localVars E.getVars ca }) v.attrs.full ++ w ++ suf) [] (by
        simp only [List.length_append, List.length_nil] at hsize ⊢; omega)
    simp only [List.append_assoc, List.nil_append, List.length_nil, Nat.zero_add] at r r1
    cases hf : findArm t 0 (E.variants.zip E.numbers) with
    | none =>
      rw [(C44_dispatch E hw hm ca' fa _).2.1 _ _ r ((findArm_rejects E t).1 hf)] at r1
      cases r1
    | some p =>
      obtain ⟨j, v'⟩ := p
      have hs := (findArm_selects E t j v').1 hf
      rw [(C44_dispatch E hw hm ca' fa _).1 _ _ j v' r hs, mapM'_apply] at r1
      have hj : j = i := by
        generalize variantFields E ca' v' _ = o at r1
        obtain ⟨o, b⟩ := o
        cases o with
        | ok x =>
          simp only [Prod.mk.injEq, Out.ok.injEq] at r1
          exact r1.1.1
        | _ => simp at r1
      subst hj
      obtain ⟨n, hn, -⟩ := hs.1
      have : v' = v := Option.some.inj (hn.1.symm.trans hv.1)
      exact this ▸ hs
  · intro hs
    obtain ⟨w', rfl, -, h⟩ := C45_enum_roundtrip_partial E hw ca ca' fa i v num t vs tw w suf hm hv ht hs ho hb
    exact h

/-- A variant behind a range that includes its number: the tag selects the range. -/
example (suf : List Byte) (hs : suf.length < 1000) : ∃ w,
    Writes (encEnum (V := Val) { variants := [{ branchRange := some (0, 9, true) }, { branchValue := some (.num 4) }] }
      (1, []) none none) w ∧
    ¬ Reads (decEnum (V := Val) { variants := [{ branchRange := some (0, 9, true) }, { branchValue := some (.num 4) }] }
      none none) (1, []) w suf := by
  have hn : HasNumber (V := Val) [{ branchRange := some (0, 9, true) }, { branchValue := some (.num 4) }] 1 4 :=
    ⟨by decide, .inl ⟨1, _, 4, by omega, rfl, .value rfl rfl rfl, rfl, fun k v' h1 h2 => by omega⟩⟩
  have o : OrderOk (V := Val) ({ branchValue := some (.num 4) } : Variant Val).attrs { vars := localVars [] none } := by
    intro e h; cases h
  obtain ⟨w, -, h1, h2⟩ := C45_iff (V := Val)
    { variants := [{ branchRange := some (0, 9, true) }, { branchValue := some (.num 4) }] } rfl none none none 1
    { branchValue := some (.num 4) } 4 (.num 4) [] [4] [] suf (by intro u h; cases h) ⟨rfl, hn⟩
    (.byte rfl rfl rfl rfl rfl (by decide)) rfl
    ⟨o, o, ⟨by simp, .inl rfl⟩, ⟨by simp, .inl rfl⟩, rfl, Segments.nil _ _ _ _⟩
    (by rw [isizeMax_def]; simp [gap]; omega)
  refine ⟨w, h1, fun h => (h2.1 h).2 0 { branchRange := some (0, 9, true) } 9 (by decide) ⟨rfl, by decide,
    .inl ⟨0, _, 9, by omega, rfl, .range rfl rfl, rfl, fun k v' h1 h2 => by omega⟩⟩
    (.range rfl rfl rfl rfl (by decide) (.inl (by decide)))⟩

/-! ## C66: which literals are taken for the string they denote -/

theorem unescapeQuotes_backslash {c : Char} (h : c ≠ '"') (s : Text) :
    unescapeQuotes ('\\' :: c :: s) = '\\' :: unescapeQuotes (c :: s) := by
  rw [unescapeQuotes.eq_def]
  split
  next heq => cases heq; exact absurd rfl h
  next heq => cases heq; rfl
  next heq => cases heq

theorem unescapeQuotes_closed : ∀ s : Text, ∃ x, unescapeQuotes (s ++ ['"']) = x ++ ['"']
  | [] => ⟨[], rfl⟩
  | [c] => by
    by_cases h : c = '\\'
    · subst h; exact ⟨[], rfl⟩
    · exact ⟨[c], by rw [List.cons_append, unescapeQuotes_cons h]; rfl⟩
  | c :: d :: s => by
    obtain ⟨x, hx⟩ := unescapeQuotes_closed s
    obtain ⟨y, hy⟩ := unescapeQuotes_closed (d :: s)
    by_cases h : c = '\\'
    · subst h
      by_cases h : d = '"'
      · subst h
        exact ⟨'"' :: x, by rw [List.cons_append, List.cons_append, unescapeQuotes, hx]; rfl⟩
      · exact ⟨'\\' :: y, by rw [List.cons_append, List.cons_append, unescapeQuotes_backslash h, ← List.cons_append, hy]; rfl⟩
    · exact ⟨c :: y, by rw [List.cons_append, unescapeQuotes_cons h, hy]; rfl⟩

theorem unescapeQuotes_escaped {s v : Text} (h : Escaped [('"', '"')] s v) (t : Text) :
    unescapeQuotes (s ++ t) = v ++ unescapeQuotes t := by
  induction h with
  | nil => rfl
  | plain _ h2 _ ih => rw [List.cons_append, unescapeQuotes_cons h2, ih]; rfl
  | escape he _ ih =>
    simp only [List.mem_cons, List.not_mem_nil, or_false, Prod.mk.injEq] at he
    obtain ⟨rfl, rfl⟩ := he
    show unescapeQuotes ('\\' :: '"' :: _) = _
    rw [unescapeQuotes]
    exact congrArg _ ih

theorem escaped_head {es : List (Char × Char)} {s v : Text} (h : Escaped es s v) : s.head? ≠ some '"' := by
  cases h with
  | nil => simp
  | plain h _ _ => simpa using h
  | escape _ _ => simp

/-- The literal with all escapes kept is never shorter than the string. -/
theorem unescapeQuotes_exact {s v : Text} (h : Escaped rustEscapes s v) :
    v.length + 1 ≤ (unescapeQuotes (s ++ ['"'])).length ∧
    (unescapeQuotes (s ++ ['"']) = v ++ ['"'] → Escaped [('"', '"')] s v ∨
      ∃ s' v', s = s' ++ ['\\', '\\'] ∧ v = v' ++ ['\\'] ∧ Escaped [('"', '"')] s' v') := by
  induction h with
  | nil => exact ⟨by simp [unescapeQuotes], fun _ => .inl .nil⟩
  | @plain c s v h1 h2 _ ih =>
    rw [List.cons_append, unescapeQuotes_cons h2]
    refine ⟨by simpa using ih.1, fun he => ?_⟩
    rcases ih.2 (List.cons.inj he).2 with h | ⟨s', v', rfl, rfl, h⟩
    · exact .inl (.plain h1 h2 h)
    · exact .inr ⟨c :: s', c :: v', rfl, rfl, .plain h1 h2 h⟩
  | @escape e c s v hm hr ih =>
    have short : ∀ x : Text, v.length + 3 ≤ x.length → (c :: v).length + 1 ≤ x.length ∧
        (x = (c :: v) ++ ['"'] → Escaped [('"', '"')] ('\\' :: e :: s) (c :: v) ∨
          ∃ s' v', '\\' :: e :: s = s' ++ ['\\', '\\'] ∧ c :: v = v' ++ ['\\'] ∧ Escaped [('"', '"')] s' v') := by
      intro x hx
      refine ⟨by simp; omega, fun he => ?_⟩
      rw [he] at hx
      simp at hx
      omega
    rw [List.cons_append, List.cons_append]
    by_cases hq : e = '"'
    · subst hq
      have hc : c = '"' := by
        simp only [rustEscapes, List.mem_cons, List.not_mem_nil, or_false, Prod.mk.injEq] at hm
        rcases hm with h | h | h | h | h | h | h <;> first | exact h.2 | exact absurd h.1 (by decide)
      subst hc
      rw [unescapeQuotes]
      refine ⟨by simpa using ih.1, fun he => ?_⟩
      rcases ih.2 (List.cons.inj he).2 with h | ⟨s', v', rfl, rfl, h⟩
      · exact .inl (.escape (by simp) h)
      · exact .inr ⟨'\\' :: '"' :: s', '"' :: v', rfl, rfl, .escape (by simp) h⟩
    · rw [unescapeQuotes_backslash hq]
      by_cases hb : e = '\\'
      · subst hb
        have hc : c = '\\' := by
          simp only [rustEscapes, List.mem_cons, List.not_mem_nil, or_false, Prod.mk.injEq] at hm
          rcases hm with h | h | h | h | h | h | h <;> first | exact h.2 | exact absurd h.1 (by decide)
        subst hc
        cases s with
        | nil =>
          cases hr
          exact ⟨by decide, fun _ => .inr ⟨[], [], rfl, rfl, .nil⟩⟩
        | cons d s =>
          have hd : d ≠ '"' := fun e => escaped_head hr (by rw [e]; rfl)
          rw [List.cons_append, unescapeQuotes_backslash hd, ← List.cons_append]
          exact short _ (by simpa using ih.1)
      · rw [unescapeQuotes_cons hb]
        exact short _ (by simpa using ih.1)

/-- C66, exactly: of the literals with simple escapes those are taken for the string they denote in which only `\"` is
used, apart from one `\\` at the very end. -/
theorem C66_iff (src v : Text) (h : Escaped rustEscapes src v) : litText ('"' :: (src ++ ['"'])) = v ↔
    Escaped [('"', '"')] src v ∨
      ∃ src' v', src = src' ++ ['\\', '\\'] ∧ v = v' ++ ['\\'] ∧ Escaped [('"', '"')] src' v' := by
  constructor
  · intro hl
    refine (unescapeQuotes_exact h).2 ?_
    obtain ⟨x, hx⟩ := unescapeQuotes_closed src
    have := litText_quoted x src (by rw [unescapeQuotes_cons (by decide), hx])
    rw [hx, ← hl, this]
  · rintro (h' | ⟨src', v', rfl, rfl, h'⟩)
    · exact C66_string_partial _ _ h'
    · refine litText_quoted _ _ ?_
      rw [unescapeQuotes_cons (by decide), List.append_assoc, unescapeQuotes_escaped h', List.append_assoc]
      rfl

/-- The literal `"\"a\\"` is read rightly, `"a\\b"` is not. -/
example : litText ['"', '\\', '"', 'a', '\\', '\\', '"'] = ['"', 'a', '\\'] ∧
    litText ['"', 'a', '\\', '\\', 'b', '"'] ≠ ['a', '\\', 'b'] :=
  ⟨(C66_iff _ _ (.escape (by decide) (.plain (by decide) (by decide) (.escape (by decide) .nil)))).2
    (.inr ⟨['\\', '"', 'a'], ['"', 'a'], rfl, rfl, .escape (by decide) (.plain (by decide) (by decide) .nil)⟩),
   by decide +kernel⟩

/-! ## C69: which names are kept -/

theorem removeAll_len (pat : Text) : ∀ (n : Nat) (s : Text), (removeAll pat n s).length ≤ s.length
  | n, [] => by cases n <;> simp [removeAll]
  | n + 1, _ :: s => by
    rw [removeAll]
    exact Nat.le_trans (removeAll_len pat n s) (by simp)
  | 0, c :: s => by
    rw [removeAll]
    split
    · exact Nat.le_trans (removeAll_len pat _ s) (by simp)
    · simpa using removeAll_len pat 0 s

theorem removeAll_shorter (pat : Text) (hp : pat ≠ []) : ∀ s : Text, pat <:+: s →
    (removeAll pat 0 s).length < s.length
  | [], h => absurd (List.infix_nil.1 h) hp
  | c :: s, h => by
    rw [removeAll]
    by_cases hpre : pat.isPrefixOf (c :: s) = true
    · rw [if_pos hpre]
      have := removeAll_len pat (pat.length - 1) s
      simp only [List.length_cons]
      omega
    · rw [if_neg hpre]
      rcases List.infix_cons_iff.1 h with h | h
      · exact absurd (List.isPrefixOf_iff_prefix.2 h) hpre
      · simpa using removeAll_shorter pat hp s h

theorem afterDot_len : ∀ s : Text, (afterDot s).length ≤ s.length
  | [] => by simp [afterDot]
  | c :: s => by
    rw [afterDot]
    split
    · split
      · simp
      · exact Nat.le_trans (afterDot_len s) (by simp)
    · simp

theorem afterDot_shorter (s : Text) (h : '.' ∈ s) : (afterDot s).length < s.length := by
  cases s with
  | nil => simp at h
  | cons c s =>
    rw [afterDot, if_pos h]
    split
    · simp
    · have := afterDot_len s
      simp only [List.length_cons]
      omega

/-- C69, exactly: the getter of `x`, or of `r#x`, is called `get_x` if and only if there is no `r#`, `get_`, `()` or `.`
in `x`. -/
theorem C69_iff (s : Text) : (getterName s = s ↔ PlainName s) ∧ (getterName ('r' :: '#' :: s) = s ↔ PlainName s) := by
  have e : getterName ('r' :: '#' :: s) = getterName s := rfl
  rw [e, and_self]
  refine ⟨fun h => ?_, fun h => (C69_name_partial s h).1⟩
  have hl := congrArg List.length h
  unfold getterName at hl
  have l1 := removeAll_len ['r', '#'] 0 s
  have l2 := removeAll_len ['g', 'e', 't', '_'] 0 (removeAll ['r', '#'] 0 s)
  have l3 := removeAll_len ['(', ')'] 0 (removeAll ['g', 'e', 't', '_'] 0 (removeAll ['r', '#'] 0 s))
  have l4 := afterDot_len (removeAll ['(', ')'] 0 (removeAll ['g', 'e', 't', '_'] 0 (removeAll ['r', '#'] 0 s)))
  have h1 : ¬ ['r', '#'] <:+: s := fun hi => by
    have := removeAll_shorter _ (by simp) s hi
    omega
  rw [removeAll_clean _ s h1] at hl l2 l3 l4
  have h2 : ¬ ['g', 'e', 't', '_'] <:+: s := fun hi => by
    have := removeAll_shorter _ (by simp) s hi
    omega
  rw [removeAll_clean _ s h2] at hl l3 l4
  have h3 : ¬ ['(', ')'] <:+: s := fun hi => by
    have := removeAll_shorter _ (by simp) s hi
    omega
  rw [removeAll_clean _ s h3] at hl l4
  exact ⟨h1, h2, h3, fun hd => by have := afterDot_shorter s hd; omega⟩

/-- The field `target_id` gets a getter of another name. -/
example : getterName ['t', 'a', 'r', 'g', 'e', 't', '_', 'i', 'd'] ≠ ['t', 'a', 'r', 'g', 'e', 't', '_', 'i', 'd'] :=
  fun h => ((C69_iff _).1.1 h).get ⟨['t', 'a', 'r'], ['i', 'd'], rfl⟩

end JBytes
