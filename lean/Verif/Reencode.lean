import Verif.Faithful
/-!
# What a successful decode says about the bytes it consumed
-/

namespace JBytes
open M

variable {α β V : Type}

/-- When `d` succeeds with `v`, the data is unchanged, the position has moved forward inside the data, and `R` holds of
`v` and the bytes in between. -/
def Gives (R : α → List Byte → Prop) (d : M α) : Prop := ∀ b, b.Ok → ∀ v b', d b = (.ok v, b') →
  b'.data = b.data ∧ b.pos ≤ b'.pos ∧ b'.pos ≤ b.data.length ∧ R v ((b.data.drop b.pos).take (b'.pos - b.pos))

theorem Gives.mono {R R' : α → List Byte → Prop} {d : M α} (h : Gives R d) (hi : ∀ v w, R v w → R' v w) : Gives R' d :=
  fun b hb v b' e => let ⟨h1, h2, h3, h4⟩ := h b hb v b' e; ⟨h1, h2, h3, hi _ _ h4⟩

theorem Gives.pure {R : α → List Byte → Prop} {v : α} (h : R v []) : Gives R (Pure.pure v : M α) := by
  intro b hb v' b' e
  rw [pure_apply, Prod.mk.injEq, Out.ok.injEq] at e
  obtain ⟨rfl, rfl⟩ := e
  simpa [hb.1] using h

theorem Gives.fail {R : α → List Byte → Prop} {c : ErrCode} : Gives R (M.fail c : M α) := by
  intro b hb v' b' e
  rw [fail_apply] at e
  simp at e

theorem Gives.panic {R : α → List Byte → Prop} : Gives R (M.panic : M α) := fun b hb v' b' e => by cases e

theorem Gives.timeout {R : α → List Byte → Prop} : Gives R (M.timeout : M α) := fun b hb v' b' e => by cases e

theorem window_split (l : List Byte) {p q r : Nat} (h1 : p ≤ q) (h2 : q ≤ r) :
    (l.drop p).take (q - p) ++ (l.drop q).take (r - q) = (l.drop p).take (r - p) := by
  have e : l.drop q = (l.drop p).drop (q - p) := by rw [List.drop_drop]; congr 1; omega
  rw [e, show r - p = (q - p) + (r - q) by omega, List.take_add]

theorem Gives.bind {R : α → List Byte → Prop} {Q : β → List Byte → Prop} {d : M α} (h : Gives R d) {f : α → M β}
    (hf : ∀ a w, R a w → Gives (fun v w' => Q v (w ++ w')) (f a)) : Gives Q (d >>= f) := by
  intro b hb v b' e
  rw [bind_apply] at e
  rcases hd : d b with ⟨o, b1⟩
  rw [hd] at e
  cases o with
  | ok a =>
    obtain ⟨h1, h2, h3, h4⟩ := h b hb a b1 hd
    have hb1 : b1.Ok := by rw [Buf.Ok, h1]; exact ⟨h3, hb.2⟩
    obtain ⟨g1, g2, g3, g4⟩ := hf a _ h4 b1 hb1 v b' e
    rw [h1] at g1 g3 g4
    rw [window_split _ h2 g2] at g4
    exact ⟨g1, Nat.le_trans h2 g2, g3, g4⟩
  | _ => simp at e

theorem Gives.map {R : α → List Byte → Prop} {Q : β → List Byte → Prop} {d : M α} (h : Gives R d) {f : α → β}
    (hf : ∀ a w, R a w → Q (f a) w) : Gives Q (d >>= fun a => (Pure.pure (f a) : M β)) :=
  h.bind fun a w ha => Gives.pure (by simpa using hf a w ha)

theorem Gives.congr {R : α → List Byte → Prop} {d d' : M α} (h : Gives R d) (e : ∀ b, b.Ok → d' b = d b) :
    Gives R d' := fun b hb v b' hd => h b hb v b' (by rw [← e b hb, hd])

/-! ## Reads -/

theorem Gives.takeBytes (n : Nat) : Gives (fun v w => w = v ∧ v.length = n) (takeBytes n) := by
  intro b hb v b' e
  rw [takeBytes_apply n b hb] at e
  have := hb.1
  split at e
  · simp at e
  · rw [Prod.mk.injEq, Out.ok.injEq] at e
    obtain ⟨rfl, rfl⟩ := e
    refine ⟨rfl, by simp only; omega, by simp only; omega, ?_, ?_⟩
    · simp only; congr 1; omega
    · rw [List.length_take, List.length_drop]; omega

theorem Gives.takeFixed (o : ByteOrder) (n : Nat) :
    Gives (fun v w => w = toBytes o n v ∧ v < 256 ^ n) (takeFixed o n) := by
  unfold JBytes.takeFixed
  refine (Gives.takeBytes n).map fun a w ⟨h1, h2⟩ => ?_
  subst h2
  rw [toBytes_fromBytes]
  exact ⟨h1, fromBytes_lt o a⟩

theorem Gives.takeScalar (s : Scalar) (o : ByteOrder) :
    Gives (fun v w => w = toBytes o s.size v ∧ v < 256 ^ s.size) (takeScalar s o) :=
  (Gives.takeFixed o s.size).congr fun b hb => takeScalar_eq_fixed s o b hb

theorem Gives.takeUint (o : ByteOrder) (n : Nat) :
    Gives (fun v w => w = toBytes o n v ∧ v < 256 ^ n ∧ n ≤ 8) (takeUint n o) := by
  by_cases hn : n ≤ 8
  · exact ((Gives.takeFixed o n).congr fun b _ => takeN_apply o 8 n hn b).mono fun v w h => ⟨h.1, h.2, hn⟩
  · intro b hb v b' e
    exfalso
    cases o
    · simp [JBytes.takeUint, takeN, takeBeN, hn, fail_apply] at e
    · simp only [JBytes.takeUint, takeN, takeLeN, ite_apply', hn, if_false, bind_apply] at e
      revert e
      simp [M.panic]

theorem Gives.takeU8 : Gives (fun v w => w = [v]) takeU8 := by
  intro b hb v b' e
  rw [takeU8_apply b hb] at e
  split at e
  · next h =>
    rw [Prod.mk.injEq, Out.ok.injEq] at e
    obtain ⟨rfl, rfl⟩ := e
    refine ⟨rfl, by simp only; omega, by simp only; omega, ?_⟩
    simp only [Nat.add_sub_cancel_left]
    rw [List.drop_eq_getElem_cons h, List.take_succ_cons, List.take_zero]
  · simp at e

theorem Gives.takeChar : Gives (fun v w => w = [UInt8.ofNat v]) takeChar := by
  unfold JBytes.takeChar
  refine (Gives.takeBytes 1).bind fun v w ⟨h1, h2⟩ => ?_
  subst h1
  match w, h2 with
  | [x], _ =>
    show Gives _ (Pure.pure x >>= _ : M Nat)
    exact (Gives.pure (R := fun a w => a = x ∧ w = []) ⟨rfl, rfl⟩).map fun a w ⟨h1, h2⟩ => by subst h1 h2; simp

theorem Gives.findSubsequence (x : List Byte) : Gives (fun v w => w = v ++ x) (findSubsequence x) := by
  intro b hb v b' e
  rw [findSubsequence_apply x b hb] at e
  cases hf : findSub x (b.data.drop b.pos) with
  | none => rw [hf] at e; simp at e
  | some i =>
    rw [hf] at e
    simp only [Prod.mk.injEq, Out.ok.injEq] at e
    obtain ⟨rfl, rfl⟩ := e
    obtain ⟨⟨l, r, h1, h2⟩, _⟩ := findSub_some hf
    have hl : b.data.length - b.pos = l.length + x.length + r.length := by
      rw [← List.length_drop, h1]; simp; omega
    have := hb.1
    refine ⟨rfl, by simp only; omega, by simp only; omega, ?_⟩
    simp only [Nat.add_sub_cancel_left]
    rw [h1, ← h2]
    simp [List.take_append, List.take_of_length_le]

theorem Gives.attemptStarts (p : List Byte) :
    Gives (fun o w => match o with
      | some _ => w = p
      | none => w = []) (attempt (takeBytesStarts p)) := by
  intro b hb v b' e
  rw [attempt_apply, takeBytesStarts_apply p b hb] at e
  have := hb.1
  by_cases h1 : b.data.length - b.pos < p.length
  · rw [if_pos h1] at e
    simp only [Prod.mk.injEq, Out.ok.injEq] at e
    obtain ⟨rfl, rfl⟩ := e
    simpa using this
  · rw [if_neg h1] at e
    by_cases h2 : p.isPrefixOf (b.data.drop b.pos) = true
    · rw [if_pos h2] at e
      simp only [Prod.mk.injEq, Out.ok.injEq] at e
      obtain ⟨rfl, rfl⟩ := e
      refine ⟨rfl, by simp only; omega, by simp only; omega, ?_⟩
      simp only [Nat.add_sub_cancel_left]
      exact (List.prefix_iff_eq_take.mp (List.isPrefixOf_iff_prefix.mp h2)).symm
    · rw [if_neg h2] at e
      simp only [Prod.mk.injEq, Out.ok.injEq] at e
      obtain ⟨rfl, rfl⟩ := e
      simpa using this

/-! ## Codecs -/

/-- `e` writes back what `d` consumed. -/
def Re (d : Dec α) (e : Enc α) (ca : Option CAttr) (fa : Option FAttr) : Prop :=
  Gives (fun v w => Appends (e v ca fa) w) (d ca fa)

theorem modulus_dvd {m n : Nat} (h : m ≤ n) : modulus m ∣ modulus n := Nat.pow_dvd_pow 256 h

theorem asU64_mod (k : IntKind) (v n : Nat) (h : n ≤ k.size) (h8 : n ≤ 8) : asU64 k v % 256 ^ n = v % 256 ^ n := by
  have key : ((asU64 k v : Nat) : Int) % (256 ^ n : Nat) = (v : Int) % (256 ^ n : Nat) := by
    have h1 : ((asU64 k v : Nat) : Int) = k.toInt v % (modulus 8 : Int) := by
      unfold asU64 castInt IntKind.ofInt
      exact Int.toNat_of_nonneg (Int.emod_nonneg _ (by have := modulus_pos 8; exact_mod_cast Nat.ne_of_gt this))
    have h2 : ((256 ^ n : Nat) : Int) ∣ (modulus 8 : Int) := Int.natCast_dvd_natCast.mpr (modulus_dvd h8)
    have h3 : ((256 ^ n : Nat) : Int) ∣ (modulus k.size : Int) := Int.natCast_dvd_natCast.mpr (modulus_dvd h)
    rw [h1, Int.emod_emod_of_dvd _ h2]
    unfold IntKind.toInt
    split
    · rw [Int.sub_emod, Int.emod_eq_zero_of_dvd h3]
      simp
    · rfl
  exact_mod_cast key

theorem Re.int (k : IntKind) (_hk : k.Valid) (ca : Option CAttr) (fa : Option FAttr)
    (hb : ∀ fr, fa = some fr → fr.bits = none) : Re (decInt k) (encInt k) ca fa := by
  have hbits : fa.bind (·.bits) = none := by
    cases fa with
    | none => rfl
    | some fr => exact hb fr rfl
  have henc : ∀ v o, encBits k v o fa = Pure.pure v := by
    intro v o
    cases fa with
    | none => rfl
    | some fr => simp [encBits, hb fr rfl]
  have hw : Gives (fun v w => Appends (encInt k v ca fa) w) (decWord k (getByteorder ca fa) (fa.bind (·.length))) := by
    unfold decWord encInt
    simp only [henc]
    cases fa.bind (·.length) with
    | none =>
      simp only
      refine (Gives.takeScalar k.scalar (getByteorder ca fa)).mono fun v w h => ?_
      rw [h.1]
      exact Appends.scalar _ _ _
    | some n =>
      simp only
      by_cases hn : k.size < n
      · rw [if_pos hn]; exact Gives.fail
      · rw [if_neg hn]
        refine (Gives.takeUint (getByteorder ca fa) n).map fun v w h => ?_
        obtain ⟨h1, h2, h8⟩ := h
        have h3 : fromU64 k v = v := by
          rw [fromU64_eq]
          exact Nat.mod_eq_of_lt (Nat.lt_of_lt_of_le h2 (Nat.pow_le_pow_right (by omega) (by omega)))
        rw [h1, h3, ← toBytes_mod, ← asU64_mod k v n (by omega) h8, toBytes_mod]
        show Appends (Pure.pure v >>= fun v => if k.size < n then M.fail _ else _) _
        rw [show ∀ f : Nat → M Nat, (Pure.pure v >>= f : M Nat) = f v from fun f => rfl]
        rw [if_neg hn]
        exact Appends.uint _ n _ h8
  unfold Re decInt
  simp only [hbits]
  exact hw.map fun v w h => h

theorem Re.f32 (ca : Option CAttr) (fa : Option FAttr) : Re decF32 encF32 ca fa :=
  (Gives.takeScalar .f32 _).mono fun v w h => h.1 ▸ Appends.scalar _ _ _

theorem Re.f64 (ca : Option CAttr) (fa : Option FAttr) : Re decF64 encF64 ca fa :=
  (Gives.takeScalar .f64 _).mono fun v w h => h.1 ▸ Appends.scalar _ _ _

theorem Re.char (ca : Option CAttr) (fa : Option FAttr) : Re decChar encChar ca fa :=
  Gives.takeChar.mono fun v w h => by
    subst h
    exact Appends.pushU8 _

theorem Gives.takePrefixed : Gives (fun v w => w = UInt8.ofNat v.length :: v) takePrefixed :=
  Gives.takeU8.bind fun a w h => (Gives.takeBytes _).mono fun v w' h' => by
    rw [h, h'.1, h'.2]
    simp

theorem Gives.decBytes (ca : Option CAttr) (fa : Option FAttr)
    (hf : ∀ fr, fa = some fr → fr.key = none ∧ fr.split = none ∧ fr.linend = false) :
    Gives (fun v w => w = bytesWire ca fa v ∧ ∀ k, framingOf fa = .lenN k → k ≤ 8) (decBytes ca fa) := by
  cases fa with
  | none => exact Gives.takePrefixed.mono fun v w h => ⟨h, fun k h => by simp [framingOf] at h⟩
  | some fr =>
    obtain ⟨h1, h2, h3⟩ := hf fr rfl
    unfold JBytes.decBytes bytesWire heads framingOf
    simp only [h1, h2, h3, skipNeedle, Option.bind_some, Option.getD_none, List.append_nil, List.nil_append,
      Option.map_some, Option.getD_some, Bool.false_eq_true, if_false, Option.or_none]
    show Gives _ (Pure.pure () >>= fun _ => Pure.pure () >>= fun _ => _)
    simp only [show ∀ f : Unit → M (List Byte), (Pure.pure () >>= f : M (List Byte)) = f () from fun f => rfl]
    cases hl : fr.length with
    | some n =>
      simp only [Option.map_some, Option.some_or, Option.getD_some, Framing.wire]
      exact (Gives.takeBytes n).mono fun v w h => ⟨h.1, fun k h => by cases h⟩
    | none =>
      cases hb : fr.byteCount with
      | some k =>
        simp only [Option.map_some, Option.map_none, Option.none_or, Option.some_or, Option.getD_some, Framing.wire,
          getByteorder_eq]
        refine (Gives.takeUint _ k).bind fun n w h => (Gives.takeBytes n).mono fun v w' h' => ?_
        refine ⟨by rw [h.1, h'.1, h'.2], fun k' hk => ?_⟩
        cases hk
        exact h.2.2
      | none =>
        simp only [Option.map_none, Option.none_or]
        cases hlv : fr.linendValue with
        | some x =>
          simp only [Option.map_some, Option.getD_some, Framing.wire]
          exact (Gives.findSubsequence x).mono fun v w h => ⟨h, fun k h => by cases h⟩
        | none =>
          simp only [Option.map_none, Option.getD_none]
          by_cases hr : fr.remaining = true
          · simp only [hr, if_true, Framing.wire]
            refine Gives.bind (R := fun _ w => w = []) ?_ fun n w h => (Gives.takeBytes n).mono fun v w' h' => ?_
            · intro b hb v b' e
              rw [remainingLen_apply, Prod.mk.injEq] at e
              rw [← e.2]
              simpa using hb.1
            · exact ⟨by rw [h, h'.1]; rfl, fun k h => by cases h⟩
          · simp only [hr, if_false, Framing.wire]
            exact Gives.takePrefixed.mono fun v w h => ⟨h, fun k h => by cases h⟩

theorem Re.bytes (ca : Option CAttr) (fa : Option FAttr)
    (hf : ∀ fr, fa = some fr → fr.key = none ∧ fr.split = none ∧ fr.linend = false) : Re decBytes encBytes ca fa :=
  (Gives.decBytes ca fa hf).mono fun v w h => h.1 ▸ encBytes_appends v ca fa h.2

theorem Re.str (ca : Option CAttr) (fa : Option FAttr)
    (hf : ∀ fr, fa = some fr → fr.key = none ∧ fr.split = none ∧ fr.linend = false) : Re decStr encBytes ca fa := by
  refine Gives.bind (Re.bytes ca fa hf) fun v w h => ?_
  by_cases hu : utf8Valid v = true
  · rw [if_pos hu]; exact Gives.pure (by simpa using h)
  · rw [if_neg hu]; exact Gives.fail

theorem toBytes_ordered (o : ByteOrder) (n v : Nat) (h : v < 256 ^ n) : toBytes o n v = ordered o (toBE n v) := by
  have := toBytes_beVal o (toBE n v)
  rw [toBE_length, beVal_toBE, Nat.mod_eq_of_lt h] at this
  exact this

theorem Re.ipv4 (ca : Option CAttr) (fa : Option FAttr) : Re decIpv4 encIp ca fa :=
  (Gives.takeScalar .u32 _).map fun v w h => by
    rw [h.1, toBytes_ordered _ _ _ h.2, getByteorder_eq]
    exact encIp_appends _ _ _

theorem Re.ipv6 (ca : Option CAttr) (fa : Option FAttr) : Re decIpv6 encIp ca fa :=
  (Gives.takeScalar .u128 _).map fun v w h => by
    rw [h.1, toBytes_ordered _ _ _ h.2, getByteorder_eq]
    exact encIp_appends _ _ _

theorem Re.mac (ca : Option CAttr) (fa : Option FAttr) : Re decMac encMac ca fa :=
  (Gives.takeUint _ 6).map fun v w h => by
    rw [h.1, toBytes_ordered _ _ _ h.2.1, getByteorder_eq, macFromBits_eq]
    exact encMac_appends _ (toBE_length 6 v) _ _

theorem Re.ip (ca : Option CAttr) (fa : Option FAttr) : Re decIpAddr encIpAddr ca fa := by
  unfold Re decIpAddr
  cases fa.bind (·.length) with
  | none => exact Gives.fail
  | some n =>
    simp only
    split
    · exact (Re.ipv6 ca fa).map fun v w h => h
    · split
      · exact (Re.ipv4 ca fa).map fun v w h => h
      · exact Gives.fail

theorem Re.net (ca : Option CAttr) (fa : Option FAttr) (hb : ∀ fr, fa = some fr → fr.bits = none) :
    Re decNet encNet ca fa := by
  unfold Re decNet
  cases fa.bind (·.length) with
  | none => exact Gives.fail
  | some n =>
    simp only
    split
    · exact Gives.fail
    · split
      · exact (Re.ipv4 ca fa).map fun v w h => h
      · split
        · exact (Re.mac ca fa).map fun v w h => h
        · split
          · exact (Re.ipv6 ca fa).map fun v w h => h
          · exact (Re.int ⟨8, false⟩ (.mk 8 false (by omega)) ca fa hb).map fun v w h => h

/-! ## Sequences -/

theorem Gives.repeatM {m : M α} {e : α → M Nat} (h : Gives (fun v w => Appends (e v) w) m) : ∀ n,
    Gives (fun v w => v.length = n ∧ Appends (encAll e v) w) (repeatM m n)
  | 0 => Gives.pure ⟨rfl, Appends.pure0⟩
  | n + 1 => h.bind fun a w ha => (Gives.repeatM h n).map fun as w' has =>
      ⟨by rw [List.length_cons, has.1], Appends.seq ha has.2⟩

theorem Gives.whileStarts {p : List Byte} {m : M α} {e : α → M Nat} (h : Gives (fun v w => Appends (e v) w) m) :
    ∀ n, Gives (fun v w => Appends (encAll (fun a => do
      let n ← push p
      let m ← e a
      return n + m) v) w) (whileStarts p m n)
  | 0 => Gives.timeout
  | n + 1 => by
    refine (Gives.attemptStarts p).bind fun o w ho => ?_
    cases o with
    | none =>
      simp only at ho ⊢
      exact Gives.pure (by rw [ho]; exact Appends.pure0)
    | some u =>
      simp only at ho ⊢
      subst ho
      refine h.bind fun a w' ha => (Gives.whileStarts h n).map fun as w'' has => ?_
      rw [← List.append_assoc]
      exact Appends.seq (Appends.seq (Appends.push _) ha) has

theorem Gives.getCount (ca : Option CAttr) (fa : Option FAttr)
    (hf : ∀ fr, fa = some fr → fr.tryCount = none ∧ (fr.count = none ∨ fr.byteCountOutside = none)) :
    Gives (fun r w => r.2 = none ∧ Appends (pushCount ca fa r.1) w) (getCount ca fa) := by
  have hu8 : ∀ fr : Option FAttr, pushCount ca fa = (fun n => pushU8 (UInt8.ofNat n)) →
      Gives (fun r w => r.2 = none ∧ Appends (pushCount ca fa r.1) w)
        (JBytes.takeU8 >>= fun n => (Pure.pure (n.toNat, none) : M (Nat × Option Nat))) := by
    intro _ hp
    refine Gives.takeU8.map fun v w h => ⟨rfl, ?_⟩
    rw [hp, h]
    simp only [UInt8.ofNat_toNat]
    exact Appends.pushU8 _
  cases fa with
  | none => exact hu8 none rfl
  | some fr =>
    obtain ⟨h1, h2⟩ := hf fr rfl
    unfold JBytes.getCount
    simp only [h1]
    cases hc : fr.count with
    | some n =>
      simp only
      have h2 : fr.byteCountOutside = none := by
        rcases h2 with h2 | h2
        · rw [hc] at h2; cases h2
        · exact h2
      exact Gives.pure ⟨rfl, by simpa [pushCount, h2, hc] using Appends.pure0⟩
    | none =>
      simp only
      cases ho : fr.byteCountOutside with
      | some k =>
        simp only
        refine (Gives.takeUint _ k).map fun n w h => ⟨rfl, ?_⟩
        simp only [pushCount, ho]
        rw [h.1]
        exact Appends.uint _ _ _ h.2.2
      | none => exact hu8 none (by funext n; simp [pushCount, ho, hc, h1])

theorem Re.vec {d : Dec α} {e : Enc α} {ca : Option CAttr} {fa : Option FAttr} (h : Re d e ca fa) (fuel : Nat)
    (hf : ∀ fr, fa = some fr → fr.tryCount = none ∧ (fr.count = none ∨ fr.byteCountOutside = none)) :
    Re (decVec fuel d) (encVec e) ca fa := by
  unfold Re decVec encVec
  cases fa.bind (·.loopSkipStarts) with
  | some p => exact Gives.whileStarts h fuel
  | none =>
    refine (Gives.getCount ca fa hf).bind fun r w hr => ?_
    obtain ⟨n, t⟩ := r
    obtain ⟨rfl, hr⟩ := hr
    simp only
    refine (Gives.repeatM h n).mono fun l w' hl => ?_
    simp only [hl.1]
    exact Appends.seq hr hl.2

theorem Re.array {d : Dec α} {e : Enc α} {ca : Option CAttr} {fa : Option FAttr} (h : Re d e ca fa) (k : Nat) :
    Re (decArray k d) (encArray e) ca fa := (Gives.repeatM h k).mono fun _ _ hl => hl.2

theorem Re.tuple (ca : Option CAttr) (fa : Option FAttr) : ∀ cs : List (Dec α × Enc α),
    (∀ c ∈ cs, Re c.1 c.2 ca fa) → Re (decTuple (cs.map (·.1))) (encTuple (cs.map (·.2))) ca fa
  | [], _ => Gives.pure Appends.pure0
  | c :: cs, h => Gives.bind (h c (by simp)) fun a w ha =>
      (Re.tuple ca fa cs fun c hc => h c (by simp [hc])).map fun as w' has => Appends.seq ha has

theorem Re.option {d : Dec α} {e : Enc α} {ca : Option CAttr} {fa : Option FAttr} (h : Re d e ca fa)
    (hr : Restores (d ca fa)) : Re (decOption d) (encOption e) ca fa := by
  unfold Re decOption
  by_cases h0 : fa.bind (·.length) = some 0
  · rw [if_pos h0]; exact Gives.pure Appends.pure0
  · rw [if_neg h0]
    intro b hb v b' hd
    rw [attempt_apply] at hd
    rcases he : d ca fa b with ⟨o, b1⟩
    rw [he] at hd
    cases o with
    | ok a =>
      simp only [Prod.mk.injEq, Out.ok.injEq] at hd
      obtain ⟨rfl, rfl⟩ := hd
      exact h b hb a b1 he
    | err x =>
      simp only [Prod.mk.injEq, Out.ok.injEq] at hd
      obtain ⟨rfl, rfl⟩ := hd
      have := hr b hb x b1 he
      subst this
      refine ⟨rfl, Nat.le_refl _, hb.1, ?_⟩
      rw [Nat.sub_self, List.take_zero]
      exact Appends.pure0
    | _ => simp at hd

theorem Re.inject {d : Dec α} {e : Enc α} {ca : Option CAttr} {fa : Option FAttr} (h : Re d e ca fa) (f : α → β)
    (g : β → Option α) (hg : ∀ a, g (f a) = some a) :
    Re (fun ca fa => do
        let a ← d ca fa
        return f a) (fun v ca fa => encOption e (g v) ca fa) ca fa := by
  refine Gives.map h fun a w ha => ?_
  simp only [hg]
  exact ha

/-! ## Fields -/

theorem toCode_cases (a : FieldAttrs V) (env : Env V) : a.toCode env = M.panic ∨
    (∀ b, a.toCode env b = (.ok none, b)) ∨ ∃ o, ∀ b, a.toCode env b = (.ok (some (a.modifiers o env)), b) := by
  unfold FieldAttrs.toCode orderCode
  by_cases h : (a.isUse && a.anySet) = true
  · rw [if_pos h]
    cases ho : a.byteorder with
    | none => exact .inr (.inr ⟨none, fun b => rfl⟩)
    | some o =>
      cases o with
      | lit o => exact .inr (.inr ⟨some o, fun b => rfl⟩)
      | expr e =>
        simp only
        by_cases h0 : e env = 0
        · rw [if_pos h0]; exact .inr (.inr ⟨some .be, fun b => rfl⟩)
        · rw [if_neg h0]
          by_cases h1 : e env = 1
          · rw [if_pos h1]; exact .inr (.inr ⟨some .le, fun b => rfl⟩)
          · rw [if_neg h1]; exact .inl rfl
  · rw [if_neg h]; exact .inr (.inl fun b => rfl)

theorem Gives.toCode {A : Option FAttr → Prop} (f : Field V) (hp : Passes A f) (env : Env V) :
    Gives (fun fa w => w = [] ∧ A fa ∧ ∀ b, f.attrs.toCode env b = (.ok fa, b)) (f.attrs.toCode env) := by
  rcases toCode_cases f.attrs env with h | h | ⟨o, h⟩
  · rw [h]; exact Gives.panic
  · intro b hb v b' e
    rw [h] at e
    simp only [Prod.mk.injEq, Out.ok.injEq] at e
    obtain ⟨rfl, rfl⟩ := e
    exact ⟨rfl, Nat.le_refl _, hb.1, by simp, hp.unset, h⟩
  · intro b hb v b' e
    rw [h] at e
    simp only [Prod.mk.injEq, Out.ok.injEq] at e
    obtain ⟨rfl, rfl⟩ := e
    exact ⟨rfl, Nat.le_refl _, hb.1, by simp, hp.given o env, h⟩

theorem Gives.finishValue (a : FieldAttrs V) (hv : a.valueDecode = none) (env : Env V) (v : V) :
    Gives (fun v' w => v' = v ∧ w = []) (finishValue a env v) := by
  unfold JBytes.finishValue
  simp only [hv]
  cases a.checkValue with
  | none => exact Gives.pure ⟨rfl, rfl⟩
  | some c =>
    simp only
    by_cases h : c env v = true
    · rw [if_pos h]; exact Gives.pure ⟨rfl, rfl⟩
    · rw [if_neg h]; exact Gives.fail

/-- The position is put back after reading. -/
theorem Gives.peek {R : α → List Byte → Prop} {Q : β → List Byte → Prop} {d : M α} (h : Gives R d) {f : α → M β}
    (hf : ∀ a w, R a w → Gives Q (f a)) :
    Gives Q (do
      let p ← getPos
      let a ← d
      setPos p
      f a) := by
  intro b hb v b' e
  simp only [bind_apply, getPos_apply] at e
  rcases hd : d b with ⟨o, b1⟩
  rw [hd] at e
  cases o with
  | ok a =>
    obtain ⟨h1, h2, h3, h4⟩ := h b hb a b1 hd
    simp only at e
    have hs : (setPos b.pos b1) = (.ok (), b) := by
      show (Out.ok (), (⟨b1.data, b.pos⟩ : Buf)) = _
      rw [h1]
    rw [hs] at e
    exact hf a _ h4 b hb v b' e
  | _ => simp at e

theorem Gives.field {A : Option FAttr → Prop} (f : Field V) (hs : SameWay f.attrs) (hp : Passes A f)
    {ca : Option CAttr} {fa : Option FAttr} (hA : A fa) (h : Re f.dec f.enc ca fa) (env : Env V) :
    Gives (fun v w => Appends (encField f env v ca fa) w) (decField f env ca fa) := by
  have hnone : ∀ v, f.attrs.skip = true ∨ f.attrs.skipEncode = true → Appends (encField f env v ca fa) [] := by
    intro v h
    have : (f.attrs.skip || f.attrs.skipEncode) = true := by rcases h with h | h <;> simp [h]
    simp only [encField, hs.withEncode, this, if_true]
    exact Appends.pure0
  unfold decField
  simp only [skipOffset, hs.offset, hs.withDecode, hs.fromStr]
  show Gives _ (if (f.attrs.skip || f.attrs.skipDecode) = true then Pure.pure f.dflt else decPlain f env ca fa)
  by_cases hk : (f.attrs.skip || f.attrs.skipDecode) = true
  · rw [if_pos hk]
    refine Gives.pure (hnone _ ?_)
    rcases hs.skips with h1 | h1
    · exact .inl h1
    · rw [← h1]; simpa using hk
  · rw [if_neg hk]
    have hc : Gives (fun v w => Appends (f.enc v ca fa) w) (decCond f env ca fa) := by
      unfold decCond
      cases hi : f.attrs.ifExpr with
      | none => exact h
      | some c =>
        simp only
        by_cases hce : c env = true
        · rw [if_pos hce]; exact h
        · rw [if_neg hce]
          refine Gives.pure ?_
          rcases hp.absent with h1 | h1
          · rw [hi] at h1; cases h1
          · exact h1 ca fa hA
    have hk' : (f.attrs.skip || f.attrs.skipEncode) = false := by
      rcases hs.skips with h1 | h1
      · simp [h1] at hk
      · rw [← h1]; simpa using hk
    unfold decPlain
    cases hu : f.attrs.untake with
    | true =>
      refine Gives.peek hc fun v w _ => (Gives.finishValue f.attrs hs.valueDecode env v).mono fun v' w' h' => ?_
      rw [h'.2]
      simp only [encField, hs.withEncode, hk', Bool.false_eq_true, if_false, encText, hs.fromStr, hs.bits, hu]
      exact Appends.pure0
    | false =>
      simp only [Bool.false_eq_true, if_false]
      refine Gives.bind (R := fun _ w => w = []) ?_ fun p w0 h0 => ?_
      · intro b hb v b' e
        rw [getPos_apply, Prod.mk.injEq] at e
        rw [← e.2]
        simpa using hb.1
      · subst h0
        refine hc.bind fun v w hv => (Gives.finishValue f.attrs hs.valueDecode env v).mono fun v' w' h' => ?_
        obtain ⟨rfl, rfl⟩ := h'
        rw [List.append_nil, List.nil_append]
        intro pre hpre
        have hv := hv pre hpre
        simp only [encField, hs.withEncode, hk', Bool.false_eq_true, if_false, encText, hs.fromStr, hs.bits, hu,
          Option.isSome_none, Bool.not_false, Bool.or_true, if_true, encPlain, padOffset, hs.offset, hs.valueEncode,
          bind_apply, pure_apply, hv, Nat.zero_add]

theorem Gives.fields (As : Field V → Option FAttr → Prop) (ca : Option CAttr) : ∀ (fs : List (Field V)) (env : Env V),
    (∀ f ∈ fs, SameWay f.attrs) → (∀ f ∈ fs, Passes (As f) f) → (∀ f ∈ fs, ∀ fa, As f fa → Re f.dec f.enc ca fa) →
    Gives (fun vs w => Appends (encFields false fs ca none env vs) w) (decFields false fs ca none env)
  | [], env, _, _, _ => Gives.pure Appends.pure0
  | f :: fs, env, h1, h2, h3 => by
    unfold decFields
    simp only [Bool.false_and, Bool.false_eq_true, if_false]
    refine (Gives.toCode f (h2 f (by simp)) env).bind fun fa w0 h0 => ?_
    obtain ⟨rfl, hA, hcode⟩ := h0
    refine (Gives.field f (h1 f (by simp)) (h2 f (by simp)) hA (h3 f (by simp) fa hA) env).bind fun v w hv => ?_
    have hca : cacheVars f.attrs ca (env.push v) = ca := by simp [cacheVars, (h1 f (by simp)).variables]
    rw [hca, decFields_old]
    refine (Gives.fields As ca fs (env.push v) (fun f hf => h1 f (by simp [hf])) (fun f hf => h2 f (by simp [hf]))
      (fun f hf => h3 f (by simp [hf]))).map fun vs w' hvs => ?_
    intro pre hpre
    have := Appends.seq hv hvs pre hpre
    unfold encFields
    simp only [Bool.false_and, Bool.false_eq_true, if_false]
    rw [bind_apply, hcode]
    simp only
    rw [encFields_old]
    exact this

theorem decFields_allUsed (fs : List (Field V)) (h : ∀ f ∈ fs, f.attrs.isUse = true) : ∀ (ca : Option CAttr)
    (old : Option FAttr) (env : Env V) (b : Buf),
    decFields true fs ca old env b = decFields false fs ca none env b := fun ca old env b =>
  decFields_noLeak fs ca old env b ⟨List.pairwise_of_forall_mem_list fun f _ g hg _ => h g hg, .inr h⟩

theorem Re.struct (S : StructDef V) (As : Field V → Option FAttr → Prop) (hd : S.withDecode = none)
    (he : S.withEncode = none) (ht : S.tuple = true → ∀ f ∈ S.fields, f.attrs.isUse = true)
    (h1 : ∀ f ∈ S.fields, SameWay f.attrs) (h2 : ∀ f ∈ S.fields, Passes (As f) f)
    (h3 : ∀ f ∈ S.fields, ∀ ca fa, As f fa → Re f.dec f.enc ca fa) (ca : Option CAttr) (fa : Option FAttr) :
    Re (decStruct S) (encStruct S) ca fa := by
  unfold Re decStruct encStruct
  simp only [hd, he]
  have h := Gives.fields As S.container S.fields { vars := localVars S.getVars ca } h1 h2 fun f hf fa => h3 f hf _ fa
  cases hS : S.tuple with
  | false => exact h
  | true => exact h.congr fun b _ => decFields_allUsed S.fields (ht hS) _ _ _ b

/-! ## Enums -/

theorem Re.variant (E : EnumDef V) (As : Field V → Option FAttr → Prop) (v : Variant V)
    (hu : v.attrs.isUse = false ∧ v.attrs.offset = none) (hn : NoLeak none v.fields)
    (h1 : ∀ f ∈ v.fields, SameWay f.attrs) (h2 : ∀ f ∈ v.fields, Passes (As f) f)
    (h3 : ∀ f ∈ v.fields, ∀ ca fa, As f fa → Re f.dec f.enc ca fa) (ca : Option CAttr) (fa : Option FAttr) (i num : Nat)
    (w0 : List Byte) (hw : Appends (encTagMode E v num ca fa) w0) :
    Gives (fun x w => x.1 = i ∧ Appends (encVariant E v num x.2 ca fa) (w0 ++ w))
      (decVariant E.container { vars := localVars E.getVars ca } i v) := by
  have h := Gives.fields As E.container v.fields { vars := localVars E.getVars ca } h1 h2 fun f hf fa => h3 f hf _ fa
  have hd : ∀ b, decFields v.tuple v.fields E.container none { vars := localVars E.getVars ca } b
      = decFields false v.fields E.container none { vars := localVars E.getVars ca } b := by
    intro b
    cases v.tuple with
    | false => rfl
    | true => exact decFields_noLeak _ _ _ _ _ hn
  unfold decVariant
  rw [toCode_unused _ _ hu.1]
  simp only [skipOffset, hu.2]
  show Gives _ (decFields v.tuple v.fields E.container none _ >>= fun vs => (Pure.pure (i, vs) : M (Nat × List V)))
  refine (h.congr fun b _ => hd b).map fun vs w hvs => ⟨rfl, ?_⟩
  have := Appends.seq hw hvs
  intro pre hpre
  unfold encVariant
  rw [toCode_unused _ _ hu.1]
  simp only [padOffset, hu.2, bind_apply, pure_apply, encFields_noLeak _ _ _ _ _ _ hn]
  have := this pre hpre
  simp only [bind_apply, pure_apply] at this
  exact this

theorem Gives.tag (own ca : Option CAttr) (fa : Option FAttr)
    (hf : ∀ fr, fa = some fr → fr.byteCount = none ∨ own.bind (·.byteCount) = none) :
    Gives (fun n w => Appends (encTag own ca fa false n) w) (decTag own ca fa) := by
  have hu8 : Gives (fun n w => Appends (pushU8 (UInt8.ofNat n)) w)
      (JBytes.takeU8 >>= fun x => (Pure.pure x.toNat : M Nat)) := by
    refine Gives.takeU8.map fun x w h => ?_
    rw [h, UInt8.ofNat_toNat]
    exact Appends.pushU8 _
  have huint : ∀ k, Gives (fun n w => Appends (pushUint n k (getByteorder ca fa)) w)
      (JBytes.takeUint k (getByteorder ca fa)) := by
    intro k
    refine (Gives.takeUint _ k).mono fun x w h => ?_
    rw [h.1]
    exact Appends.uint _ _ _ h.2.2
  unfold decTag encTag
  cases fa with
  | none =>
    simp only
    cases own.bind (·.byteCount) with
    | none => exact hu8
    | some k => exact huint k
  | some fr =>
    simp only
    cases hb : fr.branch with
    | some n => exact Gives.pure Appends.pure0
    | none =>
      simp only
      cases hc : fr.byteCount with
      | some k =>
        have ho : own.bind (·.byteCount) = none := by
          rcases hf fr rfl with h | h
          · rw [hc] at h; cases h
          · exact h
        simp only [ho]
        exact huint k
      | none =>
        simp only
        cases own.bind (·.byteCount) with
        | none => exact hu8
        | some k => exact huint k

theorem Numbered.pat {v : Variant V} (h : Numbered v) {cur num n : Nat} (hn : num = v.restart.getD cur)
    (ht : (v.pat num).test (.num n) = true) : num = n := by
  unfold Variant.pat at ht
  simp only [h.dflt, h.bits, h.range, Bool.false_eq_true, if_false] at ht
  cases hv : v.branchValue with
  | none =>
    rw [hv] at ht
    simpa [Pat.test] using ht
  | some t =>
    rw [hv] at ht
    have ht : t = .num n := by simpa [Pat.test] using ht
    subst ht
    rw [hn, Variant.restart]
    rcases h.value n hv with hd | hd
    · simp [hd, h.range, hv]
    · simp [hd]

theorem variantNumbers_restart (vs : List (Variant V)) : ∀ (cur i : Nat) (v : Variant V) (num : Nat),
    (vs.zip (variantNumbers cur vs))[i]? = some (v, num) → ∃ c, num = v.restart.getD c := by
  induction vs with
  | nil => intro cur i v num h; simp [variantNumbers] at h
  | cons u vs ih =>
    intro cur i v num h
    cases i with
    | zero =>
      simp only [variantNumbers, List.zip_cons_cons, List.getElem?_cons_zero, Option.some.injEq, Prod.mk.injEq] at h
      exact ⟨cur, by rw [← h.2, ← h.1]⟩
    | succ i =>
      simp only [variantNumbers, List.zip_cons_cons, List.getElem?_cons_succ] at h
      exact ih _ i v num h

theorem Re.enum (E : EnumDef V) (A : Option FAttr → Prop) (As : Field V → Option FAttr → Prop)
    (hd : E.withDecode = none) (ht : TagsFaithful E A)
    (hu : ∀ v ∈ E.variants, v.attrs.isUse = false ∧ v.attrs.offset = none)
    (hn : ∀ v ∈ E.variants, NoLeak none v.fields)
    (h1 : ∀ v ∈ E.variants, ∀ f ∈ v.fields, SameWay f.attrs) (h2 : ∀ v ∈ E.variants, ∀ f ∈ v.fields, Passes (As f) f)
    (h3 : ∀ v ∈ E.variants, ∀ f ∈ v.fields, ∀ ca fa, As f fa → Re f.dec f.enc ca fa)
    (ca : Option CAttr) (fa : Option FAttr) (hA : A fa) : Re (decEnum E) (encEnum E) ca fa := by
  have body : ∀ (i : Nat) (v : Variant V) (num : Nat), (E.variants.zip E.numbers)[i]? = some (v, num) →
      ∀ w0, Appends (encTagMode E v num ca fa) w0 →
      Gives (fun x w => Appends (encEnum E x ca fa) (w0 ++ w))
        (decVariant E.container { vars := localVars E.getVars ca } i v) := by
    intro i v num hi w0 hw
    have hv : v ∈ E.variants := (List.of_mem_zip (List.mem_of_getElem? hi)).1
    refine (Re.variant E As v (hu v hv) (hn v hv) (h1 v hv) (h2 v hv) (h3 v hv) ca fa i num w0 hw).mono ?_
    intro x w hx
    unfold encEnum
    rw [hx.1, hi]
    exact hx.2
  have arm : ∀ (t : Tag) (w0 : List Byte), (∀ v num, v ∈ E.variants → (∃ c, num = v.restart.getD c) →
        (v.pat num).test t = true → Appends (encTagMode E v num ca fa) w0) →
      Gives (fun x w => Appends (encEnum E x ca fa) (w0 ++ w)) (decArm E { vars := localVars E.getVars ca } t) := by
    intro t w0 htag
    unfold decArm
    cases hf : findArm t 0 (E.variants.zip E.numbers) with
    | none => exact Gives.fail
    | some p =>
      obtain ⟨i, v⟩ := p
      obtain ⟨j, n, rfl, hj, htest, _⟩ := (findArm_some t _ 0 i v).mp hf
      simp only [Nat.zero_add]
      exact body j v n hj w0 (htag v n (List.of_mem_zip (List.mem_of_getElem? hj)).1
        (variantNumbers_restart E.variants 0 j v n hj) htest)
  unfold Re decEnum
  simp only [hd]
  unfold TagsFaithful at ht
  cases hm : E.mode with
  | uint =>
    rw [hm] at ht
    obtain ⟨t1, t2, t3⟩ := ht
    simp only
    refine (Gives.tag E.container ca fa fun fr hfr => t3 fr (hfr ▸ hA)).bind fun n w hw => ?_
    refine arm (.num n) w fun v num hv ⟨c, hc⟩ htest => ?_
    have := (t2 v hv).pat hc htest
    subst this
    simp only [encTagMode, hm, t1]
    exact hw
  | takeBytes k =>
    rw [hm] at ht
    simp only at ht ⊢
    refine (Gives.takeBytes k).bind fun x w hw => ?_
    obtain ⟨rfl, _⟩ := hw
    refine arm (.bytes w) w fun v num hv _ htest => ?_
    simp only [encTagMode, hm]
    have : v.word = w := by
      unfold Variant.pat at htest
      unfold Variant.word
      simp only [ht v hv, Bool.false_eq_true, if_false] at htest
      split at htest
      · simp [Pat.test] at htest
      · simp [Pat.test] at htest
      · split at htest
        · next t' heq =>
          simp only [Pat.test, beq_iff_eq] at htest
          subst htest
          simp [heq]
        · split at htest <;> simp [Pat.test] at htest
    rw [this]
    exact Appends.push w
  | startsWith u =>
    rw [hm] at ht
    simp only at ht ⊢
    intro b hb x b' he
    rw [bind_apply, remaining_apply'] at he
    simp only at he
    cases hf : findWord (b.data.drop b.pos) 0 E.variants with
    | none => rw [hf] at he; simp [fail_apply] at he
    | some p =>
      obtain ⟨i, v⟩ := p
      rw [hf] at he
      simp only at he
      obtain ⟨j, rfl, hj, hw, _⟩ := (findWord_some _ _ 0 i v).mp hf
      rw [Nat.zero_add] at he
      have hz : ∃ num, (E.variants.zip E.numbers)[j]? = some (v, num) := by
        have hlt : j < E.variants.length := (List.getElem?_eq_some_iff.mp hj).1
        have hl : j < E.numbers.length := by rw [EnumDef.numbers, variantNumbers_length]; exact hlt
        exact ⟨E.numbers[j], List.getElem?_zip_eq_some.mpr ⟨hj, List.getElem?_eq_getElem hl⟩⟩
      obtain ⟨num, hz⟩ := hz
      cases u with
      | true =>
        simp only [Bool.true_or, if_true] at he
        exact (body j v num hz [] (by simp only [encTagMode, hm]; exact Appends.pure0)) b hb x b' he
      | false =>
        have hdf : v.branchDefault = false := by
          rcases ht with h | h
          · cases h
          · exact h v (List.mem_of_getElem? hj)
        simp only [hdf, Bool.false_or, Bool.false_eq_true, if_false] at he hw
        rw [bind_apply, advance_apply] at he
        simp only at he
        have hpre := List.isPrefixOf_iff_prefix.mp hw
        have hlen := hpre.length_le
        rw [List.length_drop] at hlen
        have hb1 := hb.1
        have hb2 := hb.2
        have h3 := isizeMax_lt
        rw [wadd_eq (by omega)] at he
        have g := (body j v num hz v.word (by simp only [encTagMode, hm]; exact Appends.push _))
          ⟨b.data, b.pos + v.word.length⟩ ⟨by simp only; omega, hb2⟩ x b' he
        simp only at g
        obtain ⟨g1, g2, g3, g4⟩ := g
        refine ⟨g1, by omega, g3, ?_⟩
        rw [← window_split b.data (q := b.pos + v.word.length) (by omega) g2, Nat.add_sub_cancel_left,
          ← List.prefix_iff_eq_take.mp hpre]
        exact g4

/-- The induction. -/
theorem Faithful.re {A : Option FAttr → Prop} {d : Dec α} {e : Enc α} (h : Faithful A α d e) :
    ∀ ca fa, A fa → Re d e ca fa := by
  induction h with
  | stop => exact fun ca fa _ b _ v b' h => by cases h
  | int k hk hb => exact fun ca fa hA => Re.int k hk ca fa fun fr hfr => hb fr (hfr ▸ hA)
  | f32 => exact fun ca fa _ => Re.f32 ca fa
  | f64 => exact fun ca fa _ => Re.f64 ca fa
  | char => exact fun ca fa _ => Re.char ca fa
  | bytes hf => exact fun ca fa hA => Re.bytes ca fa fun fr hfr => hf fr (hfr ▸ hA)
  | str hf => exact fun ca fa hA => Re.str ca fa fun fr hfr => hf fr (hfr ▸ hA)
  | ipv4 => exact fun ca fa _ => Re.ipv4 ca fa
  | ipv6 => exact fun ca fa _ => Re.ipv6 ca fa
  | ip => exact fun ca fa _ => Re.ip ca fa
  | mac => exact fun ca fa _ => Re.mac ca fa
  | net hb => exact fun ca fa hA => Re.net ca fa fun fr hfr => hb fr (hfr ▸ hA)
  | unit => exact fun ca fa _ => Gives.pure Appends.pure0
  | vec fuel hf _ ih => exact fun ca fa hA => Re.vec (ih ca fa hA) fuel fun fr hfr => hf fr (hfr ▸ hA)
  | array k _ ih => exact fun ca fa hA => Re.array (ih ca fa hA) k
  | tuple cs _ ih => exact fun ca fa hA => Re.tuple ca fa cs fun c hc => ih c hc ca fa hA
  | option hr _ ih => exact fun ca fa hA => Re.option (ih ca fa hA) (hr ca fa hA)
  | inject f g hg _ ih => exact fun ca fa hA => Re.inject (ih ca fa hA) f g hg
  | struct S As hd he ht h1 h2 _ ih => exact fun ca fa _ => Re.struct S As hd he ht h1 h2 ih ca fa
  | enum E As hd ht hu hn h1 h2 _ ih => exact fun ca fa hA => Re.enum E _ As hd ht hu hn h1 h2 ih ca fa hA

/-- Faithful under fewer modifiers. -/
theorem Faithful.mono {A : Option FAttr → Prop} {d : Dec α} {e : Enc α} (h : Faithful A α d e) :
    ∀ {B : Option FAttr → Prop}, (∀ fa, B fa → A fa) → Faithful B α d e := by
  induction h with
  | stop => exact fun _ => .stop
  | int k hk hb => exact fun hB => .int k hk fun fr h => hb fr (hB _ h)
  | f32 => exact fun _ => .f32
  | f64 => exact fun _ => .f64
  | char => exact fun _ => .char
  | bytes h => exact fun hB => .bytes fun fr hf => h fr (hB _ hf)
  | str h => exact fun hB => .str fun fr hf => h fr (hB _ hf)
  | ipv4 => exact fun _ => .ipv4
  | ipv6 => exact fun _ => .ipv6
  | ip => exact fun _ => .ip
  | mac => exact fun _ => .mac
  | net h => exact fun hB => .net fun fr hf => h fr (hB _ hf)
  | unit => exact fun _ => .unit
  | vec fuel h _ ih => exact fun hB => .vec fuel (fun fr hf => h fr (hB _ hf)) (ih hB)
  | array k _ ih => exact fun hB => .array k (ih hB)
  | tuple cs _ ih => exact fun hB => .tuple cs fun c hc => ih c hc hB
  | option h _ ih => exact fun hB => .option (fun ca fa hf => h ca fa (hB _ hf)) (ih hB)
  | inject f g hg _ ih => exact fun hB => .inject f g hg (ih hB)
  | struct S As h1 h2 h3 h4 h5 h6 _ => exact fun _ => .struct S As h1 h2 h3 h4 h5 h6
  | enum E As h1 h2 h3 h4 h5 h6 h7 _ =>
    intro B hB
    refine .enum E As h1 ?_ h3 h4 h5 h6 h7
    unfold TagsFaithful at h2 ⊢
    cases hm : E.mode with
    | uint =>
      rw [hm] at h2
      exact ⟨h2.1, h2.2.1, fun fr hf => h2.2.2 fr (hB _ hf)⟩
    | _ => rw [hm] at h2; exact h2

end JBytes
