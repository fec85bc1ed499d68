import Verif.PropWord32
/-!
# C94, integers with any modifiers
-/

namespace JBytes
open M

/-- A member of a bit-field group that is not the first. -/
def Rejoins (fa : Option FAttr) : Prop := ∃ fr m, fa = some fr ∧ fr.bits = some m ∧ fr.bitsStart = false

/-- **C94**, `usize` and `isize` read: on a 32-bit platform they are read as `u32` and `i32` are on a 64-bit platform,
whatever the modifiers. -/
theorem C94_usize_decode (signed : Bool) (ca : Option CAttr) (fa : Option FAttr) (b : Buf) (hb : b.Small) :
    io32.decUsize signed ca fa b = decInt ⟨4, signed⟩ ca fa b := by
  have e : io32.decUsize signed ca fa b = io32.decInt ⟨4, signed⟩ ca fa b := by
    cases signed <;> rfl
  rw [e]
  rcases io32_lawful.decInt ⟨4, signed⟩ ca fa b b ⟨rfl, hb⟩ with ⟨h, _⟩ | ⟨h1, h2, _⟩
  · exact h.elim
  · exact Prod.ext h1 h2

theorem takeN32_short (o : ByteOrder) (n : Nat) (hn : 0 < n) (b : Buf) (hp : b.data.length < b.pos) :
    takeN32 o 8 n b = ((if o = .le ∧ 8 < n then .panic else .err ⟨b.pos, .invalidByteLength⟩), b) ∧
      takeUint n o b = ((if o = .le ∧ 8 < n then .panic else .err ⟨b.pos, .invalidByteLength⟩), b) := by
  have e1 : takeBytes32 n b = (.err ⟨b.pos, .invalidByteLength⟩, b) := by
    unfold takeBytes32
    rw [bind_apply, remainingLen_apply]
    show (if b.data.length - b.pos < n then _ else _ : M (List Byte)) b = _
    rw [if_pos (by omega)]
    rfl
  have e2 : takeBytes n b = (.err ⟨b.pos, .invalidByteLength⟩, b) := by
    unfold takeBytes
    rw [bind_apply, remainingLen_apply]
    show (if b.data.length - b.pos < n then _ else _ : M (List Byte)) b = _
    rw [if_pos (by omega)]
    rfl
  unfold takeUint takeN32 takeN takeBeN takeLeN
  cases o
  · dsimp only
    by_cases h : n ≤ 8
    · rw [if_pos h, if_pos h, bind_apply, bind_apply, e1, e2]
      simp
    · rw [if_neg h, if_neg h]
      simp [M.fail]
  · dsimp only
    by_cases h : n ≤ 8
    · rw [if_pos h, if_pos h, bind_apply, bind_apply, e1, e2]
      have : ¬ 8 < n := by omega
      simp [this]
    · rw [if_neg h, if_neg h]
      have : 8 < n := by omega
      rw [if_pos ⟨rfl, this⟩]
      exact ⟨rfl, rfl⟩

theorem encBits32_rejoin (k : IntKind) (v : Nat) (o : ByteOrder) (fr : FAttr) (m : Nat) (hm : fr.bits = some m)
    (hs : fr.bitsStart = false) (b : Buf) :
    io32.encBits k v o (some fr) b = (takeN32 o 8 k.size >>= fun prev => getPos >>= fun p => setPos (sub32 p k.size) >>= fun _ =>
      (Pure.pure (bitsShl k (8 * k.size) v (fromU64 k m) ||| fromU64 k prev) : M Nat)) ⟨b.data, sub32 b.pos k.size⟩ := by
  unfold Io.encBits
  simp only [hm, hs, Bool.false_eq_true, if_false]
  show @Bind.bind (MS Buf) _ Nat Nat (takeN32 o 8 k.size) (fun prev => @Bind.bind (MS Buf) _ Nat Nat M.getPos fun p =>
    @Bind.bind (MS Buf) _ Unit Nat (M.setPos (sub32 p k.size)) fun _ =>
      (Pure.pure (bitsShl k (8 * k.size) v (fromU64 k m) ||| fromU64 k prev) : MS Buf Nat)) ⟨b.data, sub32 b.pos k.size⟩ = _
  refine (MS.bind_apply _ _ _).trans ?_
  rw [bind_apply]
  rcases takeN32 o 8 k.size ⟨b.data, sub32 b.pos k.size⟩ with ⟨r, b'⟩
  cases r <;> rfl

theorem encBits64_rejoin (k : IntKind) (v : Nat) (o : ByteOrder) (fr : FAttr) (m : Nat) (hm : fr.bits = some m)
    (hs : fr.bitsStart = false) (b : Buf) :
    encBits k v o (some fr) b = (takeUint k.size o >>= fun prev => getPos >>= fun p => setPos (wsub p k.size) >>= fun _ =>
      (Pure.pure (bitsShl k (8 * k.size) v (fromU64 k m) ||| fromU64 k prev) : M Nat)) ⟨b.data, wsub b.pos k.size⟩ := by
  unfold encBits
  simp only [hm, hs]
  rfl

theorem encBits_plain (k : IntKind) (v : Nat) (o : ByteOrder) (fa : Option FAttr) (h : ¬ Rejoins fa) :
    ∃ w, ∀ b, io32.encBits k v o fa b = (.ok w, b) ∧ encBits k v o fa b = (.ok w, b) := by
  unfold Io.encBits encBits
  cases fa with
  | none => exact ⟨v, fun b => ⟨rfl, rfl⟩⟩
  | some fr =>
    dsimp only
    cases hm : fr.bits with
    | none => exact ⟨v, fun b => ⟨rfl, rfl⟩⟩
    | some m =>
      cases hs : fr.bitsStart with
      | true => exact ⟨_, fun b => ⟨rfl, rfl⟩⟩
      | false => exact absurd ⟨fr, m, rfl, hm, hs⟩ h

theorem encBits_rejoin_same (k : IntKind) (v : Nat) (o : ByteOrder) (fr : FAttr) (m : Nat) (hm : fr.bits = some m)
    (hs : fr.bitsStart = false) (b : Buf) (hb : b.Ok32) (h : k.size ≤ b.pos) :
    io32.encBits k v o (some fr) b = encBits k v o (some fr) b ∧
      (encBits k v o (some fr) b).2 = ⟨b.data, b.pos - k.size⟩ := by
  rw [encBits32_rejoin k v o fr m hm hs, encBits64_rejoin k v o fr m hm hs, sub32_eq h, show wsub b.pos k.size = b.pos - k.size from if_pos h]
  have hb1 : Buf.Ok32 ⟨b.data, b.pos - k.size⟩ := ⟨by have := hb.1; show b.pos - k.size ≤ b.data.length; omega, hb.2⟩
  rw [bind_apply, bind_apply, (takeN32_same o 8 k.size _ hb1.small).1, show takeN o 8 k.size = takeUint k.size o from rfl]
  by_cases h8 : k.size ≤ 8
  · have e : takeUint k.size o ⟨b.data, b.pos - k.size⟩ =
        (.ok (fromBytes o ((b.data.drop (b.pos - k.size)).take k.size)), ⟨b.data, b.pos⟩) := by
      show takeN o 8 k.size _ = _
      have := hb.1
      rw [takeN_apply o 8 k.size h8, mapM'_apply, takeBytes_apply k.size _ hb1.ok, if_neg (by show ¬ b.data.length - (b.pos - k.size) < k.size; omega)]
      show (_, (⟨b.data, b.pos - k.size + k.size⟩ : Buf)) = _
      rw [Nat.sub_add_cancel h]
    rw [e]
    show (_, (⟨b.data, sub32 b.pos k.size⟩ : Buf)) = (_, (⟨b.data, wsub b.pos k.size⟩ : Buf)) ∧ (⟨b.data, wsub b.pos k.size⟩ : Buf) = _
    rw [sub32_eq h, show wsub b.pos k.size = b.pos - k.size from if_pos h]
    exact ⟨rfl, rfl⟩
  · have e : ∃ r, takeUint k.size o ⟨b.data, b.pos - k.size⟩ = (r, ⟨b.data, b.pos - k.size⟩) ∧ ∀ a, r ≠ .ok a := by
      unfold takeUint takeN takeBeN takeLeN
      cases o
      · dsimp only
        rw [if_neg h8]
        exact ⟨_, rfl, fun _ => (by intro h; cases h)⟩
      · dsimp only
        rw [if_neg h8]
        exact ⟨_, rfl, fun _ => (by intro h; cases h)⟩
    obtain ⟨r, e, hr⟩ := e
    rw [e]
    cases r with
    | ok a => exact absurd rfl (hr a)
    | err _ => exact ⟨rfl, rfl⟩
    | panic => exact ⟨rfl, rfl⟩
    | timeout => exact ⟨rfl, rfl⟩

/-- Writing the word of an integer. -/
theorem word32 (k : IntKind) (w : Nat) (o : ByteOrder) (len : Option Nat) (b : Buf) (hb : b.Ok32) (hf : b.pos + 16 ≤ max32) :
    (match len with
      | some n => if k.size < n then io32.fail .invalidByteLength else io32.pushUint (asU64 k w) n o
      | none => io32.pushScalar k.scalar w o : MS Buf Nat) b =
    (match len with
      | some n => if k.size < n then M.fail .invalidByteLength else pushUint (asU64 k w) n o
      | none => pushScalar k.scalar w o : M Nat) b := by
  cases len with
  | none =>
    show (WriteOp.scalar k.scalar w o).run32 b = (WriteOp.scalar k.scalar w o).run b
    exact (C94_write (.scalar k.scalar w o) (fun _ _ _ e => by cases e; exact k.scalar_fixed) b hb).2 fun d hd => by
      have := payload_scalar hd
      omega
  | some n =>
    dsimp only
    split
    · rfl
    · show (WriteOp.uint (asU64 k w) n o).run32 b = (WriteOp.uint (asU64 k w) n o).run b
      exact (C94_write (.uint (asU64 k w) n o) (fun _ _ _ e => by cases e) b hb).2 fun d hd => by
        have := payload_uint hd
        omega

/-- **C94**, integers written: with any modifiers, an integer is written alike on both platforms if there is memory, and
if a later member of a bit-field group has its word before it. -/
theorem C94_int_encode (k : IntKind) (v : Nat) (ca : Option CAttr) (fa : Option FAttr) (b : Buf) (hb : b.Ok32)
    (hf : b.pos + 16 ≤ max32) (hr : Rejoins fa → k.size ≤ b.pos) :
    io32.encInt k v ca fa b = encInt k v ca fa b := by
  show @Bind.bind (MS Buf) _ Nat Nat (io32.encBits k v (getByteorder ca fa) fa) (fun w => match fa.bind (·.length) with
      | some n => if k.size < n then io32.fail .invalidByteLength else io32.pushUint (asU64 k w) n (getByteorder ca fa)
      | none => io32.pushScalar k.scalar w (getByteorder ca fa)) b =
    (encBits k v (getByteorder ca fa) fa >>= fun w => match fa.bind (·.length) with
      | some n => if k.size < n then M.fail .invalidByteLength else pushUint (asU64 k w) n (getByteorder ca fa)
      | none => pushScalar k.scalar w (getByteorder ca fa)) b
  refine (MS.bind_apply _ _ _).trans ?_
  rw [bind_apply]
  have key : io32.encBits k v (getByteorder ca fa) fa b = encBits k v (getByteorder ca fa) fa b ∧
      ((encBits k v (getByteorder ca fa) fa b).2 = b ∨
        (encBits k v (getByteorder ca fa) fa b).2 = ⟨b.data, b.pos - k.size⟩) := by
    by_cases h : Rejoins fa
    · obtain ⟨fr, m, rfl, hm, hs⟩ := h
      have := encBits_rejoin_same k v (getByteorder ca (some fr)) fr m hm hs b hb (hr ⟨fr, m, rfl, hm, hs⟩)
      exact ⟨this.1, .inr this.2⟩
    · obtain ⟨w, hw⟩ := encBits_plain k v (getByteorder ca fa) fa h
      rw [(hw b).1, (hw b).2]
      exact ⟨rfl, .inl rfl⟩
  rw [key.1]
  have hk := key.2
  generalize encBits k v (getByteorder ca fa) fa b = x at hk ⊢
  obtain ⟨r, b'⟩ := x
  dsimp only at hk
  have hb' : b'.Ok32 ∧ b'.pos + 16 ≤ max32 := by
    rcases hk with rfl | rfl
    · exact ⟨hb, hf⟩
    · have := hb.1
      exact ⟨⟨by show b.pos - k.size ≤ b.data.length; omega, hb.2⟩, by show b.pos - k.size + 16 ≤ max32; omega⟩
  cases r with
  | ok w => exact word32 k w _ _ b' hb'.1 hb'.2
  | err _ => rfl
  | panic => rfl
  | timeout => rfl

/-- C94: a later member of a bit-field group without its word before it is refused on both platforms (but for 128-bit
members in little-endian, where both panic), at positions that differ. -/
theorem C94_int_iff (k : IntKind) (v : Nat) (ca : Option CAttr) (fa : Option FAttr) (b : Buf) (hb : b.Ok32)
    (hk : k.size ≤ 16) (hf : b.pos + 16 ≤ max32) :
    (io32.encInt k v ca fa b = encInt k v ca fa b ↔ (Rejoins fa → k.size ≤ b.pos)) ∧
    (Rejoins fa → b.pos < k.size → ¬ (getByteorder ca fa = .le ∧ 8 < k.size) →
      io32.encInt k v ca fa b = (.err ⟨mod32 - (k.size - b.pos), .invalidByteLength⟩, ⟨b.data, mod32 - (k.size - b.pos)⟩) ∧
      encInt k v ca fa b = (.err ⟨usizeMod - (k.size - b.pos), .invalidByteLength⟩, ⟨b.data, usizeMod - (k.size - b.pos)⟩)) := by
  have h3 := usize_large
  have h5 := max32_twice
  have hlen := hb.2
  have h16 : 16 < max32 := by decide
  have bad : Rejoins fa → b.pos < k.size →
      io32.encInt k v ca fa b = ((if getByteorder ca fa = .le ∧ 8 < k.size then .panic else
        .err ⟨mod32 - (k.size - b.pos), .invalidByteLength⟩), ⟨b.data, mod32 - (k.size - b.pos)⟩) ∧
      encInt k v ca fa b = ((if getByteorder ca fa = .le ∧ 8 < k.size then .panic else
        .err ⟨usizeMod - (k.size - b.pos), .invalidByteLength⟩), ⟨b.data, usizeMod - (k.size - b.pos)⟩) := by
    rintro ⟨fr, m, rfl, hm, hs⟩ hlt
    have e1 : sub32 b.pos k.size = mod32 - (k.size - b.pos) := by
      unfold sub32
      rw [if_neg (by omega)]
      omega
    have e2 : wsub b.pos k.size = usizeMod - (k.size - b.pos) := by
      unfold wsub
      rw [if_neg (by omega)]
      omega
    constructor
    · show @Bind.bind (MS Buf) _ Nat Nat (io32.encBits k v (getByteorder ca (some fr)) (some fr)) _ b = _
      refine (MS.bind_apply _ _ _).trans ?_
      rw [encBits32_rejoin k v _ fr m hm hs, bind_apply, e1,
        (takeN32_short _ k.size (by omega) ⟨b.data, mod32 - (k.size - b.pos)⟩ (by show b.data.length < mod32 - (k.size - b.pos); omega)).1]
      by_cases hc : getByteorder ca (some fr) = .le ∧ 8 < k.size
      · simp only [if_pos hc]
      · simp only [if_neg hc]
    · show (encBits k v (getByteorder ca (some fr)) (some fr) >>= _) b = _
      rw [bind_apply, encBits64_rejoin k v _ fr m hm hs, bind_apply, e2,
        (takeN32_short _ k.size (by omega) ⟨b.data, usizeMod - (k.size - b.pos)⟩ (by show b.data.length < usizeMod - (k.size - b.pos); omega)).2]
      by_cases hc : getByteorder ca (some fr) = .le ∧ 8 < k.size
      · simp only [if_pos hc]
      · simp only [if_neg hc]
  refine ⟨⟨fun he hr => ?_, fun h => C94_int_encode k v ca fa b hb hf h⟩, fun hr hlt hc => ?_⟩
  · refine Nat.le_of_not_lt fun hlt => ?_
    obtain ⟨e1, e2⟩ := bad hr hlt
    rw [e1, e2] at he
    have := congrArg (fun x => x.2.pos) he
    have : mod32 - (k.size - b.pos) = usizeMod - (k.size - b.pos) := this
    omega
  · have := bad hr hlt
    rw [if_neg hc, if_neg hc] at this
    exact this

/-- **C94**, `usize` and `isize` written: on a 32-bit platform they are written as `u32` and `i32` are on a 64-bit
platform, whatever the modifiers. -/
theorem C94_usize_encode (signed : Bool) (v : Nat) (ca : Option CAttr) (fa : Option FAttr) (b : Buf) (hb : b.Ok32)
    (hf : b.pos + 16 ≤ max32) (hr : Rejoins fa → 4 ≤ b.pos) :
    io32.encUsize signed v ca fa b = encInt ⟨4, signed⟩ v ca fa b := by
  have e : io32.encUsize signed v ca fa b = io32.encInt ⟨4, signed⟩ v ca fa b := by
    cases signed <;> rfl
  rw [e]
  exact C94_int_encode ⟨4, signed⟩ v ca fa b hb hf hr

/-- The second member of a group of two, in a `usize` on a 32-bit platform. -/
example : io32.encUsize false 5 none (some { bits := some 15 }) ⟨[7, 0, 0, 0, 48], 5⟩ =
      (.ok 4, ⟨[7, 0, 0, 0, 53], 5⟩) ∧
    io32.decUsize false none (some { bits := some 240 }) ⟨[7, 0, 0, 0, 53], 1⟩ = (.ok 3, ⟨[7, 0, 0, 0, 53], 5⟩) ∧
    Rejoins (some { bits := some 15 }) := by
  refine ⟨by decide +kernel, by decide +kernel, ?_⟩
  exact ⟨_, _, rfl, rfl, rfl⟩

/-- Without the first member. -/
example : io32.encInt ⟨2, false⟩ 5 none (some { bits := some 15 }) ⟨[7], 1⟩ =
      (.err ⟨4294967295, .invalidByteLength⟩, ⟨[7], 4294967295⟩) ∧
    encInt ⟨2, false⟩ 5 none (some { bits := some 15 }) ⟨[7], 1⟩ =
      (.err ⟨18446744073709551615, .invalidByteLength⟩, ⟨[7], 18446744073709551615⟩) := by
  have := (C94_int_iff ⟨2, false⟩ 5 none (some { bits := some 15 }) ⟨[7], 1⟩ ⟨by decide, by decide⟩ (by decide) (by decide)).2
    ⟨_, _, rfl, rfl, rfl⟩ (by decide) (by decide)
  rw [usizeMod_def] at this
  exact this

end JBytes
