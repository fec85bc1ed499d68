import Verif.WriteLemmas
import Verif.PropRead
/-!
# Properties of the writing primitives: C06-C08, C12-C14
-/

namespace JBytes
open M

/-! ## C06, C07: write then read -/

/-- C06: writing a scalar and reading it back, at any position of any buffer, whatever follows. -/
theorem C06_scalar_roundtrip (s : Scalar) (o : ByteOrder) (v : Nat) (hv : v < 256 ^ s.width)
    (b : Buf) (hs : b.pos + s.width ≤ isizeMax) (hd : b.data.length ≤ isizeMax) :
    ∃ data', pushScalar s v o b = (.ok s.width, ⟨data', b.pos + s.width⟩) ∧
      takeScalar s o ⟨data', b.pos⟩ = (.ok v, ⟨data', b.pos + s.width⟩) := by
  rw [← s.size_eq_width] at *
  have hpos : 0 < s.size := by cases s <;> simp [Scalar.size]
  have hne : toBytes o s.size v ≠ [] := by
    intro h
    have := congrArg List.length h
    simp at this
    omega
  have h := push_apply (toBytes o s.size v) b (by simpa using hs) (.inl hne)
  rw [toBytes_length] at h
  refine ⟨_, by rw [pushScalar_eq]; exact h, ?_⟩
  obtain ⟨pre, e, hp⟩ := writeAt_split b.data (toBytes o s.size v) b.pos
  have hl := writeAt_length b.data (toBytes o s.size v) b.pos (.inl hne)
  rw [toBytes_length] at hl
  have hok : (⟨writeAt b.data b.pos (toBytes o s.size v), b.pos⟩ : Buf).Ok := by
    refine ⟨?_, ?_⟩ <;> simp only [hl] <;> omega
  rw [takeScalar_eq_fixed s o _ hok]
  show mapM' (fromBytes o) (takeBytes s.size) _ = _
  have hr := read_back pre (toBytes o s.size v) (b.data.drop (b.pos + (toBytes o s.size v).length)) b.pos
    hp.symm (by rw [← e]; exact hok.2)
  rw [← e, toBytes_length] at hr
  rw [mapM'_apply, hr]
  simp only [fromBytes_toBytes, Nat.mod_eq_of_lt hv]

theorem roundtrip_bytes (d : List Byte) (hne : d ≠ []) (b : Buf) (hs : b.pos + d.length ≤ isizeMax)
    (hd : b.data.length ≤ isizeMax) :
    ∃ data', push d b = (.ok d.length, ⟨data', b.pos + d.length⟩) ∧
      (⟨data', b.pos⟩ : Buf).Ok ∧
      takeBytes d.length ⟨data', b.pos⟩ = (.ok d, ⟨data', b.pos + d.length⟩) := by
  have h := push_apply d b hs (.inl hne)
  refine ⟨_, h, ?_, ?_⟩
  · have hl := writeAt_length b.data d b.pos (.inl hne)
    refine ⟨?_, ?_⟩ <;> simp only [hl] <;> omega
  · obtain ⟨pre, e, hp⟩ := writeAt_split b.data d b.pos
    have hl := writeAt_length b.data d b.pos (.inl hne)
    have := read_back pre d (b.data.drop (b.pos + d.length)) b.pos hp.symm (by rw [← e, hl]; omega)
    rwa [← e] at this

/-- C06 for booleans, chars below U+0100 and 3-byte integers. -/
theorem C06_small_roundtrip (b : Buf) (hs : b.pos + 3 ≤ isizeMax) (hd : b.data.length ≤ isizeMax) :
    (∀ v : Bool, ∃ data', pushBool v b = (.ok 1, ⟨data', b.pos + 1⟩) ∧
      takeBool ⟨data', b.pos⟩ = (.ok v, ⟨data', b.pos + 1⟩)) ∧
    (∀ c : Nat, c < 256 → ∃ data', pushChar c b = (.ok 1, ⟨data', b.pos + 1⟩) ∧
      takeChar ⟨data', b.pos⟩ = (.ok c, ⟨data', b.pos + 1⟩)) ∧
    (∀ (o : ByteOrder) (v : Nat), v < 2 ^ 24 → ∃ data', pushU24 v o b = (.ok 3, ⟨data', b.pos + 3⟩) ∧
      takeU24 o ⟨data', b.pos⟩ = (.ok v, ⟨data', b.pos + 3⟩)) := by
  refine ⟨?_, ?_, ?_⟩
  · intro v
    obtain ⟨data', h1, hok, h2⟩ := roundtrip_bytes [if v then 1 else 0] (by simp) b (by simp; omega) hd
    refine ⟨data', h1, ?_⟩
    rw [takeBool_apply _ hok, mapM'_apply]
    unfold takeU8
    rw [bind_apply]
    simp only [List.length_singleton] at h2
    rw [h2]
    cases v <;> rfl
  · intro c hc
    obtain ⟨data', h1, hok, h2⟩ := roundtrip_bytes [UInt8.ofNat c] (by simp) b (by simp; omega) hd
    refine ⟨data', h1, ?_⟩
    rw [takeChar_apply _ hok, mapM'_apply]
    unfold takeU8
    rw [bind_apply]
    simp only [List.length_singleton] at h2
    rw [h2]
    simp only [index0, mpure_apply, byte_toNat_ofNat, Nat.mod_eq_of_lt hc]
  · intro o v hv
    have hne : toBytes o 3 v ≠ [] := by
      intro h
      have := congrArg List.length h
      simp at this
    obtain ⟨data', h1, hok, h2⟩ := roundtrip_bytes (toBytes o 3 v) hne b (by simp; omega) hd
    rw [toBytes_length] at h1 h2
    refine ⟨data', by rw [pushU24_eq]; exact h1, ?_⟩
    show takeN o 4 3 _ = _
    rw [takeN_apply o 4 3 (by omega), mapM'_apply, h2]
    simp only [fromBytes_toBytes]
    rw [Nat.mod_eq_of_lt (by omega)]

/-- Chars above U+00FF are truncated, so the restriction in C06 cannot be dropped. -/
theorem C06_wide_char_truncated : ∃ c : Nat, c < 0x110000 ∧
    takeChar ⟨(pushChar c ⟨[], 0⟩).2.data, 0⟩ ≠ (.ok c, ⟨(pushChar c ⟨[], 0⟩).2.data, 1⟩) :=
  ⟨0x141, by decide +kernel⟩

example : pushScalar .i16 0xFFFE .le ⟨[7, 7], 1⟩ = (.ok 2, ⟨[7, 0xFE, 0xFF], 3⟩) ∧
    takeScalar .i16 .le ⟨[7, 0xFE, 0xFF], 1⟩ = (.ok 0xFFFE, ⟨[7, 0xFE, 0xFF], 3⟩) := by decide +kernel

/-- C07, unsigned: the value read back is the value written modulo `256^n`. -/
theorem C07_uint_roundtrip (o : ByteOrder) (v n : Nat) (h0 : 0 < n) (hn : n ≤ 8)
    (b : Buf) (hs : b.pos + n ≤ isizeMax) (hd : b.data.length ≤ isizeMax) :
    ∃ data', pushUint v n o b = (.ok n, ⟨data', b.pos + n⟩) ∧
      takeUint n o ⟨data', b.pos⟩ = (.ok (v % 256 ^ n), ⟨data', b.pos + n⟩) := by
  have hne : toBytes o n v ≠ [] := by
    intro h
    have := congrArg List.length h
    simp at this
    omega
  obtain ⟨data', h1, hok, h2⟩ := roundtrip_bytes (toBytes o n v) hne b (by simpa using hs) hd
  rw [toBytes_length] at h1 h2
  refine ⟨data', by rw [pushUint_eq v n o hn]; exact h1, ?_⟩
  show takeN o 8 n _ = _
  rw [takeN_apply o 8 n hn, mapM'_apply, h2]
  simp only [fromBytes_toBytes]

/-- C07, widths above 8 are refused without writing. -/
theorem C07_wide_refused (o : ByteOrder) (v n : Nat) (hn : 8 < n) (b : Buf) :
    pushUint v n o b = (.err ⟨b.pos, .invalidByteLength⟩, b) := pushUint_wide v n o hn b

/-- The `i64` written by `push_int` and read by `take_int` as mathematical integers. -/
def i64 : IntKind := ⟨8, true⟩

/-- C07, signed: a non-negative value that fits comes back.  Missing from the full statement: negative
values in widths below 8, which come back positive (`C07_int_violated`). -/
theorem C07_int_roundtrip_partial (o : ByteOrder) (i : Int) (n : Nat) (h0 : 0 < n) (hn : n ≤ 8)
    (hi : 0 ≤ i) (hf : 2 * i < 256 ^ n)
    (b : Buf) (hs : b.pos + n ≤ isizeMax) (hd : b.data.length ≤ isizeMax) :
    ∃ data' w, pushUint (i64.ofInt i) n o b = (.ok n, ⟨data', b.pos + n⟩) ∧
      takeUint n o ⟨data', b.pos⟩ = (.ok w, ⟨data', b.pos + n⟩) ∧ i64.toInt w = i := by
  obtain ⟨data', h1, h2⟩ := C07_uint_roundtrip o (i64.ofInt i) n h0 hn b hs hd
  refine ⟨data', _, h1, h2, ?_⟩
  have hpow : (256 : Nat) ^ n ≤ 256 ^ 8 := Nat.pow_le_pow_right (by omega) hn
  obtain ⟨k, rfl⟩ := Int.eq_ofNat_of_zero_le hi
  have hk : 2 * k < 256 ^ n := by
    have h : ((2 * k : Nat) : Int) < ((256 ^ n : Nat) : Int) := by
      rw [Int.natCast_mul, Int.natCast_pow]
      exact hf
    exact Int.ofNat_lt.mp h
  have hmod : modulus i64.size = 256 ^ 8 := rfl
  have e1 : i64.ofInt (k : Int) = k := by
    rw [IntKind.ofInt_natCast, hmod, Nat.mod_eq_of_lt (by omega)]
  rw [e1, Nat.mod_eq_of_lt (by omega), IntKind.toInt_small _ _ (by rw [hmod]; omega)]

/-- C07 is violated for signed values: -1 written in one byte is read back as 255. -/
theorem C07_int_violated :
    (pushUint (i64.ofInt (-1)) 1 .be ⟨[], 0⟩).2.data = [255] ∧
    (∃ w, takeUint 1 .be ⟨[255], 0⟩ = (.ok w, ⟨[255], 1⟩) ∧ i64.toInt w = 255) ∧
    (-(256 : Int) ^ 1 ≤ 2 * (-1) ∧ 2 * (-1 : Int) < 256 ^ 1) := by
  refine ⟨by decide +kernel, ⟨255, by decide +kernel, by decide +kernel⟩, by decide +kernel⟩

example : pushUint 0x010203 2 .be ⟨[], 0⟩ = (.ok 2, ⟨[2, 3], 2⟩) := by decide +kernel

/-! ## C08 -/

theorem push_empty (d : List Byte) (h : d.length ≤ isizeMax) : push d ⟨[], 0⟩ = (.ok d.length, ⟨d, d.length⟩) := by
  have := push_end [] d (by simpa using h)
  simpa using this

theorem small_le {n : Nat} (h : n ≤ 16) : n ≤ isizeMax := by rw [isizeMax_def]; omega

theorem Scalar.size_le (s : Scalar) : s.size ≤ 16 := by cases s <;> simp [Scalar.size]

/-- C08, writing: the little-endian output of every method is the reversed big-endian output. -/
theorem C08_write_reverse :
    (∀ s v, (pushScalar s v .le ⟨[], 0⟩).2.data = (pushScalar s v .be ⟨[], 0⟩).2.data.reverse) ∧
    (∀ v, (pushU24 v .le ⟨[], 0⟩).2.data = (pushU24 v .be ⟨[], 0⟩).2.data.reverse) ∧
    (∀ v n, (pushUint v n .le ⟨[], 0⟩).2.data = (pushUint v n .be ⟨[], 0⟩).2.data.reverse) ∧
    (∀ d : List Byte, d.length ≤ isizeMax →
      (pushByteorderArray d .le ⟨[], 0⟩).2.data = (pushByteorderArray d .be ⟨[], 0⟩).2.data.reverse) := by
  refine ⟨?_, ?_, ?_, ?_⟩
  · intro s v
    rw [pushScalar_eq, pushScalar_eq, push_empty _ (by simpa using small_le s.size_le),
      push_empty _ (by simpa using small_le s.size_le)]
    exact (toBE_reverse _ _).symm
  · intro v
    rw [pushU24_eq, pushU24_eq, push_empty _ (by simpa using small_le (by omega)),
      push_empty _ (by simpa using small_le (by omega))]
    exact (toBE_reverse _ _).symm
  · intro v n
    by_cases hn : n ≤ 8
    · rw [pushUint_eq v n _ hn, pushUint_eq v n _ hn, push_empty _ (by simpa using small_le (by omega)),
        push_empty _ (by simpa using small_le (by omega))]
      exact (toBE_reverse _ _).symm
    · rw [pushUint_wide _ _ _ (by omega), pushUint_wide _ _ _ (by omega)]
      rfl
  · intro d hd
    show (push d.reverse _).2.data = (push d _).2.data.reverse
    rw [push_empty _ (by simpa using hd), push_empty _ hd]

/-- C08, reading: little-endian on some bytes is big-endian on the reversed bytes. -/
theorem C08_read_reverse (d : List Byte) (hd : d.length ≤ isizeMax) :
    (∀ s : Scalar, d.length = s.size →
      (takeScalar s .le ⟨d, 0⟩).1 = (takeScalar s .be ⟨d.reverse, 0⟩).1) ∧
    (d.length = 3 → (takeU24 .le ⟨d, 0⟩).1 = (takeU24 .be ⟨d.reverse, 0⟩).1) ∧
    (d.length ≤ 8 → (takeUint d.length .le ⟨d, 0⟩).1 = (takeUint d.length .be ⟨d.reverse, 0⟩).1) ∧
    (takeByteorderArray d.length .le ⟨d, 0⟩).1 = (takeByteorderArray d.length .be ⟨d.reverse, 0⟩).1 := by
  have hok : (⟨d, 0⟩ : Buf).Ok := ⟨Nat.zero_le _, hd⟩
  have hokr : (⟨d.reverse, 0⟩ : Buf).Ok := ⟨Nat.zero_le _, by simpa using hd⟩
  have key : (mapM' (fromBytes .le) (takeBytes d.length) ⟨d, 0⟩).1
      = (mapM' (fromBytes .be) (takeBytes d.length) ⟨d.reverse, 0⟩).1 := by
    rw [mapM'_apply, mapM'_apply, takeBytes_apply _ _ hok, takeBytes_apply _ _ hokr]
    rw [if_neg (by simp), if_neg (by simp)]
    simp only [List.drop_zero, List.take_length, fromBytes]
    rw [show d.reverse.take d.length = d.reverse from List.take_of_length_le (by simp), beVal_reverse]
  refine ⟨?_, ?_, ?_, ?_⟩
  · intro s h
    rw [takeScalar_eq_fixed s _ _ hok, takeScalar_eq_fixed s _ _ hokr, ← h]
    exact key
  · intro h
    show (takeN .le 4 3 _).1 = (takeN .be 4 3 _).1
    rw [takeN_apply _ 4 3 (by omega), takeN_apply _ 4 3 (by omega), ← h]
    exact key
  · intro h
    show (takeN .le 8 _ _).1 = (takeN .be 8 _ _).1
    rw [takeN_apply _ 8 _ h, takeN_apply _ 8 _ h]
    exact key
  · unfold takeByteorderArray
    rw [bind_apply, bind_apply, takeArray_apply _ _ hok, takeArray_apply _ _ hokr,
      takeBytes_apply _ _ hok, takeBytes_apply _ _ hokr]
    rw [if_neg (by simp), if_neg (by simp)]
    simp only [List.drop_zero, List.take_length, pure_apply]
    rw [show d.reverse.take d.length = d.reverse from List.take_of_length_le (by simp)]

example : (takeScalar .u16 .le ⟨[1, 2], 0⟩).1 = .ok 0x0201 ∧
    (takeScalar .u16 .be ⟨[2, 1], 0⟩).1 = .ok 0x0201 := by decide +kernel

/-! ## C12, C13 -/

/-- C12: a write at position `p` touches exactly the window `[p, p + len)`: bytes before and after it keep
their value, a gap between the old end and `p` becomes zeros, and the length is `max old (p + len)`. -/
theorem C12_push_window (d : List Byte) (b : Buf) (hs : b.pos + d.length ≤ isizeMax)
    (hne : d ≠ [] ∨ b.pos ≤ b.data.length) :
    ∃ data', push d b = (.ok d.length, ⟨data', b.pos + d.length⟩) ∧
      data'.length = max b.data.length (b.pos + d.length) ∧
      (∀ i, i < d.length → data'[b.pos + i]? = d[i]?) ∧
      (∀ i, i < b.pos → i < b.data.length → data'[i]? = b.data[i]?) ∧
      (∀ i, b.data.length ≤ i → i < b.pos → data'[i]? = some 0) ∧
      (∀ i, b.pos + d.length ≤ i → data'[i]? = b.data[i]?) := by
  refine ⟨_, push_apply d b hs hne, writeAt_length _ _ _ hne, ?_, ?_, ?_, ?_⟩
  · intro i hi
    obtain ⟨pre, e, hp⟩ := writeAt_split b.data d b.pos
    rw [e, List.append_assoc, ← hp, List.getElem?_append_right (by omega),
      show pre.length + i - pre.length = i by omega, List.getElem?_append_left hi]
  · intro i h1 h2
    unfold writeAt
    rw [List.append_assoc, List.getElem?_append_left (by simp; omega), List.getElem?_take_of_lt h1,
      List.getElem?_append_left h2]
  · intro i h1 h2
    unfold writeAt
    rw [List.append_assoc, List.getElem?_append_left (by simp; omega), List.getElem?_take_of_lt h2,
      List.getElem?_append_right h1, List.getElem?_replicate, if_pos (by omega)]
  · intro i h
    obtain ⟨pre, e, hp⟩ := writeAt_split b.data d b.pos
    rw [e, List.getElem?_append_right (by simp; omega), List.getElem?_drop]
    congr 1
    simp
    omega

example : push [8, 9] ⟨[1, 2, 3, 4], 1⟩ = (.ok 2, ⟨[1, 8, 9, 4], 3⟩) := by decide +kernel
example : push [8, 9] ⟨[1], 3⟩ = (.ok 2, ⟨[1, 0, 0, 8, 9], 5⟩) := by decide +kernel

/-- C13, exact description: below the size limit, a write panics iff it writes nothing past the end. -/
theorem C13_panic_iff (op : WriteOp) (b : Buf)
    (hs : ∀ d, op.payload = some d → b.pos + d.length ≤ isizeMax) :
    (op.run b).1 = .panic ↔ op.payload = some [] ∧ b.data.length < b.pos := by
  rw [run_eq]
  cases hpay : op.payload with
  | none => simp
  | some d =>
    have hs := hs d hpay
    by_cases hne : d ≠ [] ∨ b.pos ≤ b.data.length
    · simp only [push_apply d b hs hne]
      constructor
      · intro h; simp at h
      · rintro ⟨h1, h2⟩
        rcases hne with h | h
        · simp at h1; exact absurd h1 h
        · omega
    · have hd : d = [] := by
        by_cases hd : d = []
        · exact hd
        · exact absurd (.inl hd) hne
      have hpos : b.data.length < b.pos := by
        by_cases hp : b.pos ≤ b.data.length
        · exact absurd (.inr hp) hne
        · omega
      subst hd
      simp only [hpos, and_true]
      unfold push
      simp only [bind_apply, remainingLen_apply, ite_apply', pure_apply]
      rw [if_neg (by simp)]
      simp only [Nat.one_ne_zero, if_false, overwrite]
      rw [if_neg (by omega)]
      simp

/-- C13, the part that holds: a write with the position inside the buffer never panics.  Missing: an empty
write past the end (`C13_violated`). -/
theorem C13_no_panic_partial (op : WriteOp) (b : Buf) (hb : b.pos ≤ b.data.length)
    (hs : ∀ d, op.payload = some d → b.pos + d.length ≤ isizeMax) : (op.run b).1 ≠ .panic := by
  rw [Ne, C13_panic_iff op b hs]
  omega

/-- C13 is violated by an empty write past the end. -/
theorem C13_violated : ((WriteOp.bytes []).run ⟨[1], 2⟩).1 = .panic := by decide +kernel

example : ((WriteOp.uint 7 2 .be).run ⟨[1], 1⟩).1 = .ok 2 := by decide +kernel

/-! ## C14 -/

/-- Run a history of writes, collecting the returned counts (an error counts zero). -/
def runWrites : List WriteOp → Buf → Nat × Buf
  | [], b => (0, b)
  | op :: ops, b =>
    match op.run b with
    | (.ok n, b') => ((runWrites ops b').1 + n, (runWrites ops b').2)
    | (_, b') => runWrites ops b'

/-- Specification: the concatenation of what is written. -/
def payloads (ops : List WriteOp) : List Byte := (ops.map fun op => op.payload.getD []).flatten

/-- C14: after any history of writes on an empty buffer, the buffer holds the concatenation of everything
written, in order, the position is at its end, and the counts add up to its length. -/
theorem C14_history (ops : List WriteOp) (hs : (payloads ops).length ≤ isizeMax) :
    runWrites ops ⟨[], 0⟩ = ((payloads ops).length, ⟨payloads ops, (payloads ops).length⟩) := by
  have key : ∀ (ops : List WriteOp) (data : List Byte), data.length + (payloads ops).length ≤ isizeMax →
      runWrites ops ⟨data, data.length⟩ =
        ((payloads ops).length, ⟨data ++ payloads ops, data.length + (payloads ops).length⟩) := by
    intro ops
    induction ops with
    | nil => intro data _; simp [runWrites, payloads]
    | cons op ops ih =>
      intro data h
      have hcons : payloads (op :: ops) = op.payload.getD [] ++ payloads ops := by
        simp [payloads]
      rw [hcons] at h ⊢
      simp only [runWrites]
      rw [run_eq]
      cases hpay : op.payload with
      | none =>
        simp only [hpay, Option.getD_none, List.nil_append] at h ⊢
        exact ih data h
      | some d =>
        simp only [hpay, Option.getD_some, List.length_append] at h ⊢
        rw [push_end data d (by omega)]
        simp only []
        have := ih (data ++ d) (by simp; omega)
        rw [List.length_append] at this
        rw [this]
        simp [Nat.add_comm, Nat.add_assoc]
  have := key ops [] (by simpa using hs)
  simpa using this

example : runWrites [.scalar .u16 0x0102 .be, .uint 5 9 .be, .bool true, .u24 7 .le] ⟨[], 0⟩
    = (6, ⟨[1, 2, 1, 7, 0, 0], 6⟩) := by decide +kernel

end JBytes
