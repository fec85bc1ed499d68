import Verif.Tame
/-!
# Properties of the reading primitives: C01-C05, C09-C11

Hypotheses: `d.length ≤ isizeMax` (every Rust slice satisfies it) and positions inside the data or at least
representable (`< usizeMod`).
-/

namespace JBytes
open M

/-! ## C01 -/

/-- C01: `take_bytes(n)` succeeds iff `n` bytes remain, and then returns exactly those bytes. -/
theorem C01_take_bytes_exact (d : List Byte) (p n : Nat) (hp : p ≤ d.length) (hd : d.length ≤ isizeMax) :
    (n ≤ d.length - p → ∃ v, takeBytes n ⟨d, p⟩ = (.ok v, ⟨d, p + n⟩) ∧ v.length = n ∧
      d = d.take p ++ v ++ d.drop (p + n)) ∧
    (d.length - p < n → takeBytes n ⟨d, p⟩ = (.err ⟨p, .invalidByteLength⟩, ⟨d, p⟩)) := by
  have h := takeBytes_apply n ⟨d, p⟩ ⟨hp, hd⟩
  simp only at h
  constructor
  · intro hn
    rw [if_neg (by omega)] at h
    refine ⟨_, h, by simp; omega, ?_⟩
    rw [List.append_assoc, ← List.drop_drop, List.take_append_drop, List.take_append_drop]
  · intro hn
    rw [if_pos hn] at h
    exact h

example : takeBytes 2 ⟨[1, 2, 3, 4], 1⟩ = (.ok [2, 3], ⟨[1, 2, 3, 4], 3⟩) := by decide +kernel
example : takeBytes 4 ⟨[1, 2, 3, 4], 1⟩ = (.err ⟨1, .invalidByteLength⟩, ⟨[1, 2, 3, 4], 1⟩) := by
  decide +kernel

/-! ## C02 -/

/-- Reads of nothing: zero bytes, or a search for the empty string. -/
def ReadOp.Empty : ReadOp → Prop
  | .bytes n => n = 0
  | .uint n _ => n = 0
  | .find p => p = []
  | .findNeedle p _ => p = []
  | .finds ps => [] ∈ ps
  | .findsNeedle ps _ => [] ∈ ps
  | _ => False

theorem out_map_panic {α β : Type} (f : α → β) (m : M α) (b : Buf) :
    (mapM' f m b).1 = .panic ↔ (m b).1 = .panic := by
  rw [mapM'_apply]
  rcases m b with ⟨o, b'⟩
  cases o <;> simp

theorem past_bind {β : Type} (n : Nat) (f : List Byte → M β) (b : Buf) (h : b.data.length < b.pos)
    (hp : b.pos < usizeMod) : ((takeBytes n >>= f) b).1 = .panic ↔ n = 0 := by
  rw [bind_apply, takeBytes_past n b h hp]
  by_cases hn : n = 0 <;> simp [hn]

theorem past_slice (p t : Nat) (b : Buf) (h : b.data.length < p) : (slice p t b).1 = .panic := by
  rw [slice_apply, if_neg (by omega)]

theorem longestSuffix_nil (ns : List (List Byte)) :
    longestSuffix [] ns = none ↔ [] ∉ ns := by
  constructor
  · intro h hm
    exact longestSuffix_none h [] hm (List.suffix_refl _)
  · intro h
    cases e : longestSuffix [] ns with
    | none => rfl
    | some m =>
      obtain ⟨⟨n, hn, hs, _⟩, _⟩ := longestSuffix_some e
      rw [List.suffix_nil] at hs
      subst hs
      exact absurd hn h

/-- C02, exact description of every panic of the reading API: a read panics iff it is a little-endian n-byte
read wider than 8 bytes, or it is a read of nothing with the position past the end of the data. -/
theorem C02_panic_iff (op : ReadOp) (d : List Byte) (p : Nat) (hd : d.length ≤ isizeMax)
    (hp : p < usizeMod) :
    (op.run ⟨d, p⟩).1 = .panic ↔ op.BadWidth ∨ (d.length < p ∧ op.Empty) := by
  by_cases hb : op.BadWidth
  · refine ⟨fun _ => .inl hb, fun _ => ?_⟩
    cases op with
    | uint n o =>
      cases o with
      | be => exact hb.elim
      | le =>
        have hb : 8 < n := hb
        show (mapM' _ (takeLeN 8 n) _).1 = _
        rw [out_map_panic]
        unfold takeLeN
        rw [if_neg (by omega)]
        rfl
    | _ => exact hb.elim
  · by_cases hpos : p ≤ d.length
    · have ht := tame_run op hb ⟨d, p⟩ ⟨hpos, hd⟩
      constructor
      · intro hpanic
        rcases ht with ⟨v, k, e, _⟩ | ⟨c, e⟩ <;> rw [e] at hpanic <;> simp at hpanic
      · rintro (h | ⟨h, _⟩)
        · exact absurd h hb
        · omega
    · have hlt : (⟨d, p⟩ : Buf).data.length < (⟨d, p⟩ : Buf).pos := by simpa using hpos
      have hlt' : d.length < p := by omega
      have hdrop : d.drop p = [] := List.drop_eq_nil_of_le (by omega)
      simp only [hb, hlt', true_and, false_or]
      cases op with
      | bytes n =>
        show (mapM' _ (takeBytes n) _).1 = _ ↔ n = 0
        rw [out_map_panic, takeBytes_past n _ hlt hp]
        by_cases hn : n = 0 <;> simp [hn]
      | array n =>
        show (mapM' _ (takeArray n) _).1 = _ ↔ False
        rw [out_map_panic]
        unfold takeArray
        simp only [bind_apply, remaining_apply', ite_apply']
        split <;> simp [advance_apply, pure_apply, fail_apply]
      | byteorderArray n o =>
        show (mapM' _ (takeByteorderArray n o) _).1 = _ ↔ False
        rw [out_map_panic]
        unfold takeByteorderArray takeArray
        simp only [bind_apply, remaining_apply', ite_apply']
        by_cases hn : n ≤ (List.drop p d).length
        · rw [if_pos hn]; simp [advance_apply, pure_apply]
        · rw [if_neg hn]; simp [fail_apply]
      | starts q =>
        show (mapM' _ (takeBytesStarts q) _).1 = _ ↔ False
        rw [out_map_panic]
        unfold takeBytesStarts
        simp only [bind_apply, remaining_apply', ite_apply']
        split
        · simp [fail_apply]
        · split <;> simp [fail_apply, advance_apply]
      | bool =>
        show (mapM' _ takeBool _).1 = _ ↔ False
        rw [out_map_panic]
        unfold takeBool
        rw [past_bind 1 _ _ hlt hp]
        simp
      | char =>
        show (mapM' _ takeChar _).1 = _ ↔ False
        rw [out_map_panic]
        unfold takeChar
        rw [past_bind 1 _ _ hlt hp]
        simp
      | scalar s o =>
        show (mapM' _ (takeScalar s o) _).1 = _ ↔ False
        rw [out_map_panic]
        have hu8 : (takeU8 ⟨d, p⟩) = (.err ⟨p, .invalidByteLength⟩, ⟨d, p⟩) := by
          unfold takeU8
          rw [bind_apply, takeBytes_past 1 _ hlt hp, if_neg (by omega)]
        cases s <;> first
          | (simp only [takeScalar, takeFixed]; rw [past_bind _ _ _ hlt hp]; simp [Scalar.size]; done)
          | (simp only [takeScalar, bind_apply, hu8]; simp; done)
      | u24 o =>
        show (mapM' _ (takeN o 4 3) _).1 = _ ↔ False
        rw [out_map_panic]
        cases o
        · simp only [takeN, takeBeN]
          rw [if_pos (by omega), past_bind _ _ _ hlt hp]; simp
        · simp only [takeN, takeLeN]
          rw [if_pos (by omega), past_bind _ _ _ hlt hp]; simp
      | uint n o =>
        show (mapM' _ (takeN o 8 n) _).1 = _ ↔ n = 0
        rw [out_map_panic]
        cases o
        · simp only [takeN, takeBeN]
          split
          · rw [past_bind _ _ _ hlt hp]
          · simp only [fail_apply]
            simp
            omega
        · have hb : ¬ 8 < n := hb
          simp only [takeN, takeLeN]
          rw [if_pos (by omega), past_bind _ _ _ hlt hp]
      | find q =>
        show (mapM' _ (findSubsequence q) _).1 = _ ↔ q = []
        rw [out_map_panic]
        unfold findSubsequence
        simp only [bind_apply, getPos_apply, remaining_apply', hdrop, findSub]
        by_cases hq : q = []
        · subst hq
          simp only [if_true, bind_apply, advance_apply, iff_true]
          exact past_slice p _ _ hlt'
        · rw [if_neg hq]
          simp [failAt_apply, hq]
      | findNeedle q c =>
        show (mapM' _ (findSubsequenceNeedle q c) _).1 = _ ↔ q = []
        rw [out_map_panic]
        unfold findSubsequenceNeedle
        simp only [bind_apply, getPos_apply, remaining_apply', hdrop, findSub]
        by_cases hq : q = []
        · subst hq
          simp only [if_true, bind_apply, advance_apply, iff_true]
          exact past_slice p _ _ hlt'
        · rw [if_neg hq]
          simp [failAt_apply, hq]
      | finds ns =>
        show (mapM' _ (findSubsequences ns) _).1 = _ ↔ [] ∈ ns
        rw [out_map_panic]
        unfold findSubsequences
        simp only [bind_apply, getPos_apply, remaining_apply', hdrop, acFind, acGo]
        cases e : longestSuffix [] ns with
        | none => simp [failAt_apply, (longestSuffix_nil ns).mp e]
        | some m =>
          have hm : [] ∈ ns := by
            by_cases hm : [] ∈ ns
            · exact hm
            · rw [(longestSuffix_nil ns).mpr hm] at e; simp at e
          simp only [Option.map_some, bind_apply, advance_apply, hm, iff_true]
          exact past_slice p _ _ hlt'
      | findsNeedle ns c =>
        show (mapM' _ (findSubsequencesNeedle ns c) _).1 = _ ↔ [] ∈ ns
        rw [out_map_panic]
        unfold findSubsequencesNeedle
        simp only [bind_apply, getPos_apply, remaining_apply', hdrop, acFind, acGo]
        cases e : longestSuffix [] ns with
        | none => simp [failAt_apply, (longestSuffix_nil ns).mp e]
        | some m =>
          have hm : [] ∈ ns := by
            by_cases hm : [] ∈ ns
            · exact hm
            · rw [(longestSuffix_nil ns).mpr hm] at e; simp at e
          simp only [Option.map_some, bind_apply, advance_apply, hm, iff_true]
          exact past_slice p _ _ hlt'

/-- C02, the part that holds: with the position inside the data and a width the type can hold, no read
panics.  Missing from the full statement: the two cases of `C02_panic_iff`. -/
theorem C02_no_panic_partial (op : ReadOp) (d : List Byte) (p : Nat) (hp : p ≤ d.length)
    (hd : d.length ≤ isizeMax) (hw : ¬ op.BadWidth) : (op.run ⟨d, p⟩).1 ≠ .panic := by
  have h3 := isizeMax_lt
  rw [Ne, C02_panic_iff op d p hd (by omega)]
  rintro (h | ⟨h, _⟩)
  · exact hw h
  · omega

/-- C02 is violated: reading zero bytes past the end panics, and so does a 9-byte little-endian read. -/
theorem C02_violated :
    ((ReadOp.bytes 0).run ⟨[1], 2⟩).1 = .panic ∧
    ((ReadOp.uint 9 .le).run ⟨[1, 2, 3, 4, 5, 6, 7, 8, 9], 0⟩).1 = .panic ∧
    ((ReadOp.find []).run ⟨[1], 2⟩).1 = .panic := by
  decide +kernel

example : ¬ (ReadOp.uint 8 .le).BadWidth ∧ ((ReadOp.uint 8 .le).run ⟨[1, 2, 3], 1⟩).1 ≠ .panic := by
  constructor
  · simp [ReadOp.BadWidth]
  · decide +kernel

/-! ## C03 -/

/-- Specification: `v` is the number whose base-256 digits are `l`, most (`be`) or least (`le`) significant
first. -/
def IsValueOf (o : ByteOrder) (l : List Byte) (v : Nat) : Prop :=
  v < 256 ^ l.length ∧ ∀ i (h : i < l.length),
    match o with
    | .be => v / 256 ^ (l.length - 1 - i) % 256 = (l[i]).toNat
    | .le => v / 256 ^ i % 256 = (l[i]).toNat

theorem isValueOf_fromBytes (o : ByteOrder) (l : List Byte) : IsValueOf o l (fromBytes o l) := by
  refine ⟨fromBytes_lt o l, fun i h => ?_⟩
  cases o
  · exact beVal_digit l i h
  · exact leVal_digit l i h

/-- The specification determines the value. -/
theorem IsValueOf.unique {o : ByteOrder} {l : List Byte} {v w : Nat} (hv : IsValueOf o l v)
    (hw : IsValueOf o l w) : v = w := by
  have key : ∀ n (v w : Nat), v < 256 ^ n → w < 256 ^ n →
      (∀ i, i < n → v / 256 ^ i % 256 = w / 256 ^ i % 256) → v = w := by
    intro n
    induction n with
    | zero => intro v w hv hw _; simp at hv hw; omega
    | succ n ih =>
      intro v w hv hw h
      have h0 := h 0 (by omega)
      simp at h0
      rw [Nat.pow_succ] at hv hw
      have := ih (v / 256) (w / 256) (by omega) (by omega) (by
        intro i hi
        have := h (i + 1) (by omega)
        rw [Nat.pow_succ, Nat.mul_comm, ← Nat.div_div_eq_div_mul, ← Nat.div_div_eq_div_mul] at this
        exact this)
      omega
  apply key l.length v w hv.1 hw.1
  intro i hi
  cases o with
  | be =>
    have h1 := hv.2 (l.length - 1 - i) (by omega)
    have h2 := hw.2 (l.length - 1 - i) (by omega)
    simp only at h1 h2
    have e : l.length - 1 - (l.length - 1 - i) = i := by omega
    rw [e] at h1 h2
    rw [h1, h2]
  | le => rw [hv.2 i hi, hw.2 i hi]

theorem beVal_singleton (x : Byte) : beVal [x] = x.toNat := by simp [beVal]
theorem leVal_singleton (x : Byte) : leVal [x] = x.toNat := by simp [leVal]

theorem takeScalar_eq_fixed (s : Scalar) (o : ByteOrder) (b : Buf) (h : b.Ok) :
    takeScalar s o b = takeFixed o s.size b := by
  have h1 : mapM' UInt8.toNat takeU8 b = takeFixed o 1 b := by
    rw [mapM'_apply, takeU8_apply b h]
    show _ = mapM' (fromBytes o) (takeBytes 1) b
    rw [mapM'_apply, takeBytes_apply 1 b h]
    have := h.1
    by_cases hlt : b.pos < b.data.length
    · have e : (b.data.drop b.pos).take 1 = [b.data[b.pos]] := by
        rw [List.drop_eq_getElem_cons hlt]; rfl
      rw [dif_pos hlt, if_neg (by omega), e]
      cases o
      · simp only [fromBytes, beVal_singleton]
      · simp only [fromBytes, leVal_singleton]
    · rw [dif_neg hlt, if_pos (by omega)]
  cases s <;> first | exact h1 | rfl

/-- The widths of the fixed-width types, in bytes. -/
def Scalar.width : Scalar → Nat
  | .u8 | .i8 => 1
  | .u16 | .i16 => 2
  | .u32 | .i32 | .f32 => 4
  | .u64 | .i64 | .usize | .isize | .f64 => 8
  | .u128 | .i128 => 16

theorem Scalar.size_eq_width (s : Scalar) : s.size = s.width := by cases s <;> rfl

/-- C03: reading a scalar returns the positional value of exactly its width of bytes, or fails in place when
fewer remain.  (Signed and float types: the value is the bit pattern.) -/
theorem C03_scalar_value (s : Scalar) (o : ByteOrder) (d : List Byte) (p : Nat) (hp : p ≤ d.length)
    (hd : d.length ≤ isizeMax) :
    (s.width ≤ d.length - p → ∃ v, takeScalar s o ⟨d, p⟩ = (.ok v, ⟨d, p + s.width⟩) ∧
      IsValueOf o ((d.drop p).take s.width) v) ∧
    (d.length - p < s.width →
      takeScalar s o ⟨d, p⟩ = (.err ⟨p, .invalidByteLength⟩, ⟨d, p⟩)) := by
  rw [← s.size_eq_width]
  have h : takeScalar s o ⟨d, p⟩ = mapM' (fromBytes o) (takeBytes s.size) ⟨d, p⟩ :=
    takeScalar_eq_fixed s o _ ⟨hp, hd⟩
  rw [mapM'_apply, takeBytes_apply _ _ ⟨hp, hd⟩] at h
  constructor
  · intro hn
    rw [if_neg (by simp only; omega)] at h
    exact ⟨_, h, isValueOf_fromBytes o _⟩
  · intro hn
    rw [if_pos (by simpa using hn)] at h
    exact h

example : takeScalar .u32 .le ⟨[9, 1, 2, 3, 4], 1⟩ = (.ok 0x04030201, ⟨[9, 1, 2, 3, 4], 5⟩) := by
  decide +kernel

/-- C03 for booleans and chars: one byte, false iff it is zero / the char with that code. -/
theorem C03_bool_char (d : List Byte) (p : Nat) (hp : p < d.length) (hd : d.length ≤ isizeMax) :
    takeBool ⟨d, p⟩ = (.ok (decide (d[p] ≠ 0)), ⟨d, p + 1⟩) ∧
    takeChar ⟨d, p⟩ = (.ok (d[p]).toNat, ⟨d, p + 1⟩) := by
  have hok : (⟨d, p⟩ : Buf).Ok := ⟨by simp only; omega, hd⟩
  rw [takeBool_apply _ hok, takeChar_apply _ hok, mapM'_apply, mapM'_apply, takeU8_apply _ hok,
    dif_pos hp]
  refine ⟨?_, rfl⟩
  simp only []
  congr 2
  by_cases h0 : d[p] = 0 <;> simp [h0]

example : (1 : Nat) < [7, 0].length ∧ takeBool ⟨[7, 0], 1⟩ = (.ok false, ⟨[7, 0], 2⟩) := by decide +kernel

/-! ## C04 -/

theorem takeN_apply (o : ByteOrder) (s n : Nat) (h : n ≤ s) (b : Buf) :
    takeN o s n b = mapM' (fromBytes o) (takeBytes n) b := by
  cases o
  · show takeBeN s n b = _
    unfold takeBeN
    rw [if_pos h]
    show mapM' _ _ b = _
    rw [mapM'_apply, mapM'_apply]
    simp only [beVal_pad, fromBytes]
  · show takeLeN s n b = _
    unfold takeLeN
    rw [if_pos h]
    show mapM' _ _ b = _
    rw [mapM'_apply, mapM'_apply]
    simp only [leVal_pad, fromBytes]

/-- C04, widths up to 8 (both byte orders): exact value and consumption, failure in place. -/
theorem C04_uint_value (n : Nat) (hn : n ≤ 8) (o : ByteOrder) (d : List Byte) (p : Nat)
    (hp : p ≤ d.length) (hd : d.length ≤ isizeMax) :
    (n ≤ d.length - p → ∃ v, takeUint n o ⟨d, p⟩ = (.ok v, ⟨d, p + n⟩) ∧
      IsValueOf o ((d.drop p).take n) v) ∧
    (d.length - p < n → takeUint n o ⟨d, p⟩ = (.err ⟨p, .invalidByteLength⟩, ⟨d, p⟩)) := by
  have h : takeUint n o ⟨d, p⟩ = _ := takeN_apply o 8 n hn _
  rw [mapM'_apply, takeBytes_apply _ _ ⟨hp, hd⟩] at h
  constructor
  · intro hn
    rw [if_neg (by simp only; omega)] at h
    exact ⟨_, h, isValueOf_fromBytes o _⟩
  · intro hn
    rw [if_pos (by simpa using hn)] at h
    exact h

/-- The same for 3-byte integers. -/
theorem C04_u24_value (o : ByteOrder) (d : List Byte) (p : Nat)
    (hp : p ≤ d.length) (hd : d.length ≤ isizeMax) :
    (3 ≤ d.length - p → ∃ v, takeU24 o ⟨d, p⟩ = (.ok v, ⟨d, p + 3⟩) ∧
      IsValueOf o ((d.drop p).take 3) v) ∧
    (d.length - p < 3 → takeU24 o ⟨d, p⟩ = (.err ⟨p, .invalidByteLength⟩, ⟨d, p⟩)) := by
  have h : takeU24 o ⟨d, p⟩ = _ := takeN_apply o 4 3 (by omega) _
  rw [mapM'_apply, takeBytes_apply _ _ ⟨hp, hd⟩] at h
  constructor
  · intro hn
    rw [if_neg (by simp only; omega)] at h
    exact ⟨_, h, isValueOf_fromBytes o _⟩
  · intro hn
    rw [if_pos (by simpa using hn)] at h
    exact h

/-- C04, widths above 8: an error in place in big-endian order only.  Missing from the full statement:
little-endian, which panics (`C04_wide_le_violated`). -/
theorem C04_wide_be_partial (n : Nat) (hn : 8 < n) (b : Buf) :
    takeUint n .be b = (.err ⟨b.pos, .invalidByteLength⟩, b) := by
  show takeBeN 8 n b = _
  unfold takeBeN
  rw [if_neg (by omega)]
  rfl

/-- C04 is violated for every little-endian width above 8, whatever the data. -/
theorem C04_wide_le_violated (n : Nat) (hn : 8 < n) (b : Buf) : takeUint n .le b = (.panic, b) := by
  show takeLeN 8 n b = _
  unfold takeLeN
  rw [if_neg (by omega)]
  rfl

example : takeUint 3 .be ⟨[0, 1, 2, 3], 1⟩ = (.ok 0x010203, ⟨[0, 1, 2, 3], 4⟩) := by decide +kernel

/-! ## C05 -/

/-- `u` peeks what `t` reads. -/
def Peeks {α : Type} (u t : M α) : Prop := ∀ b : Buf, b.data.length ≤ isizeMax → b.pos < usizeMod →
  u b = ((t b).1, b)

theorem peeks_bytes (n : Nat) : Peeks (untakeBytes n) (takeBytes n) := by
  intro b hd hp
  by_cases hpos : b.pos ≤ b.data.length
  · rw [untakeBytes_apply n b ⟨hpos, hd⟩, takeBytes_apply n b ⟨hpos, hd⟩]
    split <;> rfl
  · rw [takeBytes_past n b (by omega) hp]
    unfold untakeBytes
    simp only [bind_apply, remainingLen_apply, ite_apply', fail_apply, getPos_apply, slice_apply]
    by_cases hn : n = 0
    · rw [if_neg (by omega), if_neg (by omega), if_pos hn]
    · rw [if_pos (by omega), if_neg hn]

theorem Peeks.map {α β : Type} {u t : M α} (h : Peeks u t) (f : α → β) :
    Peeks (mapM' f u) (mapM' f t) := by
  intro b hd hp
  rw [mapM'_apply, mapM'_apply, h b hd hp]
  rcases t b with ⟨o, b'⟩
  cases o <;> rfl

theorem Peeks.index {β : Type} {u t : M (List Byte)} (h : Peeks u t) (f : Byte → β) :
    Peeks (u >>= fun v => index0 v >>= fun x => (Pure.pure (f x) : M β))
      (t >>= fun v => index0 v >>= fun x => (Pure.pure (f x) : M β)) := by
  intro b hd hp
  rw [bind_apply, bind_apply, h b hd hp]
  rcases t b with ⟨o, b'⟩
  cases o with
  | ok v => cases v <;> rfl
  | _ => rfl

theorem peeks_u8 : Peeks untakeU8 takeU8 := by
  intro b hd hp
  unfold untakeU8 takeU8
  rw [bind_apply, bind_apply, peeks_bytes 1 b hd hp]
  rcases takeBytes 1 b with ⟨o, b'⟩
  cases o with
  | ok v => cases v <;> rfl
  | _ => rfl

theorem peeks_N (o : ByteOrder) (s n : Nat) : Peeks (untakeN o s n) (takeN o s n) := by
  cases o
  · show Peeks (untakeBeN s n) (takeBeN s n)
    unfold untakeBeN takeBeN
    split
    · exact (peeks_bytes n).map _
    · intro b _ _; rfl
  · show Peeks (untakeLeN s n) (takeLeN s n)
    unfold untakeLeN takeLeN
    split
    · exact (peeks_bytes n).map _
    · intro b _ _; rfl

/-- C05: every `untake_x` gives the result of `take_x` (value, error or panic) and leaves the reader as it
was, in every state. -/
theorem C05_untake_eq_take (op : PeekOp) (d : List Byte) (p : Nat) (hd : d.length ≤ isizeMax)
    (hp : p < usizeMod) : op.untake ⟨d, p⟩ = ((op.take.run ⟨d, p⟩).1, ⟨d, p⟩) := by
  cases op with
  | bytes n => exact (peeks_bytes n).map _ _ hd hp
  | bool => exact ((peeks_bytes 1).index _).map _ _ hd hp
  | char => exact ((peeks_bytes 1).index _).map _ _ hd hp
  | scalar s o =>
    cases s <;> first
      | exact (peeks_u8.map UInt8.toNat).map _ _ hd hp
      | exact ((peeks_bytes _).map (fromBytes o)).map _ _ hd hp
  | u24 o => exact (peeks_N o 4 3).map _ _ hd hp
  | uint n o => exact (peeks_N o 8 n).map _ _ hd hp

example : (PeekOp.scalar .u16 .be).untake ⟨[1, 2, 3], 1⟩ = (.ok (.num 0x0203), ⟨[1, 2, 3], 1⟩) := by
  decide +kernel

/-! ## C09 -/

/-- C09: `find_subsequence` splits the rest of the data at the leftmost occurrence of the needle; it fails, in
place, exactly when there is none. -/
theorem C09_find_leftmost (needle d : List Byte) (p : Nat) (hp : p ≤ d.length) (hd : d.length ≤ isizeMax) :
    (∀ line rest, d.drop p = line ++ needle ++ rest →
      (∀ l r, d.drop p = l ++ needle ++ r → line.length ≤ l.length) →
      findSubsequence needle ⟨d, p⟩ = (.ok line, ⟨d, p + (line.length + needle.length)⟩)) ∧
    ((¬ ∃ l r, d.drop p = l ++ needle ++ r) →
      findSubsequence needle ⟨d, p⟩ = (.err ⟨p, .fail⟩, ⟨d, p⟩)) ∧
    ((∃ l r, d.drop p = l ++ needle ++ r) → ∃ line rest, d.drop p = line ++ needle ++ rest ∧
      ∀ l r, d.drop p = l ++ needle ++ r → line.length ≤ l.length) := by
  have h := findSubsequence_apply needle ⟨d, p⟩ ⟨hp, hd⟩
  simp only at h
  refine ⟨?_, ?_, ?_⟩
  · intro line rest hsplit hmin
    have hf : findSub needle (d.drop p) = some line.length := by
      apply findSub_eq_some ⟨line, rest, hsplit, rfl⟩
      rintro j hj ⟨a, c, ha, hl⟩
      have := hmin a c ha
      omega
    rw [hf] at h
    rw [h, hsplit]
    simp
  · intro hno
    cases hf : findSub needle (d.drop p) with
    | none => rw [hf] at h; exact h
    | some i =>
      obtain ⟨⟨a, c, ha, _⟩, _⟩ := findSub_some hf
      exact absurd ⟨a, c, ha⟩ hno
  · rintro ⟨l, r, hlr⟩
    cases hf : findSub needle (d.drop p) with
    | none => exact absurd ⟨l, r, hlr, rfl⟩ (findSub_none hf l.length)
    | some i =>
      obtain ⟨⟨a, c, ha, hai⟩, hmin⟩ := findSub_some hf
      refine ⟨a, c, ha, ?_⟩
      intro l' r' hl'
      rcases Nat.lt_or_ge l'.length a.length with hlt | hge
      · exact absurd ⟨l', r', hl', rfl⟩ (hmin l'.length (by omega))
      · exact hge

/-- C09 for the include-needle variants: they return (and move past) the bytes before the same leftmost
occurrence, or through it. -/
theorem C09_find_needle (needle d : List Byte) (incl : Bool) (p : Nat) (hp : p ≤ d.length)
    (hd : d.length ≤ isizeMax) (line rest : List Byte) (hs : d.drop p = line ++ needle ++ rest)
    (hmin : ∀ l r, d.drop p = l ++ needle ++ r → line.length ≤ l.length) :
    findSubsequenceNeedle needle incl ⟨d, p⟩ =
      (let v := if incl then line ++ needle else line
       (.ok v, ⟨d, p + v.length⟩)) := by
  have h := findSubsequenceNeedle_apply needle incl ⟨d, p⟩ ⟨hp, hd⟩
  simp only at h
  have hf : findSub needle (d.drop p) = some line.length := by
    apply findSub_eq_some ⟨line, rest, hs, rfl⟩
    rintro j hj ⟨a, c, ha, hl⟩
    have := hmin a c ha
    omega
  rw [hf] at h
  rw [h, hs]
  cases incl
  · simp
  · simp only [if_true]
    rw [show line.length + needle.length = (line ++ needle).length by simp]
    rw [List.take_left]

/-- A failed include-needle search leaves the position alone. -/
theorem C09_find_needle_none (needle d : List Byte) (incl : Bool) (p : Nat) (hp : p ≤ d.length)
    (hd : d.length ≤ isizeMax) (hno : ¬ ∃ l r, d.drop p = l ++ needle ++ r) :
    findSubsequenceNeedle needle incl ⟨d, p⟩ = (.err ⟨p, .fail⟩, ⟨d, p⟩) := by
  have h := findSubsequenceNeedle_apply needle incl ⟨d, p⟩ ⟨hp, hd⟩
  simp only at h
  cases hf : findSub needle (d.drop p) with
  | none => rw [hf] at h; exact h
  | some i =>
    obtain ⟨⟨a, c, ha, _⟩, _⟩ := findSub_some hf
    exact absurd ⟨a, c, ha⟩ hno

example : findSubsequence [3, 4] ⟨[9, 3, 3, 4, 5, 3, 4], 1⟩ =
    (.ok [3], ⟨[9, 3, 3, 4, 5, 3, 4], 4⟩) := by decide +kernel

/-! ## C10 -/

/-- C10, any set of terminators: the result splits the rest of the data at an occurrence of one of them that
ends first, and is the longest of those ending there. -/
theorem C10_finds_earliest (ns : List (List Byte)) (d : List Byte) (p : Nat) (hp : p ≤ d.length)
    (hd : d.length ≤ isizeMax) :
    ((∃ n ∈ ns, ∃ l r, d.drop p = l ++ n ++ r) →
      ∃ line n rest, n ∈ ns ∧ d.drop p = line ++ n ++ rest ∧
        (∀ m ∈ ns, ∀ l r, d.drop p = l ++ m ++ r →
          line.length + n.length ≤ l.length + m.length ∧
          (line.length + n.length = l.length + m.length → m.length ≤ n.length)) ∧
        findSubsequences ns ⟨d, p⟩ = (.ok line, ⟨d, p + (line.length + n.length)⟩) ∧
        findSubsequencesNeedle ns true ⟨d, p⟩ =
          (.ok (line ++ n), ⟨d, p + (line.length + n.length)⟩) ∧
        findSubsequencesNeedle ns false ⟨d, p⟩ = (.ok line, ⟨d, p + line.length⟩)) ∧
    ((¬ ∃ n ∈ ns, ∃ l r, d.drop p = l ++ n ++ r) →
      findSubsequences ns ⟨d, p⟩ = (.err ⟨p, .fail⟩, ⟨d, p⟩) ∧
      ∀ incl, findSubsequencesNeedle ns incl ⟨d, p⟩ = (.err ⟨p, .fail⟩, ⟨d, p⟩)) := by
  have h := findSubsequences_apply ns ⟨d, p⟩ ⟨hp, hd⟩
  have hN := fun incl => findSubsequencesNeedle_apply ns incl ⟨d, p⟩ ⟨hp, hd⟩
  simp only at h hN
  have split_of_suffix : ∀ (e : Nat) (m : List Byte), m <:+ (d.drop p).take e →
      ∃ l r, d.drop p = l ++ m ++ r := by
    rintro e m ⟨l, hl⟩
    exact ⟨l, (d.drop p).drop e, by rw [hl, List.take_append_drop]⟩
  have suffix_of_split : ∀ (m l r : List Byte), d.drop p = l ++ m ++ r →
      m <:+ (d.drop p).take (l.length + m.length) := by
    intro m l r hlr
    rw [hlr, show l.length + m.length = (l ++ m).length by simp, List.take_left]
    exact List.suffix_append l m
  constructor
  · rintro ⟨m, hm, l, r, hlr⟩
    cases hf : acFind ns (d.drop p) with
    | none =>
      have := acFind_none hf (l.length + m.length) (by rw [hlr]; simp) m hm
      exact absurd (suffix_of_split m l r hlr) this
    | some q =>
      obtain ⟨s, e⟩ := q
      obtain ⟨g1, ⟨n, gn1, ⟨line, gn2⟩, gn3⟩, g3, g4⟩ := acFind_some hf
      have hlen : line.length + n.length = e := by
        have := congrArg List.length gn2
        simp at this
        simp at g1
        omega
      have hls : line.length = s := by omega
      rw [hf] at h hN
      refine ⟨line, n, (d.drop p).drop e, gn1, by rw [gn2, List.take_append_drop], ?_, ?_, ?_, ?_⟩
      · intro m' hm' l' r' hl'
        have hsuf := suffix_of_split m' l' r' hl'
        refine ⟨?_, ?_⟩
        · rcases Nat.lt_or_ge (l'.length + m'.length) e with hlt | hge
          · exact absurd hsuf (g4 _ hlt m' hm')
          · omega
        · intro heq
          have := g3 m' hm' (by rw [← hlen, heq]; exact hsuf)
          omega
      · rw [h]
        simp only []
        have : (d.drop p).take s = line := by
          have h5 : (d.drop p).take s = ((d.drop p).take e).take s := by
            rw [List.take_take, Nat.min_eq_left (by omega)]
          rw [h5, ← gn2, ← hls, List.take_left]
        rw [this, hlen]
      · rw [hN true]
        simp only [if_true]
        rw [← gn2, hlen]
      · rw [hN false]
        simp only [Bool.false_eq_true, if_false]
        have : (d.drop p).take s = line := by
          have h5 : (d.drop p).take s = ((d.drop p).take e).take s := by
            rw [List.take_take, Nat.min_eq_left (by omega)]
          rw [h5, ← gn2, ← hls, List.take_left]
        rw [this, hls]
  · intro hno
    cases hf : acFind ns (d.drop p) with
    | none =>
      rw [hf] at h hN
      exact ⟨h, hN⟩
    | some q =>
      obtain ⟨s, e⟩ := q
      obtain ⟨g1, ⟨n, gn1, gn2, gn3⟩, g3, g4⟩ := acFind_some hf
      obtain ⟨l, r, hlr⟩ := split_of_suffix e n gn2
      exact absurd ⟨n, gn1, l, r, hlr⟩ hno

/-- CRLF, LF, NUL. -/
def lineEnds : List (List Byte) := [[13, 10], [10], [0]]

/-- C10 for lines: the line returned contains neither LF nor NUL, is followed by CRLF, LF or NUL, all of
which is consumed, and does not end in CR if it is followed by LF alone. -/
theorem C10_line (d : List Byte) (p : Nat) (hp : p ≤ d.length) (hd : d.length ≤ isizeMax)
    (hex : (10 : Byte) ∈ d.drop p ∨ (0 : Byte) ∈ d.drop p) :
    ∃ line term rest, d.drop p = line ++ term ++ rest ∧ term ∈ lineEnds ∧
      (10 : Byte) ∉ line ∧ (0 : Byte) ∉ line ∧ (term = [10] → ¬ [13] <:+ line) ∧
      findSubsequences lineEnds ⟨d, p⟩ = (.ok line, ⟨d, p + (line.length + term.length)⟩) := by
  have hsome : ∃ n ∈ lineEnds, ∃ l r, d.drop p = l ++ n ++ r := by
    rcases hex with h | h
    · obtain ⟨l, r, e⟩ := List.append_of_mem h
      exact ⟨[10], by simp [lineEnds], l, r, by simp [e]⟩
    · obtain ⟨l, r, e⟩ := List.append_of_mem h
      exact ⟨[0], by simp [lineEnds], l, r, by simp [e]⟩
  obtain ⟨line, n, rest, hn, hs, hmin, hres, _, _⟩ := (C10_finds_earliest lineEnds d p hp hd).1 hsome
  have hnl : 1 ≤ n.length := by
    simp only [lineEnds, List.mem_cons, List.not_mem_nil, or_false] at hn
    rcases hn with rfl | rfl | rfl <;> simp
  refine ⟨line, n, rest, hs, hn, ?_, ?_, ?_, hres⟩
  · intro hm
    obtain ⟨l, r, e⟩ := List.append_of_mem hm
    have := (hmin [10] (by simp [lineEnds]) l (r ++ n ++ rest) (by rw [hs, e]; simp)).1
    rw [e] at this
    simp at this
    omega
  · intro hm
    obtain ⟨l, r, e⟩ := List.append_of_mem hm
    have := (hmin [0] (by simp [lineEnds]) l (r ++ n ++ rest) (by rw [hs, e]; simp)).1
    rw [e] at this
    simp at this
    omega
  · rintro rfl ⟨l, e⟩
    have := (hmin [13, 10] (by simp [lineEnds]) l rest (by rw [hs, ← e]; simp)).2
      (by rw [← e]; simp)
    simp at this

example : findSubsequences lineEnds ⟨[65, 13, 66, 13, 10, 67], 0⟩ =
    (.ok [65, 13, 66], ⟨[65, 13, 66, 13, 10, 67], 5⟩) := by decide +kernel

/-! ## C11 -/

/-- C11, first half: no read, in any state whatever (even one that fails or panics), changes the data. -/
theorem C11_data_unchanged (op : ReadOp) (b : Buf) : (op.run b).2.data = b.data := frame_run op b

/-- C11, second half: a read that returns an error reports the current position and leaves it unchanged. -/
theorem C11_failed_read_stays (op : ReadOp) (d : List Byte) (p : Nat) (hp : p ≤ d.length)
    (hd : d.length ≤ isizeMax) (e : JErr) (b' : Buf) (h : op.run ⟨d, p⟩ = (.err e, b')) :
    b' = ⟨d, p⟩ ∧ e.position = p := by
  by_cases hw : op.BadWidth
  · have := (C02_panic_iff op d p hd (by have := isizeMax_lt; omega)).mpr (.inl hw)
    rw [h] at this
    simp at this
  · rcases tame_run op hw ⟨d, p⟩ ⟨hp, hd⟩ with ⟨v, k, e', _⟩ | ⟨c, e'⟩
    · rw [h] at e'
      simp at e'
    · rw [h] at e'
      simp only [Prod.mk.injEq, Out.err.injEq] at e'
      exact ⟨e'.2, by rw [e'.1]⟩

example : (ReadOp.scalar .u32 .be).run ⟨[1, 2], 1⟩ = (.err ⟨1, .invalidByteLength⟩, ⟨[1, 2], 1⟩) := by
  decide +kernel

end JBytes
