import Verif.Word32
import Verif.PropMemory
import Verif.PropDerive
/-!
# C94: the word size of the platform makes no difference

What a program reads and writes should not depend on the platform it was compiled for: two machines that use the same
definitions should understand one another.
-/

namespace JBytes
open M

variable {α : Type}

/-- Specification: a buffer that a program on a 32-bit platform can hold. -/
def Buf.Small (b : Buf) : Prop := b.data.length ≤ max32 ∧ b.pos < mod32

/-- Specification: no numbers of the size of the platform's word. -/
def Scalar.Fixed (s : Scalar) : Prop := s ≠ .usize ∧ s ≠ .isize

theorem usize_large : mod32 + mod32 < usizeMod := by rw [usizeMod_def]; decide
theorem isize_large : mod32 < isizeMax := by rw [isizeMax_def]; decide
theorem max32_twice : 2 * max32 + 2 = mod32 := by decide

theorem add32_eq {a b : Nat} (h : a + b < mod32) : add32 a b = a + b := Nat.mod_eq_of_lt h
theorem sub32_eq {a b : Nat} (h : b ≤ a) : sub32 a b = a - b := if_pos h

/-- Both do the same from a small buffer, and leave a small buffer. -/
def Same (m' m : M α) : Prop := ∀ b, b.Small → m' b = m b ∧ (m b).2.Small

theorem Same.bind {β : Type} {m' m : M α} {f' f : α → M β} (hm : Same m' m) (hf : ∀ a, Same (f' a) (f a)) :
    Same (m' >>= f') (m >>= f) := by
  intro b hb
  obtain ⟨e, h⟩ := hm b hb
  rw [bind_apply, bind_apply, e]
  rcases hx : m b with ⟨o, b'⟩
  rw [hx] at h
  cases o with
  | ok a => exact hf a b' h
  | err e => exact ⟨rfl, h⟩
  | panic => exact ⟨rfl, h⟩
  | timeout => exact ⟨rfl, h⟩

theorem Same.still {m : M α} (h : ∀ b, (m b).2 = b) : Same m m := fun b hb => ⟨rfl, by rw [h b]; exact hb⟩
theorem Same.pure (a : α) : Same (Pure.pure a : M α) (Pure.pure a) := .still fun _ => rfl
theorem Same.fail (c : ErrCode) : Same (M.fail c : M α) (M.fail c) := .still fun _ => rfl
theorem Same.panic : Same (M.panic : M α) M.panic := .still fun _ => rfl
theorem Same.index0 (v : List Byte) : Same (M.index0 v) (M.index0 v) := by
  cases v
  · exact .panic
  · exact .pure _
theorem Same.mapM' {β : Type} {m' m : M α} (h : Same m' m) (f : α → β) : Same (mapM' f m') (mapM' f m) :=
  h.bind fun _ => .pure _

theorem advance32_at (n : Nat) (b : Buf) (hb : b.Small) (hn : n ≤ b.data.length - b.pos) :
    advance32 n b = (.ok (), ⟨b.data, b.pos + n⟩) ∧ M.advance n b = (.ok (), ⟨b.data, b.pos + n⟩) ∧
      b.pos + n < mod32 := by
  have h1 := hb.1
  have h2 := hb.2
  have h3 := usize_large
  have h4 := max32_twice
  have hlt : b.pos + n < mod32 := by
    by_cases h0 : n = 0 <;> omega
  refine ⟨?_, ?_, hlt⟩
  · show (Out.ok (), { b with pos := add32 b.pos n }) = _
    rw [add32_eq hlt]
  · rw [advance_apply, wadd_eq (by omega)]

theorem takeBytes32_same (n : Nat) : Same (takeBytes32 n) (takeBytes n) := by
  intro b hb
  have h3 := usize_large
  unfold takeBytes32 takeBytes
  simp only [bind_apply, remainingLen_apply, ite_apply']
  split
  · exact ⟨rfl, hb⟩
  · rename_i hn
    obtain ⟨e1, e2, hlt⟩ := advance32_at n b hb (by omega)
    rw [e1, e2]
    simp only [getPos_apply]
    rw [sub32_eq (by omega)]
    have e : wsub (b.pos + n) n = b.pos + n - n := if_pos (by omega)
    rw [e]
    refine ⟨rfl, ?_⟩
    unfold slice
    split <;> exact ⟨hb.1, hlt⟩

theorem takeArray32_same (n : Nat) : Same (takeArray32 n) (takeArray n) := by
  intro b hb
  unfold takeArray32 takeArray
  simp only [bind_apply, remaining_apply', ite_apply']
  split
  · rename_i hn
    rw [List.length_drop] at hn
    obtain ⟨e1, e2, hlt⟩ := advance32_at n b hb hn
    rw [e1, e2]
    exact ⟨rfl, hb.1, hlt⟩
  · exact ⟨rfl, hb⟩

theorem takeBytesStarts32_same (p : List Byte) : Same (takeBytesStarts32 p) (takeBytesStarts p) := by
  intro b hb
  unfold takeBytesStarts32 takeBytesStarts
  simp only [bind_apply, remaining_apply', ite_apply', List.length_drop]
  split
  · exact ⟨rfl, hb⟩
  · split
    · obtain ⟨e1, e2, hlt⟩ := advance32_at p.length b hb (by omega)
      rw [e1, e2]
      exact ⟨rfl, hb.1, hlt⟩
    · exact ⟨rfl, hb⟩

theorem takeScalar32_same (s : Scalar) (hs : s.Fixed) (o : ByteOrder) : Same (takeScalar32 s o) (takeScalar s o) := by
  obtain ⟨h1, h2⟩ := hs
  cases s <;> first
    | exact absurd rfl h1
    | exact absurd rfl h2
    | exact ((takeBytes32_same 1).bind fun v => .index0 v).bind fun _ => .pure _
    | exact (takeBytes32_same _).bind fun _ => .pure _

theorem takeN32_same (o : ByteOrder) (k n : Nat) : Same (takeN32 o k n) (takeN o k n) := by
  cases o
  · unfold takeN32 takeN takeBeN
    dsimp only
    split
    · exact (takeBytes32_same n).bind fun _ => .pure _
    · exact .fail _
  · unfold takeN32 takeN takeLeN
    dsimp only
    split
    · exact (takeBytes32_same n).bind fun _ => .pure _
    · exact .panic

/-- Moving by `k` and cutting `j` bytes from the old position. -/
theorem cut32_same (b : Buf) (hb : b.Small) (k j : Nat) (hk : k ≤ (b.data.drop b.pos).length)
    (hj : j ≤ (b.data.drop b.pos).length) :
    (advance32 k >>= fun _ => slice b.pos (add32 b.pos j)) b = (advance k >>= fun _ => slice b.pos (wadd b.pos j)) b ∧
      ((advance k >>= fun _ => slice b.pos (wadd b.pos j)) b).2.Small := by
  have h3 := usize_large
  rw [List.length_drop] at hk hj
  obtain ⟨e1, e2, hlt⟩ := advance32_at k b hb hk
  obtain ⟨_, _, hlt'⟩ := advance32_at j b hb hj
  rw [bind_apply, bind_apply, e1, e2, add32_eq hlt', wadd_eq (by omega)]
  refine ⟨rfl, ?_⟩
  dsimp only
  unfold slice
  split <;> exact ⟨hb.1, hlt⟩

theorem sum32 {b : Buf} (hb : b.Small) {i n : Nat} (h : i + n ≤ (b.data.drop b.pos).length) :
    add32 i n = i + n := by
  have h1 := hb.1
  have h3 := usize_large
  have h4 := max32_twice
  rw [List.length_drop] at h
  exact add32_eq (by omega)

theorem findSubsequence32_same (p : List Byte) : Same (findSubsequence32 p) (findSubsequence p) := by
  intro b hb
  unfold findSubsequence32 findSubsequence
  simp only [bind_apply (m := getPos), getPos_apply, bind_apply (m := remaining), remaining_apply']
  cases hf : findSub p (b.data.drop b.pos) with
  | none => exact ⟨rfl, hb⟩
  | some i =>
    have hle : i + p.length ≤ (b.data.drop b.pos).length := findSub_le hf
    have e1 := sum32 hb hle
    dsimp only
    rw [e1]
    exact cut32_same b hb _ _ hle (by omega)

theorem findSubsequenceNeedle32_same (p : List Byte) (incl : Bool) :
    Same (findSubsequenceNeedle32 p incl) (findSubsequenceNeedle p incl) := by
  intro b hb
  unfold findSubsequenceNeedle32 findSubsequenceNeedle
  simp only [bind_apply (m := getPos), getPos_apply, bind_apply (m := remaining), remaining_apply']
  cases hf : findSub p (b.data.drop b.pos) with
  | none => exact ⟨rfl, hb⟩
  | some i =>
    have hle : i + p.length ≤ (b.data.drop b.pos).length := findSub_le hf
    have e1 := sum32 hb hle
    dsimp only
    rw [e1]
    cases incl
    · exact cut32_same b hb _ _ (by show i ≤ _; omega) (by show i ≤ _; omega)
    · exact cut32_same b hb _ _ hle hle

theorem findSubsequences32_same (ps : List (List Byte)) : Same (findSubsequences32 ps) (findSubsequences ps) := by
  intro b hb
  unfold findSubsequences32 findSubsequences
  simp only [bind_apply (m := getPos), getPos_apply, bind_apply (m := remaining), remaining_apply']
  cases hf : acFind ps (b.data.drop b.pos) with
  | none => exact ⟨rfl, hb⟩
  | some m =>
    obtain ⟨s, e⟩ := m
    obtain ⟨hm, ⟨n, _, _, hn⟩, _⟩ := acFind_some hf
    exact cut32_same b hb _ _ hm (by omega)

theorem findSubsequencesNeedle32_same (ps : List (List Byte)) (incl : Bool) :
    Same (findSubsequencesNeedle32 ps incl) (findSubsequencesNeedle ps incl) := by
  intro b hb
  unfold findSubsequencesNeedle32 findSubsequencesNeedle
  simp only [bind_apply (m := getPos), getPos_apply, bind_apply (m := remaining), remaining_apply']
  cases hf : acFind ps (b.data.drop b.pos) with
  | none => exact ⟨rfl, hb⟩
  | some m =>
    obtain ⟨s, e⟩ := m
    obtain ⟨hm, ⟨n, _, _, hn⟩, _⟩ := acFind_some hf
    have hs : s ≤ (b.data.drop b.pos).length := by omega
    cases incl
    · exact cut32_same b hb _ _ hs hs
    · exact cut32_same b hb _ _ hm hm

/-- **C94**, reading: every read method but `take_usize` and `take_isize` does the same on both platforms, on every buffer
that a 32-bit program can hold. -/
theorem C94_read (op : ReadOp) (hop : ∀ s o, op = .scalar s o → s.Fixed) (b : Buf) (hb : b.Small) :
    op.run32 b = op.run b := by
  have key : Same op.run32 op.run := by
    cases op with
    | bytes n => exact (takeBytes32_same n).mapM' _
    | array n => exact (takeArray32_same n).mapM' _
    | byteorderArray n o => exact ((takeArray32_same n).bind fun _ => .pure _).mapM' _
    | starts p => exact (takeBytesStarts32_same p).mapM' _
    | bool => exact ((takeBytes32_same 1).bind fun v => (Same.index0 v).bind fun _ => .pure _).mapM' _
    | char => exact ((takeBytes32_same 1).bind fun v => (Same.index0 v).bind fun _ => .pure _).mapM' _
    | scalar s o => exact (takeScalar32_same s (hop s o rfl) o).mapM' _
    | u24 o => exact (takeN32_same o 4 3).mapM' _
    | uint n o => exact (takeN32_same o 8 n).mapM' _
    | find p => exact (findSubsequence32_same p).mapM' _
    | findNeedle p i => exact (findSubsequenceNeedle32_same p i).mapM' _
    | finds ps => exact (findSubsequences32_same ps).mapM' _
    | findsNeedle ps i => exact (findSubsequencesNeedle32_same ps i).mapM' _
  exact (key b hb).1

/-- Inside the data of a buffer that a 32-bit program can hold. -/
def Buf.Ok32 (b : Buf) : Prop := b.pos ≤ b.data.length ∧ b.data.length ≤ max32

theorem Buf.Ok32.ok {b : Buf} (h : b.Ok32) : b.Ok := ⟨h.1, by
  have := h.2
  have := isize_large
  have := max32_twice
  omega⟩

theorem Buf.Ok32.small {b : Buf} (h : b.Ok32) : b.Small := ⟨h.2, by
  have := h.1
  have := h.2
  have := max32_twice
  omega⟩

theorem push32_fits (d : List Byte) (b : Buf) (hb : b.Ok32) (h : b.pos + d.length ≤ max32) :
    push32 d b = push d b ∧ (push d b).2.Ok32 := by
  have h3 := usize_large
  have h4 := isize_large
  have h5 := max32_twice
  obtain ⟨h1, h2⟩ := hb
  have hw : push d b = (.ok d.length, window b d) := by
    rcases push_cases d (by omega) b (Buf.Ok32.ok ⟨h1, h2⟩) with ⟨_, e⟩ | ⟨hl, _⟩
    · exact e
    · omega
  refine ⟨?_, ?_⟩
  · have key : ∀ b' : Buf, b'.pos = b.pos →
        (overwrite d >>= fun _ => advance32 d.length >>= fun _ => (Pure.pure d.length : M Nat)) b' =
          (overwrite d >>= fun _ => advance d.length >>= fun _ => (Pure.pure d.length : M Nat)) b' := by
      intro b' hb
      have e : ∀ b'' : Buf, b''.pos = b.pos → advance32 d.length b'' = advance d.length b'' := by
        intro b'' hb''
        rw [advance_apply, hb'', wadd_eq (by omega)]
        show (Out.ok (), { b'' with pos := add32 b''.pos d.length }) = _
        rw [hb'', add32_eq (by omega)]
      rw [bind_apply, bind_apply]
      unfold overwrite
      split <;> rename_i he
      · split at he
        · cases he
          exact bind_same (e ⟨b'.data.take b'.pos ++ d ++ b'.data.drop (b'.pos + d.length), b'.pos⟩ hb) _
        · cases he
      · rfl
      · rfl
      · rfl
    unfold push32 push
    rw [bind_apply, bind_apply, remainingLen_apply]
    by_cases hgt : d.length > b.data.length - b.pos
    · simp only [if_pos hgt]
      have e : (getPos >>= fun p => vecResize32 (add32 p d.length) >>= fun _ => (Pure.pure (add32 p d.length) : M Nat)) b =
          (.ok (b.pos + d.length),
            ⟨b.data.take (b.pos + d.length) ++ List.replicate (b.pos + d.length - b.data.length) 0, b.pos⟩) := by
        rw [bind_apply, getPos_apply]
        show (vecResize32 (add32 b.pos d.length) >>= fun _ => (Pure.pure (add32 b.pos d.length) : M Nat)) b = _
        rw [add32_eq (by omega), bind_apply]
        unfold vecResize32
        rw [if_pos h]
        rfl
      have e' := bufResize_wrap d.length b (b.pos + d.length) (wadd_eq (by omega)) (by omega)
      rw [bind_apply, e, bind_apply, e']
      show (if b.pos + d.length = 0 then _ else _ : M Nat) _ = (if b.pos + d.length = 0 then _ else _ : M Nat) _
      split
      · rfl
      · exact key _ rfl
    · simp only [if_neg hgt]
      exact key b rfl
  · rw [hw]
    constructor
    · simp only [window, List.length_append, List.length_take, List.length_drop]; omega
    · simp only [window, List.length_append, List.length_take, List.length_drop]; omega

theorem push32_full (d : List Byte) (b : Buf) (hb : b.Ok32) (hd : d.length ≤ max32) (h : max32 < b.pos + d.length) :
    push32 d b = (.panic, b) := by
  have h5 := max32_twice
  obtain ⟨h1, h2⟩ := hb
  unfold push32
  simp only [bind_apply, remainingLen_apply, ite_apply']
  rw [if_pos (by omega)]
  simp only [getPos_apply]
  have e : vecResize32 (add32 b.pos d.length) b = (.panic, b) := by
    rw [add32_eq (by omega)]
    exact if_neg (by omega)
  rw [e]

theorem run32_eq (op : WriteOp) (hop : ∀ s v o, op = .scalar s v o → s.Fixed) (b : Buf) :
    op.run32 b = match op.payload with
    | some d => push32 d b
    | none => (.err ⟨b.pos, .invalidByteLength⟩, b) := by
  cases op with
  | bytes d => rfl
  | byteorderArray d o => cases o <;> rfl
  | bool c => rfl
  | char c => rfl
  | scalar s v o =>
    obtain ⟨h1, h2⟩ := hop s v o rfl
    cases s <;> first
      | exact absurd rfl h1
      | exact absurd rfl h2
      | rfl
      | (show push32 [UInt8.ofNat v] b = push32 (toBytes o 1 v) b; rw [toBytes_one])
  | u24 v o =>
    cases o
    · show push32 ((toBE 4 v).drop (4 - 3)) b = push32 (toBytes .be 3 v) b
      rw [toBE_drop 4 3 v (by omega)]
      rfl
    · show push32 ((toLE 4 v).take 3) b = push32 (toBytes .le 3 v) b
      rw [toLE_take 4 3 v (by omega)]
      rfl
  | uint v n o =>
    show (if n ≤ 8 then _ else _ : M Nat) b = match (if n ≤ 8 then _ else _ : Option (List Byte)) with
      | some d => push32 d b
      | none => _
    split
    · rename_i hn
      cases o
      · show push32 ((toBE 8 v).drop (8 - n)) b = push32 (toBytes .be n v) b
        rw [toBE_drop 8 n v hn]
        rfl
      · show push32 ((toLE 8 v).take n) b = push32 (toBytes .le n v) b
        rw [toLE_take 8 n v hn]
        rfl
    · rfl

/-- **C94**, writing: every write method but `push_usize` and `push_isize` writes the same on both platforms, as long as
the data fits in the memory of the smaller one; otherwise it panics there, with the buffer as it was. -/
theorem C94_write (op : WriteOp) (hop : ∀ s v o, op = .scalar s v o → s.Fixed) (b : Buf) (hb : b.Ok32) :
    (∀ d, op.payload = some d → d.length ≤ max32 ∧ max32 < b.pos + d.length → op.run32 b = (.panic, b)) ∧
    ((∀ d, op.payload = some d → b.pos + d.length ≤ max32) → op.run32 b = op.run b) := by
  rw [run32_eq op hop b, run_eq op b]
  cases hp : op.payload with
  | none => exact ⟨fun d h => (by cases h), fun _ => rfl⟩
  | some d =>
    refine ⟨fun d' h hd => ?_, fun h => (push32_fits d b hb (h d rfl)).1⟩
    cases h
    exact push32_full d b hb hd.1 hd.2

/-! ### All types -/

/-- Readers of the two platforms: lengths, counts and tags of up to four bytes, no `offset`. -/
def readCmp32 : Cmp Buf where
  R s b := s = b ∧ b.Small
  P := False
  Q p := p < mod32
  W k := k ≤ 4
  free := False
  back := False

/-- Writers of the two platforms; the 32-bit one may run out of memory. -/
def writeCmp32 : Cmp Buf where
  R s b := s = b ∧ b.Ok32
  P := True
  Q p := p < mod32
  W _ := False
  free := False
  back := False

theorem Same.simul {m' m : M α} (h : Same m' m) : Simul readCmp32 m' m := by
  rintro s b ⟨rfl, hb⟩
  obtain ⟨e, h'⟩ := h s hb
  exact .inr ⟨by rw [e], by rw [e], h'⟩

theorem takeUint_lt {k : Nat} {o : ByteOrder} {b b' : Buf} {v : Nat} (hk : k ≤ 4) (h : takeUint k o b = (.ok v, b')) :
    v < mod32 := by
  have h8 : k ≤ 8 := by omega
  have h : takeN o 8 k b = (.ok v, b') := h
  rw [takeN_apply o 8 k h8, mapM'_apply] at h
  rcases hx : takeBytes k b with ⟨x, c⟩
  rw [hx] at h
  cases x with
  | ok w =>
    cases h
    have hl : w.length = k := takeBytes_window (by have := usize_large; have : 4 < mod32 := (by decide); omega) hx
    have := fromBytes_lt o w
    rw [hl] at this
    have : 256 ^ k ≤ 256 ^ 4 := Nat.pow_le_pow_right (by decide) hk
    have : (256 : Nat) ^ 4 = mod32 := by decide
    omega
  | err e => cases h
  | panic => cases h
  | timeout => cases h

theorem io32_lawful : io32.Lawful readCmp32 where
  pos s b h := ⟨s, by rw [h.1]; rfl, h, h.2.2⟩
  setPos p hp := by
    rintro s b ⟨rfl, hb⟩
    exact .inr ⟨rfl, rfl, hb.1, hp⟩
  step n s b h hn := by
    obtain ⟨rfl, hb⟩ := h
    obtain ⟨e1, e2, hlt⟩ := advance32_at n s hb hn
    refine .inr ?_
    show (advance32 n s).1 = _ ∧ (advance32 n s).2 = _ ∧ _
    rw [e1, e2]
    exact ⟨rfl, rfl, hb.1, hlt⟩
  advance h := h.elim
  remaining := (Same.still fun _ => rfl).simul
  takeBytes n := (takeBytes32_same n).simul
  starts p := (takeBytesStarts32_same p).simul
  takeU8 := ((takeBytes32_same 1).bind fun v => .index0 v).simul
  takeBool := ((takeBytes32_same 1).bind fun v => (Same.index0 v).bind fun _ => .pure _).simul
  takeChar := ((takeBytes32_same 1).bind fun v => (Same.index0 v).bind fun _ => .pure _).simul
  scalar s o h := (takeScalar32_same s (h.resolve_right (by decide)) o).simul
  uint n o := (takeN32_same o 8 n).simul
  find x := (findSubsequence32_same x).simul
  findNeedle x i := (findSubsequenceNeedle32_same x i).simul
  finds x := (findSubsequences32_same x).simul
  cast k o b v b' hk h := Nat.mod_eq_of_lt (takeUint_lt hk h)

theorem push32_sim (d : List Byte) (hd : d.length ≤ max32) : Simul writeCmp32 (push32 d) (JBytes.push d) := by
  rintro s b ⟨rfl, hb⟩
  by_cases h : s.pos + d.length ≤ max32
  · obtain ⟨e, h'⟩ := push32_fits d s hb h
    exact .inr ⟨by rw [e], by rw [e], h'⟩
  · exact .inl ⟨trivial, by rw [push32_full d s hb hd (by omega)]⟩

theorem run32_sim (op : WriteOp) (hop : ∀ s v o, op = .scalar s v o → s.Fixed)
    (hd : ∀ d, op.payload = some d → d.length ≤ max32) : Simul writeCmp32 op.run32 op.run := by
  intro s b h
  have e1 := run32_eq op hop s
  have e2 := run_eq op b
  cases hp : op.payload with
  | none =>
    rw [hp] at e1 e2
    obtain ⟨rfl, hb⟩ := h
    exact .inr ⟨by rw [e1, e2], by rw [e1, e2], by rw [e2]; exact hb⟩
  | some d =>
    rw [hp] at e1 e2
    exact (push32_sim d (hd d hp) s b h).congr e1 e2

theorem sixteen32 : 16 ≤ max32 := by decide

theorem io32_lawfulW : io32.LawfulW writeCmp32 max32 where
  pos s b h := ⟨s, by rw [h.1]; rfl, h, h.2.small.2⟩
  push := push32_sim
  array d o hd := run32_sim (.byteorderArray d o) (fun _ _ _ h => by cases h) fun x hx => payload_array hd hx
  pushU8 x := push32_sim [x] (by rw [List.length_singleton]; decide)
  pushBool x := run32_sim (.bool x) (fun _ _ _ h => by cases h) fun _ hx => Nat.le_trans (payload_bool hx) sixteen32
  pushChar x := run32_sim (.char x) (fun _ _ _ h => by cases h) fun _ hx => Nat.le_trans (payload_char hx) sixteen32
  pushScalar s v o h := run32_sim (.scalar s v o)
    (fun _ _ _ e => by cases e; exact h.resolve_right (by decide))
    fun _ hx => Nat.le_trans (payload_scalar hx) sixteen32
  pushUint v n o := run32_sim (.uint v n o) (fun _ _ _ h => by cases h) fun _ hx => Nat.le_trans (payload_uint hx) sixteen32
  back h := h.elim

/-- **C94**, decoding: a type definition without `usize`, `isize` and `NetAddress`, without `offset`, and with lengths,
counts and tags of at most four bytes decodes every input of a 32-bit program to the same result and position on both
platforms.  (The modifiers of the fields are the same on both: `C94_modifiers`.) -/
theorem C94_decode_partial (d' : Nat → DecS Buf α) (d : Nat → Dec α)
    (h : Twin io32 readCmp32 (fun _ _ _ => False) α d' d) (fuel : Nat) (ca : Option CAttr) (fa : Option FAttr)
    (hfa : FaIn readCmp32 fa) (b : Buf) (hb : b.Small) : d' fuel ca fa b = d fuel ca fa b := by
  rcases h.sim io32_lawful (fun _ _ _ h => h.elim) fuel ca fa hfa b b ⟨rfl, hb⟩ with ⟨h, _⟩ | ⟨h1, h2, _⟩
  · exact h.elim
  · exact Prod.ext h1 h2

/-- **C94**, encoding: such a type definition is written alike on both platforms, unless the 32-bit one runs out of
memory (`C94_write`). -/
theorem C94_encode_partial (V : α → Prop) (e' : EncS Buf α) (e : Enc α)
    (h : EncTwin io32 writeCmp32 max32 (fun _ P _ _ => ∀ v, ¬ P v) α V e' e) (v : α) (hv : V v) (ca : Option CAttr)
    (fa : Option FAttr) (hfa : FaOut? writeCmp32 max32 fa) (b : Buf) (hb : b.Ok32) :
    (e' v ca fa b).1 = .panic ∨ e' v ca fa b = e v ca fa b := by
  rcases h.sim io32_lawfulW (by decide) (fun _ _ _ _ h v hv => absurd hv (h v)) v hv ca fa hfa b b ⟨rfl, hb⟩ with
    ⟨_, h⟩ | ⟨h1, h2, _⟩
  · exact .inl h
  · exact .inr (Prod.ext h1 h2)

theorem map_mod {V : Type} {o : Option (Env V → Nat)} (h : ∀ e env, o = some e → e env < mod32) :
    (o.map fun e env => e env % mod32) = o := by
  cases o with
  | none => rfl
  | some e =>
    show some _ = some _
    congr 1
    funext env
    exact Nat.mod_eq_of_lt (h e env rfl)

/-- C94: the modifiers of a field are the same on both platforms if their expressions only have values below `2^32`. -/
theorem C94_modifiers {V : Type} (a : FieldAttrs V)
    (h : ∀ e env, (a.branch = some e ∨ a.length = some e ∨ a.count = some e ∨ a.tryCount = some e ∨ a.bits = some e ∨
      a.byteCount = some e ∨ a.byteCountOutside = some e ∨ a.offset = some e) → e env < mod32) : a.at32 = a := by
  unfold FieldAttrs.at32
  rw [map_mod fun e env he => h e env (.inl he), map_mod fun e env he => h e env (.inr (.inl he)),
    map_mod fun e env he => h e env (.inr (.inr (.inl he))), map_mod fun e env he => h e env (.inr (.inr (.inr (.inl he)))),
    map_mod fun e env he => h e env (.inr (.inr (.inr (.inr (.inl he))))),
    map_mod fun e env he => h e env (.inr (.inr (.inr (.inr (.inr (.inl he)))))),
    map_mod fun e env he => h e env (.inr (.inr (.inr (.inr (.inr (.inr (.inl he))))))),
    map_mod fun e env he => h e env (.inr (.inr (.inr (.inr (.inr (.inr (.inr he)))))))]

/-! ### Where the platforms differ -/

theorem decUsize32 (signed : Bool) (ca : Option CAttr) (b : Buf) (hb : b.Ok32) (h : b.pos + 4 ≤ b.data.length) :
    io32.decUsize signed ca none b =
      (.ok (fromBytes (getByteorder ca none) ((b.data.drop b.pos).take 4)), ⟨b.data, b.pos + 4⟩) := by
  have e : takeBytes32 4 b = (.ok ((b.data.drop b.pos).take 4), ⟨b.data, b.pos + 4⟩) := by
    rw [(takeBytes32_same 4 b hb.small).1, takeBytes_apply 4 b hb.ok, if_neg (by omega)]
  show @Bind.bind (MS Buf) _ Nat Nat (takeScalar32 (if signed then .isize else .usize) (getByteorder ca none))
    (fun v => (Pure.pure v : MS Buf Nat)) b = _
  refine (MS.bind_apply _ _ b).trans ?_
  have e' : takeScalar32 (if signed then .isize else .usize) (getByteorder ca none) b =
      (takeBytes32 4 >>= fun v => Pure.pure (fromBytes (getByteorder ca none) v)) b := by
    cases signed <;> rfl
  rw [e', bind_apply, e]
  rfl

theorem decUsize64 (signed : Bool) (ca : Option CAttr) (b : Buf) (hb : b.Ok) (h : b.pos + 8 ≤ b.data.length) :
    decInt ⟨8, signed⟩ ca none b =
      (.ok (fromBytes (getByteorder ca none) ((b.data.drop b.pos).take 8)), ⟨b.data, b.pos + 8⟩) := by
  have e : takeBytes 8 b = (.ok ((b.data.drop b.pos).take 8), ⟨b.data, b.pos + 8⟩) := by
    rw [takeBytes_apply 8 b hb, if_neg (by omega)]
  show ((takeScalar (IntKind.scalar ⟨8, signed⟩) (getByteorder ca none)) >>= fun v => Pure.pure v) b = _
  rw [bind_apply]
  have e' : takeScalar (IntKind.scalar ⟨8, signed⟩) (getByteorder ca none) b =
      (takeBytes 8 >>= fun v => Pure.pure (fromBytes (getByteorder ca none) v)) b := by
    cases signed <;> rfl
  rw [e', bind_apply, e]
  rfl

/-- C94 fails for every `usize` and `isize`, read: four bytes on the one platform, eight on the other, whatever they
are. -/
theorem C94_usize_read (signed : Bool) (ca : Option CAttr) (b : Buf) (hb : b.Ok32) (h : b.pos + 8 ≤ b.data.length) :
    (io32.decUsize signed ca none b).2.pos = b.pos + 4 ∧ (decInt ⟨8, signed⟩ ca none b).2.pos = b.pos + 8 := by
  rw [decUsize32 signed ca b hb (by omega), decUsize64 signed ca b hb.ok h]
  exact ⟨rfl, rfl⟩

/-- C94 fails for every `usize` and `isize`, written: four bytes on the one platform, eight on the other, whatever the
value. -/
theorem C94_usize_write (signed : Bool) (v : Nat) (ca : Option CAttr) (b : Buf) (hb : b.Ok32) (h : b.pos + 8 ≤ max32) :
    (io32.encUsize signed v ca none b).1 = .ok 4 ∧ (encInt ⟨8, signed⟩ v ca none b).1 = .ok 8 := by
  have h4 := isize_large
  have h5 := max32_twice
  constructor
  · have e : io32.encUsize signed v ca none b = push32 (toBytes (getByteorder ca none) 4 v) b := by
      cases signed <;> rfl
    have hl : (toBytes (getByteorder ca none) 4 v).length = 4 := toBytes_length ..
    rw [e, (push32_fits _ b hb (by omega)).1]
    rcases push_cases (toBytes (getByteorder ca none) 4 v) (by omega) b hb.ok with ⟨_, e⟩ | ⟨h', _⟩
    · rw [e, hl]
    · omega
  · have e : encInt ⟨8, signed⟩ v ca none b = push (toBytes (getByteorder ca none) 8 v) b := by
      cases signed <;> rfl
    have hl : (toBytes (getByteorder ca none) 8 v).length = 8 := toBytes_length ..
    rw [e]
    rcases push_cases (toBytes (getByteorder ca none) 8 v) (by omega) b hb.ok with ⟨_, e⟩ | ⟨h', _⟩
    · rw [e, hl]
    · omega

/-- C94: a byte string with a length of `k` bytes in front (`byte_count = k`) is decoded alike on both platforms if and
only if the length is below `2^32`, or what is left of it on the smaller one is too long, too. -/
theorem C94_length_iff (k : Nat) (hk : k ≤ 8) (ca : Option CAttr) (o : Option ByteOrder) (b : Buf) (hb : b.Ok32)
    (hl : b.pos + k ≤ b.data.length) (n : Nat)
    (hn : n = fromBytes (getByteorder ca (some { byteCount := some k, byteorder := o })) ((b.data.drop b.pos).take k)) :
    io32.decBytes ca (some { byteCount := some k, byteorder := o }) b =
      decBytes ca (some { byteCount := some k, byteorder := o }) b ↔
    n < mod32 ∨ b.data.length < b.pos + k + n % mod32 := by
  have hu : takeUint k (getByteorder ca (some { byteCount := some k, byteorder := o })) b = (.ok n, ⟨b.data, b.pos + k⟩) := by
    show takeN _ 8 k b = _
    rw [takeN_apply _ 8 k hk, mapM'_apply, takeBytes_apply k b hb.ok, if_neg (by omega), hn]
  have hb' : Buf.Ok32 ⟨b.data, b.pos + k⟩ := ⟨hl, hb.2⟩
  have e1 : io32.decBytes ca (some { byteCount := some k, byteorder := o }) b = takeBytes (n % mod32) ⟨b.data, b.pos + k⟩ := by
    show @Bind.bind (MS Buf) _ Nat (List Byte)
      (takeN32 (getByteorder ca (some { byteCount := some k, byteorder := o })) 8 k) (fun n => takeBytes32 (n % mod32)) b = _
    refine (MS.bind_apply _ _ b).trans ?_
    rw [(takeN32_same _ 8 k b hb.small).1]
    have hu' : takeN (getByteorder ca (some { byteCount := some k, byteorder := o })) 8 k b = (.ok n, ⟨b.data, b.pos + k⟩) := hu
    rw [hu']
    exact (takeBytes32_same _ _ hb'.small).1
  have e2 : decBytes ca (some { byteCount := some k, byteorder := o }) b = takeBytes n ⟨b.data, b.pos + k⟩ := by
    show (takeUint k (getByteorder ca (some { byteCount := some k, byteorder := o })) >>= fun n => takeBytes n) b = _
    rw [bind_apply, hu]
  rw [e1, e2]
  have hlen := hb.2
  have h5 := max32_twice
  by_cases h : n < mod32
  · rw [Nat.mod_eq_of_lt h]
    exact ⟨fun _ => .inl h, fun _ => rfl⟩
  · rw [takeBytes_apply _ _ hb'.ok, takeBytes_apply n _ hb'.ok]
    have ht : b.data.length - (b.pos + k) < n := by omega
    simp only [if_pos ht]
    constructor
    · intro he
      right
      split at he
      · omega
      · cases he
    · rintro (h' | h')
      · exact absurd h' h
      · rw [if_pos (by omega)]

/-- C94 fails for a length of eight bytes, a count of eight bytes, and a tag of eight bytes above `2^32`: the 64-bit
program refuses the input, the 32-bit program accepts it. -/
theorem C94_width_violated :
    (io32.decBytes none (some { byteCount := some 8 }) ⟨[0, 0, 0, 1, 0, 0, 0, 1, 65], 0⟩ =
        (.ok [65], ⟨[0, 0, 0, 1, 0, 0, 0, 1, 65], 9⟩) ∧
      ∃ b e, decBytes none (some { byteCount := some 8 }) ⟨[0, 0, 0, 1, 0, 0, 0, 1, 65], 0⟩ = (.err e, b)) ∧
    (io32.getCount none (some { byteCountOutside := some 8 }) ⟨[0, 0, 0, 1, 0, 0, 0, 1, 65], 0⟩).1 = .ok (1, none) ∧
    (getCount none (some { byteCountOutside := some 8 }) ⟨[0, 0, 0, 1, 0, 0, 0, 1, 65], 0⟩).1 = .ok (4294967297, none) ∧
    (io32.decTag none none (some { byteCount := some 8 }) ⟨[0, 0, 0, 1, 0, 0, 0, 1, 65], 0⟩).1 = .ok 1 ∧
    (decTag none none (some { byteCount := some 8 }) ⟨[0, 0, 0, 1, 0, 0, 0, 1, 65], 0⟩).1 = .ok 4294967297 := by
  refine ⟨⟨?_, ?_⟩, ?_, ?_, ?_, ?_⟩
  · decide +kernel
  · exact ⟨⟨[0, 0, 0, 1, 0, 0, 0, 1, 65], 8⟩, ⟨8, .invalidByteLength⟩, by decide +kernel⟩
  all_goals decide +kernel

/-- `struct { n: u64, #[jbytes(length = "n")] body: Vec<u8> }` -/
def longAttrs : FieldAttrs Val := { isUse := true, length := some fun env => match env.fields with | [.num n] => n | _ => 0 }

/-- C94 fails for a modifier whose expression is above `2^32`: the length passed to the field is another one. -/
theorem C94_modifiers_violated :
    (longAttrs.at32.modifiers none { fields := [.num 4294967297] }).length = some 1 ∧
    (longAttrs.modifiers none { fields := [.num 4294967297] }).length = some 4294967297 := ⟨rfl, rfl⟩

/-- C94 fails for `Seek`: an offset above `2^32` loses its upper half without an error. -/
theorem C94_seek_violated :
    ioSeek32 (.start 4294967298) ⟨[1, 2, 3], 0⟩ = (.ok (some 0), ⟨[1, 2, 3], 2⟩) ∧
    ioSeek (.start 4294967298) ⟨[1, 2, 3], 0⟩ = (.ok (some 0), ⟨[1, 2, 3], 4294967298⟩) := by
  constructor <;> decide +kernel

/-- Specification: where a seek should go. -/
def SeekFrom.target (p len : Nat) : SeekFrom → Int
  | .start o => o
  | .fromEnd o => len + o
  | .current o => p + o

/-- Specification: the offset of a seek. -/
def SeekFrom.offset : SeekFrom → Int
  | .start o => o
  | .fromEnd o => o
  | .current o => o

/-- C94: a seek does the same on both platforms as long as its offset, its target and the position fit in the `isize` of
the smaller one. -/
theorem C94_seek_partial (s : SeekFrom) (b : Buf) (hb : b.data.length ≤ max32) (hp : b.pos ≤ max32)
    (h1 : -2147483648 ≤ s.offset ∧ s.offset ≤ 2147483647)
    (h2 : -2147483648 ≤ s.target b.pos b.data.length ∧ s.target b.pos b.data.length ≤ 2147483647) :
    ioSeek32 s b = ioSeek s b := by
  have w32 : ∀ x : Int, -2147483648 ≤ x → x ≤ 2147483647 → wrapIsize32 x = x := by
    intro x _ _
    unfold wrapIsize32
    omega
  have w64 : ∀ x : Int, -2147483648 ≤ x → x ≤ 2147483647 → wrapIsize x = x := by
    intro x _ _
    unfold wrapIsize
    omega
  unfold max32 at hb hp
  unfold ioSeek32 ioSeek
  simp only [bind_apply (m := getPos), getPos_apply, bind_apply (m := getData), getData_apply]
  cases s with
  | start o =>
    simp only [SeekFrom.offset] at h1
    simp only [seekTarget, w32 o h1.1 h1.2, w64 o h1.1 h1.2]
  | fromEnd o =>
    simp only [SeekFrom.offset] at h1
    simp only [SeekFrom.target] at h2
    simp only [seekTarget, w32 o h1.1 h1.2, w64 o h1.1 h1.2, w32 b.data.length (by omega) (by omega),
      w64 b.data.length (by omega) (by omega), w32 _ h2.1 h2.2, w64 _ h2.1 h2.2]
  | current o =>
    simp only [SeekFrom.offset] at h1
    simp only [SeekFrom.target] at h2
    simp only [seekTarget, w32 o h1.1 h1.2, w64 o h1.1 h1.2, w32 b.pos (by omega) (by omega),
      w64 b.pos (by omega) (by omega), w32 _ h2.1 h2.2, w64 _ h2.1 h2.2]

/-- C94 fails for `NetAddress` of a length that is none of 4, 6 and 16. -/
theorem C94_net_violated :
    io32.decNet none (some { length := some 3 }) ⟨[0, 0, 1, 9, 9, 9, 9, 9], 0⟩ =
        (.ok (.usize 1), ⟨[0, 0, 1, 9, 9, 9, 9, 9], 3⟩) ∧
    decNet none (some { length := some 3 }) ⟨[0, 0, 1, 9, 9, 9, 9, 9], 0⟩ =
        (.ok (.usize 1), ⟨[0, 0, 1, 9, 9, 9, 9, 9], 3⟩) ∧
    (∃ b e, io32.decNet none (some { length := some 8 }) ⟨[0, 0, 0, 0, 0, 0, 0, 1], 0⟩ = (.err e, b)) ∧
    decNet none (some { length := some 8 }) ⟨[0, 0, 0, 0, 0, 0, 0, 1], 0⟩ =
        (.ok (.usize 1), ⟨[0, 0, 0, 0, 0, 0, 0, 1], 8⟩) := by
  refine ⟨?_, ?_, ⟨⟨[0, 0, 0, 0, 0, 0, 0, 1], 0⟩, ⟨0, .invalidByteLength⟩, ?_⟩, ?_⟩ <;> decide +kernel

/-! ### Examples -/

/-- `kindEnum` on a 32-bit platform. -/
def kindEnum32 : EnumS Buf Val := ⟨kindEnum, fun i => match i with
  | 0 => [(u8Field {}).atDec fun ca fa => do
      let a ← io32.decInt ⟨1, false⟩ ca fa
      return Val.num a]
  | 1 => [(u16Field { isUse := true, length := some fun _ => 1 }).atDec fun ca fa => do
      let a ← io32.decInt ⟨2, false⟩ ca fa
      return Val.num a]
  | _ => []⟩

/-- `message` on a 32-bit platform. -/
def message32 (n : Nat) : StructS Buf Part := ⟨message n, [
  lenField.atDec fun ca fa => do
    let a ← io32.decInt ⟨1, false⟩ ca fa
    return Part.num a,
  bodyField.atDec fun ca fa => do
    let a ← io32.decBytes ca fa
    return Part.bytes a,
  (kindsField n).atDec fun ca fa => do
    let a ← io32.decVec n (io32.decEnum kindEnum32) ca fa
    return Part.choices a]⟩

theorem AttrsIn.narrow32 {V : Type} (a : FieldAttrs V) (h1 : a.withDecode = none) (h2 : a.offset = none)
    (h3 : ∀ e env, a.byteCount = some e → e env ≤ 4) (h4 : ∀ e env, a.byteCountOutside = some e → e env ≤ 4) :
    AttrsIn readCmp32 a := by
  refine ⟨h1, .inl h2, fun o env fr e => ?_⟩
  cases e
  refine ⟨fun k hk => ?_, fun k hk => ?_⟩
  · have hk : a.byteCount.map (· env) = some k := hk
    cases h : a.byteCount with
    | none =>
      rw [h] at hk
      cases hk
    | some x =>
      rw [h] at hk
      cases hk
      exact h3 x env h
  · have hk : a.byteCountOutside.map (· env) = some k := hk
    cases h : a.byteCountOutside with
    | none =>
      rw [h] at hk
      cases hk
    | some x =>
      rw [h] at hk
      cases hk
      exact h4 x env h

theorem FieldIn.atDec {V : Type} {f : Field V} {d : DecS Buf V} (h : AttrsIn readCmp32 f.attrs) :
    FieldIn readCmp32 (f.atDec d) f := ⟨rfl, rfl, rfl, h⟩

/-- An integer field of `kindEnum`, on both platforms. -/
def numTwin (k : IntKind) : (Nat → DecS Buf Val) × (Nat → Dec Val) := (fun _ ca fa => do
    let a ← io32.decInt k ca fa
    return Val.num a, fun _ => numDec k)

theorem kind_twin : Twin io32 readCmp32 (fun _ _ _ => False) (Nat × List Val) (fun _ => io32.decEnum kindEnum32)
    (fun _ => decEnum kindEnum) := by
  have hp : AttrsIn readCmp32 ({} : FieldAttrs Val) :=
    .narrow32 _ rfl rfl (fun _ _ h => by cases h) (fun _ _ h => by cases h)
  have hl : AttrsIn readCmp32 ({ isUse := true, length := some fun _ => 1 } : FieldAttrs Val) :=
    .narrow32 _ rfl rfl (fun _ _ h => by cases h) (fun _ _ h => by cases h)
  refine Twin.enum (fun _ => kindEnum32) (fun _ => kindEnum)
    (fun _ i => match i with
      | 0 => [((u8Field {}).atDec ((numTwin ⟨1, false⟩).1 0), u8Field {})]
      | 1 => [((u16Field { isUse := true, length := some fun _ => 1 }).atDec ((numTwin ⟨2, false⟩).1 0),
          u16Field { isUse := true, length := some fun _ => 1 })]
      | _ => [])
    [numTwin ⟨1, false⟩, numTwin ⟨2, false⟩] ?_ ?_ ?_
  · intro d hd
    simp only [List.mem_cons, List.not_mem_nil, or_false] at hd
    rcases hd with rfl | rfl
    · exact .inject Val.num (.int ⟨1, false⟩)
    · exact .inject Val.num (.int ⟨2, false⟩)
  · intro n
    refine ⟨rfl, rfl, fun c k h => (by cases h), ?_, ?_, ?_, ?_⟩
    · intro v hv
      simp only [kindEnum, List.mem_cons, List.not_mem_nil, or_false] at hv
      rcases hv with rfl | rfl <;> exact hp
    · intro i
      match i with
      | 0 => rfl
      | 1 => rfl
      | _ + 2 => rfl
    · intro i v h
      match i with
      | 0 => cases h; rfl
      | 1 => cases h; rfl
      | _ + 2 => cases h
    · intro i v h x hx
      match i with
      | 0 =>
        simp only [List.mem_cons, List.not_mem_nil, or_false] at hx
        subst hx
        exact .atDec hp
      | 1 =>
        simp only [List.mem_cons, List.not_mem_nil, or_false] at hx
        subst hx
        exact .atDec hl
      | _ + 2 => cases h
  · intro n i v h x hx
    match i with
    | 0 =>
      simp only [List.mem_cons, List.not_mem_nil, or_false] at hx
      subst hx
      exact ⟨numTwin ⟨1, false⟩, by simp, rfl, rfl⟩
    | 1 =>
      simp only [List.mem_cons, List.not_mem_nil, or_false] at hx
      subst hx
      exact ⟨numTwin ⟨2, false⟩, by simp, rfl, rfl⟩
    | _ + 2 => cases h

theorem message_twin : Twin io32 readCmp32 (fun _ _ _ => False) (List Part) (fun n => io32.decStruct (message32 n))
    (fun n => decStruct (message n)) := by
  have h2 : ∀ k ∈ ([2] : List Nat), k ≤ 4 := by decide
  refine Twin.struct message32 message
    (fun n => [(lenField.atDec fun ca fa => do
        let a ← io32.decInt ⟨1, false⟩ ca fa
        return Part.num a, lenField),
      (bodyField.atDec fun ca fa => do
        let a ← io32.decBytes ca fa
        return Part.bytes a, bodyField),
      ((kindsField n).atDec fun ca fa => do
        let a ← io32.decVec n (io32.decEnum kindEnum32) ca fa
        return Part.choices a, kindsField n)])
    [(fun _ ca fa => do
        let a ← io32.decInt ⟨1, false⟩ ca fa
        return Part.num a, fun _ => lenField.dec),
      (fun _ ca fa => do
        let a ← io32.decBytes ca fa
        return Part.bytes a, fun _ => bodyField.dec),
      (fun n ca fa => do
        let a ← io32.decVec n (io32.decEnum kindEnum32) ca fa
        return Part.choices a, fun n => (kindsField n).dec)] ?_ ?_ ?_
  · intro d hd
    simp only [List.mem_cons, List.not_mem_nil, or_false] at hd
    rcases hd with rfl | rfl | rfl
    · exact .inject Part.num (.int ⟨1, false⟩)
    · exact .inject Part.bytes .bytes
    · exact .inject Part.choices (.vec kind_twin)
  · intro n
    exact ⟨rfl, rfl, rfl, rfl⟩
  · intro n x hx
    simp only [List.mem_cons, List.not_mem_nil, or_false] at hx
    rcases hx with rfl | rfl | rfl
    · exact ⟨.atDec (.narrow32 _ rfl rfl (fun _ _ h => by cases h) (fun _ _ h => by cases h)), _, .head _, rfl, rfl⟩
    · exact ⟨.atDec (.narrow32 _ rfl rfl (fun _ _ h => by cases h) (fun _ _ h => by cases h)), _, .tail _ (.head _), rfl, rfl⟩
    · exact ⟨.atDec (.narrow32 _ rfl rfl (fun _ _ h => by cases h)
        (fun _ _ h => by cases h; exact h2 2 (by simp))), _, .tail _ (.tail _ (.head _)), rfl, rfl⟩

/-- C94: the struct `message` (C49) is decoded alike on both platforms, whatever the input. -/
example (fuel : Nat) (data : List Byte) (h : data.length ≤ max32) :
    io32.decStruct (message32 fuel) none none ⟨data, 0⟩ = decStruct (message fuel) none none ⟨data, 0⟩ :=
  C94_decode_partial _ _ message_twin fuel none none FaIn.none ⟨data, 0⟩ ⟨h, (by decide : 0 < mod32)⟩

/-- C94: it can be decoded. -/
example : io32.decStruct (message32 9) none none ⟨[2, 65, 66, 2, 0, 7, 1, 0, 3, 99], 0⟩ =
    (.ok [.num 2, .bytes [65, 66], .choices [(1, [.num 1]), (0, [.num 3])]], ⟨[2, 65, 66, 2, 0, 7, 1, 0, 3, 99], 9⟩) := by
  decide +kernel

/-- C94: a list of byte strings is written alike on both platforms, unless memory runs out. -/
example (l : List (List Byte)) (h : ∀ d ∈ l, d.length ≤ max32) (b : Buf) (hb : b.Ok32) :
    (io32.encVec io32.encBytes l none none b).1 = .panic ∨
      io32.encVec io32.encBytes l none none b = encVec encBytes l none none b :=
  C94_encode_partial _ _ _ (.vec .bytes) l h none none FaOut?.none b hb

/-- C94: it can be written. -/
example : io32.encVec io32.encBytes [[1, 2], [3]] none none ⟨[9], 1⟩ = (.ok 6, ⟨[9, 2, 2, 1, 2, 1, 3], 7⟩) := by
  decide +kernel

/-- C94: a `usize` on both platforms. -/
example : io32.encUsize false 7 none none ⟨[], 0⟩ = (.ok 4, ⟨[0, 0, 0, 7], 4⟩) ∧
    io32.decUsize false none none ⟨[0, 0, 0, 7, 0, 0, 0, 9], 0⟩ = (.ok 7, ⟨[0, 0, 0, 7, 0, 0, 0, 9], 4⟩) ∧
    decInt ⟨8, false⟩ none none ⟨[0, 0, 0, 7, 0, 0, 0, 9], 0⟩ = (.ok 30064771081, ⟨[0, 0, 0, 7, 0, 0, 0, 9], 8⟩) := by
  decide +kernel

/-- C94: a search, on both platforms. -/
example : (ReadOp.findNeedle [13, 10] true).run32 ⟨[1, 2, 13, 10, 3], 1⟩ =
      (.ok (.bytes [2, 13, 10]), ⟨[1, 2, 13, 10, 3], 4⟩) ∧
    (WriteOp.u24 66051 .be).run32 ⟨[7], 1⟩ = (.ok 3, ⟨[7, 1, 2, 3], 4⟩) := by
  decide +kernel

end JBytes
