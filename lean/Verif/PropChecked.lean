import Verif.Checked
import Verif.SearchLemmas
import Verif.WriteLemmas
import Verif.PropRead
/-!
# C89: overflow checks make no difference

A program and its debug build should do the same: no call of the crate's functions may depend on whether arithmetic
wraps or panics.
-/

namespace JBytes
open M

/-- Specification: a buffer a program can hold: its data fits in memory, its position in a `usize`. -/
def Buf.Sane (b : Buf) : Prop := b.data.length ≤ isizeMax ∧ b.pos < usizeMod

theorem isize_twice : 2 * isizeMax + 2 = usizeMod := by
  unfold isizeMax usizeMod
  decide

theorem addC_ok (a c : Nat) (h : a + c < usizeMod) : addC a c = Pure.pure (a + c) := if_pos h
theorem subC_ok (a c : Nat) (h : c ≤ a) : subC a c = Pure.pure (a - c) := if_pos h

theorem advanceC_ok (n : Nat) (b : Buf) (h : b.pos + n < usizeMod) : advanceC n b = advance n b := by
  unfold advanceC
  rw [bind_apply, getPos_apply]
  show (addC b.pos n >>= setPos) b = _
  rw [addC_ok _ _ h, bind_apply, pure_apply, advance_apply, wadd_eq h]
  rfl

theorem takeBytesC_eq (n : Nat) (b : Buf) (h : b.Sane) : takeBytesC n b = takeBytes n b := by
  have h1 := h.1
  have h2 := h.2
  have h3 := isizeMax_lt
  unfold takeBytesC takeBytes
  simp only [bind_apply, remainingLen_apply, ite_apply']
  split
  · rfl
  · rename_i hn
    have hlt : b.pos + n < usizeMod := by
      by_cases h0 : n = 0
      · omega
      · omega
    rw [advanceC_ok _ _ hlt]
    simp only [advance_apply, getPos_apply, wadd_eq hlt]
    rw [subC_ok _ _ (by omega)]
    simp only [pure_apply, wsub, if_pos (Nat.le_add_left n b.pos)]

theorem untakeBytesC_eq (n : Nat) (b : Buf) (h : b.Sane) : untakeBytesC n b = untakeBytes n b := by
  have h1 := h.1
  have h2 := h.2
  have h3 := isizeMax_lt
  unfold untakeBytesC untakeBytes
  simp only [bind_apply, remainingLen_apply, ite_apply']
  split
  · rfl
  · rename_i hn
    have hlt : b.pos + n < usizeMod := by omega
    simp only [getPos_apply]
    rw [addC_ok _ _ hlt]
    simp only [pure_apply, wadd_eq hlt]

theorem takeArrayC_eq (n : Nat) (b : Buf) (h : b.Sane) : takeArrayC n b = takeArray n b := by
  have h1 := h.1
  have h2 := h.2
  have h3 := isizeMax_lt
  unfold takeArrayC takeArray
  simp only [bind_apply, remaining_apply', ite_apply']
  split
  · rename_i hn
    rw [List.length_drop] at hn
    rw [advanceC_ok _ _ (by omega)]
  · rfl

theorem takeBytesStartsC_eq (p : List Byte) (b : Buf) (h : b.Sane) :
    takeBytesStartsC p b = takeBytesStarts p b := by
  have h1 := h.1
  have h2 := h.2
  have h3 := isizeMax_lt
  unfold takeBytesStartsC takeBytesStarts
  simp only [bind_apply, remaining_apply', ite_apply', List.length_drop]
  split
  · rfl
  · split
    · rw [advanceC_ok _ _ (by omega)]
    · rfl

/-- Running two programs that agree on a state, then the same continuation. -/
theorem bind_same {α β : Type} {m m' : M α} {b : Buf} (h : m b = m' b) (f : α → M β) :
    (m >>= f) b = (m' >>= f) b := by rw [bind_apply, bind_apply, h]

theorem mapM'_same {α β : Type} {m m' : M α} {b : Buf} (h : m b = m' b) (f : α → β) :
    mapM' f m b = mapM' f m' b := bind_same h _

theorem takeScalarC_eq (s : Scalar) (o : ByteOrder) (b : Buf) (h : b.Sane) :
    takeScalarC s o b = takeScalar s o b := by
  cases s <;> first
    | exact bind_same (bind_same (takeBytesC_eq 1 b h) _) _
    | exact bind_same (takeBytesC_eq _ b h) _

theorem untakeScalarC_eq (s : Scalar) (o : ByteOrder) (b : Buf) (h : b.Sane) :
    untakeScalarC s o b = untakeScalar s o b := by
  cases s <;> first
    | exact bind_same (bind_same (untakeBytesC_eq 1 b h) _) _
    | exact bind_same (untakeBytesC_eq _ b h) _

theorem takeNC_eq (o : ByteOrder) (s n : Nat) (b : Buf) (h : b.Sane) : takeNC o s n b = takeN o s n b := by
  cases o
  · show (if n ≤ s then _ else _ : M Nat) b = (if n ≤ s then _ else _ : M Nat) b
    split
    · exact bind_same (takeBytesC_eq _ b h) _
    · rfl
  · show (if n ≤ s then _ else _ : M Nat) b = (if n ≤ s then _ else _ : M Nat) b
    split
    · exact bind_same (takeBytesC_eq _ b h) _
    · rfl

theorem untakeNC_eq (o : ByteOrder) (s n : Nat) (b : Buf) (h : b.Sane) :
    untakeNC o s n b = untakeN o s n b := by
  cases o
  · show (if n ≤ s then _ else _ : M Nat) b = (if n ≤ s then _ else _ : M Nat) b
    split
    · exact bind_same (untakeBytesC_eq _ b h) _
    · rfl
  · show (if n ≤ s then _ else _ : M Nat) b = (if n ≤ s then _ else _ : M Nat) b
    split
    · exact bind_same (untakeBytesC_eq _ b h) _
    · rfl

/-- Moving by `k` and cutting `j` bytes from the old position, both no more than what is left. -/
theorem cutC_eq (b : Buf) (h : b.Sane) (k j : Nat) (hk : k ≤ (b.data.drop b.pos).length)
    (hj : j ≤ (b.data.drop b.pos).length) :
    (advanceC k >>= fun _ => addC b.pos j >>= fun e => slice b.pos e) b =
      (advance k >>= fun _ => slice b.pos (wadd b.pos j)) b := by
  have h1 := h.1
  have h2 := h.2
  have h3 := isizeMax_lt
  rw [List.length_drop] at hk hj
  rw [bind_apply, bind_apply, advanceC_ok _ _ (by omega), addC_ok _ _ (by omega), wadd_eq (by omega), advance_apply]
  rfl

theorem findSubsequenceC_eq (p : List Byte) (b : Buf) (h : b.Sane) :
    findSubsequenceC p b = findSubsequence p b := by
  have h1 := h.1
  have h3 := isizeMax_lt
  unfold findSubsequenceC findSubsequence
  simp only [bind_apply (m := getPos), getPos_apply, bind_apply (m := remaining), remaining_apply']
  cases hf : findSub p (b.data.drop b.pos) with
  | none => rfl
  | some i =>
    have hle : i + p.length ≤ (b.data.drop b.pos).length := findSub_le hf
    have hd := List.length_drop (i := b.pos) (l := b.data)
    show (addC i p.length >>= fun k => advanceC k >>= fun _ => addC b.pos i >>= fun e => slice b.pos e) b = _
    rw [addC_ok _ _ (by omega)]
    exact cutC_eq b h _ _ hle (by omega)

theorem findSubsequenceNeedleC_eq (p : List Byte) (incl : Bool) (b : Buf) (h : b.Sane) :
    findSubsequenceNeedleC p incl b = findSubsequenceNeedle p incl b := by
  have h1 := h.1
  have h3 := isizeMax_lt
  unfold findSubsequenceNeedleC findSubsequenceNeedle
  simp only [bind_apply (m := getPos), getPos_apply, bind_apply (m := remaining), remaining_apply']
  cases hf : findSub p (b.data.drop b.pos) with
  | none => rfl
  | some i =>
    have hle : i + p.length ≤ (b.data.drop b.pos).length := findSub_le hf
    have hd := List.length_drop (i := b.pos) (l := b.data)
    cases incl with
    | true =>
      show (addC i p.length >>= fun k => advanceC k >>= fun _ => addC b.pos k >>= fun e => slice b.pos e) b = _
      rw [addC_ok _ _ (by omega)]
      exact cutC_eq b h _ _ hle hle
    | false => exact cutC_eq b h _ _ (by omega) (by omega)

theorem findSubsequencesC_eq (ps : List (List Byte)) (b : Buf) (h : b.Sane) :
    findSubsequencesC ps b = findSubsequences ps b := by
  unfold findSubsequencesC findSubsequences
  simp only [bind_apply (m := getPos), getPos_apply, bind_apply (m := remaining), remaining_apply']
  cases hf : acFind ps (b.data.drop b.pos) with
  | none => rfl
  | some m =>
    obtain ⟨s, e⟩ := m
    obtain ⟨hm, ⟨n, _, _, hn⟩, _⟩ := acFind_some hf
    exact cutC_eq b h _ _ (by omega) (by omega)

theorem findSubsequencesNeedleC_eq (ps : List (List Byte)) (incl : Bool) (b : Buf) (h : b.Sane) :
    findSubsequencesNeedleC ps incl b = findSubsequencesNeedle ps incl b := by
  unfold findSubsequencesNeedleC findSubsequencesNeedle
  simp only [bind_apply (m := getPos), getPos_apply, bind_apply (m := remaining), remaining_apply']
  cases hf : acFind ps (b.data.drop b.pos) with
  | none => rfl
  | some m =>
    obtain ⟨s, e⟩ := m
    obtain ⟨hm, ⟨n, _, _, hn⟩, _⟩ := acFind_some hf
    have hs : s ≤ (b.data.drop b.pos).length := by omega
    cases incl
    · exact cutC_eq b h _ _ hs hs
    · exact cutC_eq b h _ _ hm hm

/-- **C89**, reading: every read method of the API does the same with and without overflow checks, on every buffer —
whatever the data, wherever the position is, also past the end, and whatever length is asked for. -/
theorem C89_read (op : ReadOp) (b : Buf) (h : b.Sane) : op.runC b = op.run b := by
  cases op with
  | bytes n => exact mapM'_same (takeBytesC_eq n b h) _
  | array n => exact mapM'_same (takeArrayC_eq n b h) _
  | byteorderArray n o => exact mapM'_same (bind_same (takeArrayC_eq n b h) _) _
  | starts p => exact mapM'_same (takeBytesStartsC_eq p b h) _
  | bool => exact mapM'_same (bind_same (takeBytesC_eq 1 b h) _) _
  | char => exact mapM'_same (bind_same (takeBytesC_eq 1 b h) _) _
  | scalar s o => exact mapM'_same (takeScalarC_eq s o b h) _
  | u24 o => exact mapM'_same (takeNC_eq o 4 3 b h) _
  | uint n o => exact mapM'_same (takeNC_eq o 8 n b h) _
  | find p => exact mapM'_same (findSubsequenceC_eq p b h) _
  | findNeedle p i => exact mapM'_same (findSubsequenceNeedleC_eq p i b h) _
  | finds ps => exact mapM'_same (findSubsequencesC_eq ps b h) _
  | findsNeedle ps i => exact mapM'_same (findSubsequencesNeedleC_eq ps i b h) _

/-- **C89**, peeking: so does every `untake_` method. -/
theorem C89_peek (op : PeekOp) (b : Buf) (h : b.Sane) : op.untakeC b = op.untake b := by
  cases op with
  | bytes n => exact mapM'_same (untakeBytesC_eq n b h) _
  | bool => exact mapM'_same (bind_same (untakeBytesC_eq 1 b h) _) _
  | char => exact mapM'_same (bind_same (untakeBytesC_eq 1 b h) _) _
  | scalar s o => exact mapM'_same (untakeScalarC_eq s o b h) _
  | u24 o => exact mapM'_same (untakeNC_eq o 4 3 b h) _
  | uint n o => exact mapM'_same (untakeNC_eq o 8 n b h) _

theorem pushC_eq (d : List Byte) (b : Buf) (h : b.pos + d.length < usizeMod) : pushC d b = push d b := by
  have key : ∀ b' : Buf, b'.pos = b.pos →
      (overwrite d >>= fun _ => advanceC d.length >>= fun _ => Pure.pure d.length) b' =
        (overwrite d >>= fun _ => advance d.length >>= fun _ => (Pure.pure d.length : M Nat)) b' := by
    intro b' hb
    rw [bind_apply, bind_apply]
    unfold overwrite
    split <;> rename_i he
    · split at he
      · cases he
        exact bind_same (advanceC_ok _ _ (by show b'.pos + _ < _; omega)) _
      · cases he
    · rfl
    · rfl
    · rfl
  unfold pushC push
  rw [bind_apply, bind_apply, remainingLen_apply]
  by_cases hd : d.length > b.data.length - b.pos
  · simp only [if_pos hd]
    have e : (getPos >>= fun p => addC p d.length >>= fun m => vecResize m >>= fun _ => (Pure.pure m : M Nat)) b =
        bufResize d.length b := by
      unfold bufResize
      rw [bind_apply, bind_apply, getPos_apply]
      show (addC b.pos d.length >>= fun m => vecResize m >>= fun _ => (Pure.pure m : M Nat)) b =
        (vecResize (wadd b.pos d.length) >>= fun _ => (Pure.pure (wadd b.pos d.length) : M Nat)) b
      rw [addC_ok _ _ h, wadd_eq h]
      rfl
    rw [bind_same e, bind_apply, bind_apply]
    have hp : (bufResize d.length b).2.pos = b.pos := by
      unfold bufResize
      rw [bind_apply, getPos_apply]
      show ((vecResize (wadd b.pos d.length) >>= fun _ => (Pure.pure (wadd b.pos d.length) : M Nat)) b).2.pos = _
      rw [bind_apply]
      unfold vecResize
      split <;> rename_i he <;> split at he <;> cases he <;> rfl
    rcases hr : bufResize d.length b with ⟨o, b'⟩
    rw [hr] at hp
    cases o with
    | ok m =>
      show (if m = 0 then _ else _ : M Nat) b' = (if m = 0 then _ else _ : M Nat) b'
      split
      · rfl
      · exact key b' hp
    | err e => rfl
    | panic => rfl
    | timeout => rfl
  · simp only [if_neg hd]
    exact key b rfl

/-- Every write method is `pushC` of its payload, or an error in place. -/
theorem runC_eq (op : WriteOp) (b : Buf) : op.runC b = match op.payload with
    | some d => pushC d b
    | none => (.err ⟨b.pos, .invalidByteLength⟩, b) := by
  cases op with
  | bytes d => rfl
  | byteorderArray d o => cases o <;> rfl
  | bool c => rfl
  | char c => rfl
  | scalar s v o =>
    cases s <;> first
      | rfl
      | (show pushC [UInt8.ofNat v] b = pushC (toBytes o 1 v) b; rw [toBytes_one])
  | u24 v o =>
    cases o
    · show pushC ((toBE 4 v).drop (4 - 3)) b = _
      rw [toBE_drop 4 3 v (by omega)]; rfl
    · show pushC ((toLE 4 v).take 3) b = _
      rw [toLE_take 4 3 v (by omega)]; rfl
  | uint v n o =>
    simp only [WriteOp.payload, WriteOp.runC]
    by_cases hn : n ≤ 8
    · rw [if_pos hn, if_pos hn]
      cases o
      · show pushC ((toBE 8 v).drop (8 - n)) b = _
        rw [toBE_drop 8 n v hn]; rfl
      · show pushC ((toLE 8 v).take n) b = _
        rw [toLE_take 8 n v hn]; rfl
    · rw [if_neg hn, if_neg hn]; rfl

theorem pushC_overflow (d : List Byte) (b : Buf) (hr : d.length > b.data.length - b.pos)
    (h : usizeMod ≤ b.pos + d.length) : (pushC d b).1 = .panic := by
  unfold pushC
  rw [bind_apply, remainingLen_apply]
  simp only [if_pos hr]
  rw [bind_apply, bind_apply, getPos_apply]
  simp only
  have e : addC b.pos d.length = panic := if_neg (Nat.not_lt.mpr h)
  rw [e]
  rfl

theorem bufResize_wrap (n : Nat) (b : Buf) (m : Nat) (hm : wadd b.pos n = m) (hs : m ≤ isizeMax) :
    bufResize n b = (.ok m, ⟨b.data.take m ++ List.replicate (m - b.data.length) 0, b.pos⟩) := by
  subst hm
  unfold bufResize
  rw [bind_apply, getPos_apply]
  simp only
  rw [bind_apply]
  unfold vecResize
  rw [if_pos hs]
  rfl

theorem push_wrap (d : List Byte) (b : Buf) (m : Nat) (hr : d.length > b.data.length - b.pos)
    (hm : wadd b.pos d.length = m) (hs : m ≤ isizeMax) (hp : m < b.pos) (hd : b.data.length < b.pos) :
    (push d b).1 = .panic ↔ m ≠ 0 := by
  unfold push
  rw [bind_apply, remainingLen_apply]
  simp only [if_pos hr]
  rw [bind_apply, bufResize_wrap _ b m hm hs]
  show ((if m = 0 then _ else _ : M Nat) _).1 = _ ↔ _
  by_cases hz : m = 0
  · rw [if_pos hz]
    constructor
    · intro hc; cases hc
    · intro hc; exact absurd hz hc
  · rw [if_neg hz, bind_apply]
    unfold overwrite
    rw [if_neg (by simp only [List.length_append, List.length_take, List.length_replicate]; omega)]
    exact ⟨fun _ => hz, fun _ => rfl⟩

theorem push_overflow (d : List Byte) (b : Buf) (hs : b.Sane) (hd : d.length ≤ isizeMax)
    (h : usizeMod ≤ b.pos + d.length) :
    (pushC d b).1 = .panic ∧ ((push d b).1 = .panic ↔ b.pos + d.length ≠ usizeMod) := by
  have h1 := hs.1
  have h2 := hs.2
  have h3 := isize_twice
  have hr : d.length > b.data.length - b.pos := by omega
  refine ⟨pushC_overflow d b hr h, ?_⟩
  have hm : wadd b.pos d.length = b.pos + d.length - usizeMod := by
    unfold wadd
    rw [Nat.mod_eq_sub_mod h, Nat.mod_eq_of_lt (by omega)]
  rw [push_wrap d b _ hr hm (by omega) (by omega) (by omega)]
  omega

/-- **C89**, writing: a write method returns the same with and without overflow checks unless the position and the
bytes to write add up to exactly `usize::MAX + 1`.  (There the checks panic, and without them the data is thrown away
and `PushFail` returned.) -/
theorem C89_write_iff (op : WriteOp) (b : Buf) (hs : b.Sane) (hd : ∀ d, op.payload = some d → d.length ≤ isizeMax) :
    (op.runC b).1 = (op.run b).1 ↔ ∀ d, op.payload = some d → b.pos + d.length ≠ usizeMod := by
  rw [run_eq, runC_eq]
  cases hp : op.payload with
  | none => exact ⟨fun _ d h => (by cases h), fun _ => rfl⟩
  | some d =>
    show (pushC d b).1 = (push d b).1 ↔ _
    by_cases h : b.pos + d.length < usizeMod
    · rw [pushC_eq d b h]
      exact ⟨fun _ d' e => (by cases e; omega), fun _ => rfl⟩
    · obtain ⟨e1, e2⟩ := push_overflow d b hs (hd d hp) (by omega)
      rw [e1]
      constructor
      · intro he d' e
        cases e
        exact e2.mp he.symm
      · intro he
        exact (e2.mpr (he d rfl)).symm

/-- **C89**, writing: as long as the position after the write is a `usize`, the buffer is the same, too. -/
theorem C89_write (op : WriteOp) (b : Buf) (h : ∀ d, op.payload = some d → b.pos + d.length < usizeMod) :
    op.runC b = op.run b := by
  rw [run_eq, runC_eq]
  cases hp : op.payload with
  | none => rfl
  | some d => exact pushC_eq d b (h d hp)

theorem ioReadC_eq (n : Nat) (b : Buf) (h : b.Sane) : ioReadC n b = ioRead n b := by
  have h1 := h.1
  have h3 := isizeMax_lt
  unfold ioReadC ioRead
  simp only [bind_apply (m := getPos), getPos_apply, bind_apply (m := getData), getData_apply]
  split
  · rfl
  · rename_i hp
    rw [subC_ok _ _ (by omega)]
    have hlt : b.pos + min n (b.data.length - b.pos) < usizeMod := by omega
    show (addC b.pos (min n (b.data.length - b.pos)) >>= fun e => slice b.pos e >>= fun v =>
      addC b.pos (min n (b.data.length - b.pos)) >>= fun q => setPos q >>= fun _ => (Pure.pure v : M _)) b = _
    rw [addC_ok _ _ hlt, wadd_eq hlt]
    rfl

theorem ioWriteC_eq (d : List Byte) (b : Buf) (h : b.pos + d.length < usizeMod) : ioWriteC d b = ioWrite d b := by
  unfold ioWriteC ioWrite
  simp only [bind_apply (m := getPos), getPos_apply, bind_apply (m := getData), getData_apply]
  rw [addC_ok _ _ h, wadd_eq h]
  rfl

/-- Specification: the position asked for by a seek relative to the end or to the current position, as a number
without bounds (a seek from the start does no arithmetic). -/
def SeekFrom.goal (b : Buf) : SeekFrom → Int
  | .start _ => 0
  | .fromEnd o => b.data.length + o
  | .current o => b.pos + o

theorem wrapIsize_small (i : Int) (h1 : -9223372036854775808 ≤ i) (h2 : i ≤ 9223372036854775807) :
    wrapIsize i = i := by
  unfold wrapIsize
  omega

/-- The second half of a seek. -/
def seekTo (p : Nat) (q : Int) : M (Option Nat) :=
  if q < 0 then Pure.pure none else setPos q.toNat >>= fun _ => Pure.pure (some p)

/-- The first half, with overflow checks. -/
def seekTargetC (p len : Nat) (s : SeekFrom) : M Int :=
  match s with
  | .start o => Pure.pure (wrapIsize o)
  | .fromEnd o => iaddC (wrapIsize len) (wrapIsize o)
  | .current o => iaddC (wrapIsize p) (wrapIsize o)

theorem seekTo_ok (p : Nat) (q : Int) (b : Buf) : ∃ r, (seekTo p q b).1 = .ok r := by
  unfold seekTo
  split
  · exact ⟨_, rfl⟩
  · exact ⟨_, rfl⟩

theorem ioSeek_apply (s : SeekFrom) (b : Buf) : ioSeek s b = seekTo b.pos (seekTarget b.pos b.data.length s) b := by
  have e : ioSeek s = (getPos >>= fun p => getData >>= fun d => seekTo p (seekTarget p d.length s)) := rfl
  rw [e, bind_apply, getPos_apply]
  simp only []
  rw [bind_apply, getData_apply]

theorem ioSeekC_apply (s : SeekFrom) (b : Buf) :
    ioSeekC s b = (seekTargetC b.pos b.data.length s >>= seekTo b.pos) b := by
  have e : ioSeekC s = (getPos >>= fun p => getData >>= fun d => seekTargetC p d.length s >>= seekTo p) := rfl
  rw [e, bind_apply, getPos_apply]
  simp only []
  rw [bind_apply, getData_apply]

theorem seekTargetC_eq (p len : Nat) (hd : len ≤ isizeMax) (hp : p ≤ isizeMax) (s : SeekFrom)
    (ho : ∀ o, s = .fromEnd o ∨ s = .current o → -9223372036854775808 ≤ o ∧ o ≤ 9223372036854775807) :
    ((match s with
      | .start _ => 0
      | .fromEnd o => len + o
      | .current o => p + o : Int) ≤ isizeMax → seekTargetC p len s = Pure.pure (seekTarget p len s)) ∧
    (¬ (match s with
      | .start _ => 0
      | .fromEnd o => len + o
      | .current o => p + o : Int) ≤ isizeMax → seekTargetC p len s = panic) := by
  have h3 := isizeMax_def
  cases s with
  | start o => exact ⟨fun _ => rfl, fun h => absurd (Int.natCast_nonneg isizeMax) h⟩
  | fromEnd o =>
    obtain ⟨h1, h2⟩ := ho o (Or.inl rfl)
    have e1 := wrapIsize_small len (by omega) (by omega)
    have e2 := wrapIsize_small o h1 h2
    simp only [seekTarget, seekTargetC, e1, e2, iaddC]
    constructor
    · intro hg
      rw [if_pos (by omega), wrapIsize_small _ (by omega) (by omega)]
    · intro hg
      rw [if_neg (by omega)]
  | current o =>
    obtain ⟨h1, h2⟩ := ho o (Or.inr rfl)
    have e1 := wrapIsize_small p (by omega) (by omega)
    have e2 := wrapIsize_small o h1 h2
    simp only [seekTarget, seekTargetC, e1, e2, iaddC]
    constructor
    · intro hg
      rw [if_pos (by omega), wrapIsize_small _ (by omega) (by omega)]
    · intro hg
      rw [if_neg (by omega)]

theorem ioSeekC_iff (s : SeekFrom) (b : Buf) (hd : b.data.length ≤ isizeMax) (hp : b.pos ≤ isizeMax)
    (ho : ∀ o, s = .fromEnd o ∨ s = .current o → -9223372036854775808 ≤ o ∧ o ≤ 9223372036854775807) :
    (s.goal b ≤ isizeMax → ioSeekC s b = ioSeek s b) ∧
    (¬ s.goal b ≤ isizeMax → (ioSeekC s b).1 = .panic ∧ ∃ r, (ioSeek s b).1 = .ok r) := by
  obtain ⟨k1, k2⟩ := seekTargetC_eq b.pos b.data.length hd hp s ho
  rw [ioSeek_apply, ioSeekC_apply]
  constructor
  · intro h
    rw [k1 (by cases s <;> exact h), bind_apply, pure_apply]
  · intro h
    rw [k2 (by cases s <;> exact h), bind_apply, panic_apply]
    exact ⟨rfl, seekTo_ok _ _ _⟩

/-- **C89**, `std::io`: at a position that a `Vec` can have, a read, a write or a seek does the same with and without
overflow checks, except for a seek to a position beyond `isize::MAX`. -/
theorem C89_io_iff (op : IoOp) (b : Buf) (hd : b.data.length ≤ isizeMax) (hp : b.pos ≤ isizeMax)
    (hw : ∀ d, op = .write d → d.length ≤ isizeMax)
    (ho : ∀ o, op = .seek (.fromEnd o) ∨ op = .seek (.current o) →
      -9223372036854775808 ≤ o ∧ o ≤ 9223372036854775807) :
    op.runC b = op.run b ↔ ∀ s, op = .seek s → s.goal b ≤ isizeMax := by
  have h3 := isizeMax_def
  have h4 := usizeMod_def
  cases op with
  | read n => exact ⟨fun _ s h => (by cases h), fun _ => bind_same (ioReadC_eq n b ⟨hd, by omega⟩) _⟩
  | write d =>
    have := hw d rfl
    exact ⟨fun _ s h => (by cases h), fun _ => bind_same (ioWriteC_eq d b (by omega)) _⟩
  | seek s =>
    obtain ⟨k1, k2⟩ := ioSeekC_iff s b hd hp (fun o h => ho o (h.imp (fun e => by rw [e]) (fun e => by rw [e])))
    constructor
    · intro he s' e
      cases e
      refine Classical.byContradiction fun hn => ?_
      obtain ⟨q1, r, q2⟩ := k2 hn
      have he : (ioSeekC s >>= fun r => (Pure.pure (IoOut.seek r.isSome) : M IoOut)) b =
        (ioSeek s >>= fun r => (Pure.pure (IoOut.seek r.isSome) : M IoOut)) b := he
      rw [bind_apply, bind_apply] at he
      rcases hx : ioSeekC s b with ⟨x, b1⟩
      rcases hy : ioSeek s b with ⟨y, b2⟩
      rw [hx] at q1 he
      rw [hy] at q2 he
      cases q1
      cases q2
      cases he
    · intro h
      exact bind_same (k1 (h s rfl)) _

/-- **C89**, integers: decoding an integer with any modifiers does the same with and without overflow checks. -/
theorem C89_decode_int (k : IntKind) (ca : Option CAttr) (fa : Option FAttr) (b : Buf) (h : b.Sane) :
    decIntC k ca fa b = decInt k ca fa b := by
  unfold decIntC decInt
  refine bind_same ?_ _
  unfold decWord
  cases fa.bind (·.length) with
  | none => exact takeScalarC_eq _ _ b h
  | some n =>
    show (if k.size < n then _ else _ : M Nat) b = (if k.size < n then _ else _ : M Nat) b
    split
    · rfl
    · exact bind_same (takeNC_eq _ _ _ b h) _

theorem takeN_ok_pos {o : ByteOrder} {s n : Nat} {b b' : Buf} {v : Nat} (h : b.Sane)
    (e : takeN o s n b = (.ok v, b')) : b' = ⟨b.data, b.pos + n⟩ := by
  have h3 := isizeMax_lt
  have hn : n ≤ s := by
    refine Classical.byContradiction fun hn => ?_
    cases o
    · have : takeBeN s n b = (.ok v, b') := e
      unfold takeBeN at this
      rw [if_neg hn] at this
      cases this
    · have : takeLeN s n b = (.ok v, b') := e
      unfold takeLeN at this
      rw [if_neg hn] at this
      cases this
  rw [takeN_apply o s n hn, mapM'_apply] at e
  by_cases hp : b.pos ≤ b.data.length
  · rw [takeBytes_apply n b ⟨hp, h.1⟩] at e
    split at e
    · rename_i he
      split at he
      · cases he
      · cases he
        cases e
        rfl
    all_goals cases e
  · rw [takeBytes_past n b (by omega) h.2] at e
    split at e
    · rename_i he
      split at he <;> cases he
    all_goals cases e

/-- What the encoder of an integer reads back for a member of a bit group that does not start one. -/
def readBack (k : IntKind) (o : ByteOrder) (w : Nat) : M Nat :=
  getPos >>= fun p => setPos (wsub p k.size) >>= fun _ => takeN o 8 k.size >>= fun prev =>
    getPos >>= fun p => setPos (wsub p k.size) >>= fun _ => Pure.pure (w ||| fromU64 k prev)

/-- The same with overflow checks. -/
def readBackC (k : IntKind) (o : ByteOrder) (w : Nat) : M Nat :=
  getPos >>= fun p => subC p k.size >>= fun q => setPos q >>= fun _ => takeNC o 8 k.size >>= fun prev =>
    getPos >>= fun p => subC p k.size >>= fun q => setPos q >>= fun _ => Pure.pure (w ||| fromU64 k prev)

theorem encBits_cases (k : IntKind) (v : Nat) (o : ByteOrder) (fa : Option FAttr) :
    (∃ w, encBits k v o fa = Pure.pure w ∧ encBitsC k v o fa = Pure.pure w ∧
      ¬ ∃ fr m, fa = some fr ∧ fr.bits = some m ∧ fr.bitsStart = false) ∨
    (∃ w, encBits k v o fa = readBack k o w ∧ encBitsC k v o fa = readBackC k o w ∧
      ∃ fr m, fa = some fr ∧ fr.bits = some m ∧ fr.bitsStart = false) := by
  cases fa with
  | none => exact Or.inl ⟨v, rfl, rfl, fun ⟨_, _, h, _⟩ => (by cases h)⟩
  | some fr =>
    unfold encBits encBitsC
    cases hm : fr.bits with
    | none =>
      refine Or.inl ⟨v, by simp only [hm], by simp only [hm], ?_⟩
      rintro ⟨fr', m, h, h2, _⟩
      cases h
      rw [hm] at h2
      cases h2
    | some m =>
      cases hst : fr.bitsStart with
      | true =>
        refine Or.inl ⟨bitsShl k (8 * k.size) v (fromU64 k m), by simp only [hm, hst, if_true],
          by simp only [hm, hst, if_true], ?_⟩
        rintro ⟨fr', m', h, _, h3⟩
        cases h
        rw [hst] at h3
        cases h3
      | false =>
        refine Or.inr ⟨bitsShl k (8 * k.size) v (fromU64 k m), ?_, ?_, fr, m, rfl, hm, hst⟩
        · simp only [hm, hst]
          rfl
        · simp only [hm, hst]
          rfl

theorem readBack_apply (k : IntKind) (o : ByteOrder) (w : Nat) (b : Buf) : readBack k o w b =
    (takeN o 8 k.size >>= fun prev => getPos >>= fun p => setPos (wsub p k.size) >>= fun _ =>
      (Pure.pure (w ||| fromU64 k prev) : M Nat)) ⟨b.data, wsub b.pos k.size⟩ := rfl

theorem readBackC_apply (k : IntKind) (o : ByteOrder) (w : Nat) (b : Buf) (h : k.size ≤ b.pos) : readBackC k o w b =
    (takeNC o 8 k.size >>= fun prev => getPos >>= fun p => subC p k.size >>= fun q => setPos q >>= fun _ =>
      (Pure.pure (w ||| fromU64 k prev) : M Nat)) ⟨b.data, b.pos - k.size⟩ := by
  unfold readBackC
  rw [bind_apply, getPos_apply]
  show (subC b.pos k.size >>= _) b = _
  rw [subC_ok _ _ h]
  rfl

theorem readBackC_eq (k : IntKind) (o : ByteOrder) (w : Nat) (b : Buf) (h : b.Sane) (hp : k.size ≤ b.pos) :
    readBackC k o w b = readBack k o w b ∧
      ∀ x b', readBack k o w b = (.ok x, b') → b'.data = b.data ∧ b'.pos ≤ b.pos := by
  have h2 := h.2
  have hs : (⟨b.data, b.pos - k.size⟩ : Buf).Sane := ⟨h.1, by show b.pos - k.size < _; omega⟩
  rw [readBackC_apply k o w b hp, readBack_apply, show wsub b.pos k.size = b.pos - k.size from if_pos hp,
    bind_same (takeNC_eq o 8 k.size _ hs)]
  rw [bind_apply, bind_apply]
  rcases hr : takeN o 8 k.size ⟨b.data, b.pos - k.size⟩ with ⟨r, b2⟩
  cases r with
  | ok prev =>
    have e2 := takeN_ok_pos hs hr
    subst e2
    have hpos : k.size ≤ (⟨b.data, b.pos - k.size + k.size⟩ : Buf).pos := by
      show k.size ≤ b.pos - k.size + k.size
      omega
    have hw : wsub (b.pos - k.size + k.size) k.size = b.pos - k.size := wsub_add _ _
    constructor
    · show (subC (b.pos - k.size + k.size) k.size >>= fun q => setPos q >>= fun _ => (Pure.pure _ : M Nat)) _ =
        (setPos (wsub (b.pos - k.size + k.size) k.size) >>= fun _ => (Pure.pure _ : M Nat)) _
      rw [subC_ok _ _ hpos, hw, Nat.add_sub_cancel]
      rfl
    · intro x b' e
      have e : ((Out.ok _, (⟨b.data, wsub (b.pos - k.size + k.size) k.size⟩ : Buf)) : Out Nat × Buf) = (.ok x, b') := e
      rw [hw] at e
      cases e
      exact ⟨rfl, Nat.sub_le _ _⟩
  | err e => exact ⟨rfl, fun x b' h => (by cases h)⟩
  | panic => exact ⟨rfl, fun x b' h => (by cases h)⟩
  | timeout => exact ⟨rfl, fun x b' h => (by cases h)⟩

theorem readBack_short (k : IntKind) (hk : k.size ≤ 8) (o : ByteOrder) (w : Nat) (b : Buf) (h : b.Sane)
    (hp : ¬ k.size ≤ b.pos) :
    (∃ b', readBackC k o w b = (.panic, b')) ∧ ∃ e b', readBack k o w b = (.err e, b') := by
  have h1 := h.1
  have h2 := h.2
  have h3 := isize_twice
  have h4 : 16 ≤ isizeMax := by unfold isizeMax; decide
  constructor
  · unfold readBackC
    rw [bind_apply, getPos_apply]
    have e2 : subC b.pos k.size = panic := if_neg hp
    simp only [e2]
    exact ⟨_, rfl⟩
  · rw [readBack_apply, show wsub b.pos k.size = b.pos + (usizeMod - k.size) from if_neg hp, bind_apply,
      takeN_apply o 8 _ hk, mapM'_apply, takeBytes_past _ _ (by show b.data.length < b.pos + (usizeMod - k.size); omega)
      (by show b.pos + (usizeMod - k.size) < _; omega), if_neg (by omega)]
    exact ⟨_, _, rfl⟩

theorem payload_short (s : Scalar) (v : Nat) (o : ByteOrder) : (toBytes o s.size v).length ≤ 16 := by
  rw [toBytes_length]
  cases s <;> decide

/-- **C89**, integers: encoding an integer of up to 8 bytes with any modifiers returns the same with and without
overflow checks exactly when a member of a bit group that does not start one has its bytes before it. -/
theorem C89_encode_int_iff (k : IntKind) (hk : k.size ≤ 8) (v : Nat) (ca : Option CAttr) (fa : Option FAttr) (b : Buf)
    (h : b.Sane) (hp : b.pos + 16 < usizeMod) :
    (encIntC k v ca fa b).1 = (encInt k v ca fa b).1 ↔
      ((∃ fr m, fa = some fr ∧ fr.bits = some m ∧ fr.bitsStart = false) → k.size ≤ b.pos) := by
  have tail : ∀ (w : Nat) (b' : Buf), b'.pos ≤ b.pos →
      (match fa.bind (·.length) with
        | some n => if k.size < n then fail .invalidByteLength
          else (WriteOp.uint (asU64 k w) n (getByteorder ca fa)).runC
        | none => (WriteOp.scalar k.scalar w (getByteorder ca fa)).runC) b' =
      (match fa.bind (·.length) with
        | some n => if k.size < n then fail .invalidByteLength
          else pushUint (asU64 k w) n (getByteorder ca fa)
        | none => pushScalar k.scalar w (getByteorder ca fa)) b' := by
    intro w b' hb
    cases fa.bind (·.length) with
    | none =>
      refine C89_write (.scalar k.scalar w (getByteorder ca fa)) b' fun d e => ?_
      have := payload_short k.scalar w (getByteorder ca fa)
      cases e
      omega
    | some n =>
      show (if k.size < n then _ else _ : M Nat) b' = (if k.size < n then _ else _ : M Nat) b'
      split
      · rfl
      · refine C89_write (.uint (asU64 k w) n (getByteorder ca fa)) b' fun d e => ?_
        unfold WriteOp.payload at e
        simp only at e
        split at e
        · cases e
          rw [toBytes_length]
          omega
        · cases e
  have d1 : encIntC k v ca fa b = (encBitsC k v (getByteorder ca fa) fa >>= fun w => match fa.bind (·.length) with
      | some n => if k.size < n then fail .invalidByteLength
        else (WriteOp.uint (asU64 k w) n (getByteorder ca fa)).runC
      | none => (WriteOp.scalar k.scalar w (getByteorder ca fa)).runC) b := rfl
  have d2 : encInt k v ca fa b = (encBits k v (getByteorder ca fa) fa >>= fun w => match fa.bind (·.length) with
      | some n => if k.size < n then fail .invalidByteLength
        else pushUint (asU64 k w) n (getByteorder ca fa)
      | none => pushScalar k.scalar w (getByteorder ca fa)) b := rfl
  rw [d1, d2, bind_apply, bind_apply]
  rcases encBits_cases k v (getByteorder ca fa) fa with ⟨w, e1, e2, hn⟩ | ⟨w, e1, e2, hy⟩
  · rw [e1, e2]
    exact ⟨fun _ h => absurd h hn, fun _ => congrArg Prod.fst (tail w b (Nat.le_refl _))⟩
  · rw [e1, e2]
    by_cases hsz : k.size ≤ b.pos
    · obtain ⟨q1, q2⟩ := readBackC_eq k (getByteorder ca fa) w b h hsz
      refine ⟨fun _ _ => hsz, fun _ => ?_⟩
      rw [q1]
      rcases hr : readBack k (getByteorder ca fa) w b with ⟨r, b'⟩
      cases r with
      | ok x => exact congrArg Prod.fst (tail x b' (q2 x b' hr).2)
      | err e => rfl
      | panic => rfl
      | timeout => rfl
    · obtain ⟨⟨b1, q1⟩, e, b2, q2⟩ := readBack_short k hk (getByteorder ca fa) w b h hsz
      rw [q1, q2]
      exact ⟨fun h => (by cases h), fun h => absurd (h hy) hsz⟩

/-- **C89**, `offset`: the jump of a derived decoder is the same with and without overflow checks exactly when the
position it leads to is a `usize`; the `offset` may be computed from the input. -/
theorem C89_offset_iff (a : FieldAttrs V) (env : Env V) (b : Buf) :
    (skipOffsetC a env b).1 = (skipOffset a env b).1 ↔ ∀ e, a.offset = some e → b.pos + e env < usizeMod := by
  unfold skipOffsetC skipOffset
  cases ho : a.offset with
  | none => exact ⟨fun _ e h => (by cases h), fun _ => rfl⟩
  | some e =>
    by_cases h : b.pos + e env < usizeMod
    · exact ⟨fun _ e' he => (by cases he; exact h), fun _ => congrArg Prod.fst (advanceC_ok _ _ h)⟩
    · constructor
      · intro he
        have he : (advanceC (e env) b).1 = .ok () := he
        unfold advanceC at he
        rw [bind_apply, getPos_apply] at he
        have e2 : addC b.pos (e env) = panic := if_neg h
        simp only [e2] at he
        cases he
      · intro he
        exact absurd (he e rfl) h

/-- A buffer with its position past the data, reading nothing and reading too much. -/
example : (⟨[1, 2], 5⟩ : Buf).Sane ∧ (ReadOp.bytes 1).runC ⟨[1, 2], 5⟩ = (.err ⟨5, .invalidByteLength⟩, ⟨[1, 2], 5⟩) ∧
    (ReadOp.find [2]).runC ⟨[1, 2, 3], 0⟩ = (.ok (.bytes [1]), ⟨[1, 2, 3], 2⟩) := by
  unfold Buf.Sane isizeMax usizeMod
  decide +kernel

unseal usizeMod isizeMax in
/-- A write inside the data, an io seek backwards, a bit group member with its word before it. -/
example : (WriteOp.scalar .u16 258 .be).runC ⟨[1], 1⟩ = (.ok 2, ⟨[1, 1, 2], 3⟩) ∧
    (IoOp.seek (.current (-2))).runC ⟨[1, 2, 3], 3⟩ = (.ok (.seek true), ⟨[1, 2, 3], 1⟩) ∧
    encIntC ⟨1, false⟩ 1 none (some { bits := some 0x0f }) ⟨[0x30], 1⟩ = (.ok 1, ⟨[0x31], 1⟩) := by decide +kernel

unseal usizeMod isizeMax in
/-- **C89** is violated.  A `bits` field that does not start its group, at the beginning of a buffer, is an error, and a
panic with overflow checks; `push` at the last position there is returns `PushFail` after emptying the buffer, and
panics with overflow checks; a seek beyond `isize::MAX` is refused, and panics with overflow checks; an `offset` read
from the input (here `u64::MAX`) moves backwards, and panics with overflow checks. -/
theorem C89_violated :
    (encInt ⟨1, false⟩ 1 none (some { bits := some 0x0f }) ⟨[], 0⟩).1 = .err ⟨18446744073709551615, .invalidByteLength⟩ ∧
    (encIntC ⟨1, false⟩ 1 none (some { bits := some 0x0f }) ⟨[], 0⟩).1 = .panic ∧
    (WriteOp.bytes [7]).run ⟨[1, 2, 3], 18446744073709551615⟩ =
      (.err ⟨18446744073709551615, .pushFail⟩, ⟨[], 18446744073709551615⟩) ∧
    (WriteOp.bytes [7]).runC ⟨[1, 2, 3], 18446744073709551615⟩ = (.panic, ⟨[1, 2, 3], 18446744073709551615⟩) ∧
    (IoOp.seek (.current 9223372036854775807)).run ⟨[1, 2, 3], 1⟩ = (.ok (.seek false), ⟨[1, 2, 3], 1⟩) ∧
    ((IoOp.seek (.current 9223372036854775807)).runC ⟨[1, 2, 3], 1⟩).1 = .panic ∧
    skipOffset (V := Nat) { offset := some fun _ => 18446744073709551615 } { vars := [] } ⟨[1, 2, 3], 1⟩ =
      (.ok (), ⟨[1, 2, 3], 0⟩) ∧
    (skipOffsetC (V := Nat) { offset := some fun _ => 18446744073709551615 } { vars := [] } ⟨[1, 2, 3], 1⟩).1 =
      .panic := by
  refine ⟨by decide +kernel, by decide +kernel, by decide +kernel, by decide +kernel, by decide +kernel,
    by decide +kernel, by decide +kernel, by decide +kernel⟩

end JBytes
