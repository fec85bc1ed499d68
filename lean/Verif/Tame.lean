import Verif.SearchLemmas
import Verif.NumLemmas
/-! # Helper lemmas: every primitive read is "tame" in a normal state -/

namespace JBytes
open M

/-- In a normal state the read either succeeds, moving forward inside the data, or fails in place. -/
def Tame {α : Type} (m : M α) : Prop := ∀ b, b.Ok →
  (∃ v k, m b = (.ok v, ⟨b.data, b.pos + k⟩) ∧ b.pos + k ≤ b.data.length) ∨
  (∃ c, m b = (.err ⟨b.pos, c⟩, b))

theorem mapM'_apply {α β : Type} (f : α → β) (m : M α) (b : Buf) :
    mapM' f m b = (match m b with
      | (.ok a, b') => (.ok (f a), b')
      | (.err e, b') => (.err e, b')
      | (.panic, b') => (.panic, b')
      | (.timeout, b') => (.timeout, b')) := by
  unfold mapM'
  rw [bind_apply]
  rcases m b with ⟨o, b'⟩
  cases o <;> rfl

theorem Tame.map {α β : Type} {f : α → β} {m : M α} (h : Tame m) : Tame (mapM' f m) := by
  intro b hb
  rcases h b hb with ⟨v, k, e, hk⟩ | ⟨c, e⟩
  · exact .inl ⟨f v, k, by rw [mapM'_apply, e], hk⟩
  · exact .inr ⟨c, by rw [mapM'_apply, e]⟩

theorem Tame.pureMap {α β : Type} {f : α → β} {m : M α} (h : Tame m) :
    Tame (m >>= fun a => (Pure.pure (f a) : M β)) := h.map

theorem tame_fail {α : Type} (c : ErrCode) : Tame (fail c : M α) := fun _ _ => .inr ⟨c, rfl⟩

theorem tame_takeBytes (n : Nat) : Tame (takeBytes n) := by
  intro b hb
  rw [takeBytes_apply n b hb]
  split
  · exact .inr ⟨_, rfl⟩
  · have := hb.1
    exact .inl ⟨_, n, rfl, by omega⟩

theorem takeU8_apply (b : Buf) (h : b.Ok) :
    takeU8 b = if hlt : b.pos < b.data.length then (.ok b.data[b.pos], ⟨b.data, b.pos + 1⟩)
      else (.err ⟨b.pos, .invalidByteLength⟩, b) := by
  unfold takeU8
  rw [bind_apply, takeBytes_apply 1 b h]
  have := h.1
  by_cases hlt : b.pos < b.data.length
  · rw [if_neg (by omega), dif_pos hlt]
    simp only []
    rw [List.drop_eq_getElem_cons hlt]
    rfl
  · rw [if_pos (by omega), dif_neg hlt]

theorem index1_apply {β : Type} (f : Byte → β) (b : Buf) :
    (takeBytes 1 >>= fun v => index0 v >>= fun x => (Pure.pure (f x) : M β)) b
      = mapM' f takeU8 b := by
  rw [mapM'_apply]
  unfold takeU8
  rw [bind_apply, bind_apply]
  rcases takeBytes 1 b with ⟨o, b'⟩
  cases o with
  | ok v => cases v <;> rfl
  | _ => rfl

theorem takeBool_apply (b : Buf) (_ : b.Ok) : takeBool b = mapM' (· != 0) takeU8 b :=
  index1_apply _ b

theorem takeChar_apply (b : Buf) (_ : b.Ok) : takeChar b = mapM' UInt8.toNat takeU8 b :=
  index1_apply _ b

theorem tame_takeU8 : Tame takeU8 := by
  intro b hb
  rw [takeU8_apply b hb]
  split
  · exact .inl ⟨_, 1, rfl, by omega⟩
  · exact .inr ⟨_, rfl⟩

theorem Tame.congr {α : Type} {m m' : M α} (h : Tame m) (e : ∀ b, b.Ok → m' b = m b) : Tame m' := by
  intro b hb
  rw [e b hb]
  exact h b hb

theorem tame_takeBool : Tame takeBool := (Tame.map tame_takeU8).congr takeBool_apply
theorem tame_takeChar : Tame takeChar := (Tame.map tame_takeU8).congr takeChar_apply

theorem tame_takeFixed (o : ByteOrder) (n : Nat) : Tame (takeFixed o n) := (tame_takeBytes n).pureMap

theorem tame_takeScalar (s : Scalar) (o : ByteOrder) : Tame (takeScalar s o) := by
  cases s <;> first | exact tame_takeU8.pureMap | exact tame_takeFixed _ _

theorem tame_takeBeN (s n : Nat) : Tame (takeBeN s n) := by
  unfold takeBeN
  split
  · exact (tame_takeBytes n).pureMap
  · exact tame_fail _

theorem tame_takeLeN (s n : Nat) (h : n ≤ s) : Tame (takeLeN s n) := by
  unfold takeLeN
  rw [if_pos h]
  exact (tame_takeBytes n).pureMap

theorem tame_takeN (o : ByteOrder) (s n : Nat) (h : o = .le → n ≤ s) : Tame (takeN o s n) := by
  cases o
  · exact tame_takeBeN s n
  · exact tame_takeLeN s n (h rfl)

theorem takeArray_apply (n : Nat) (b : Buf) (h : b.Ok) : takeArray n b = takeBytes n b := by
  rw [takeBytes_apply n b h]
  obtain ⟨h1, h2⟩ := h
  have h3 := isizeMax_lt
  unfold takeArray
  simp only [bind_apply, remaining_apply', ite_apply', List.length_drop]
  by_cases hn : n ≤ b.data.length - b.pos
  · rw [if_pos hn, if_neg (by omega)]
    simp only [advance_apply, pure_apply]
    rw [wadd_eq (by omega)]
  · rw [if_neg hn, if_pos (by omega)]
    rfl

theorem tame_takeArray (n : Nat) : Tame (takeArray n) := (tame_takeBytes n).congr (takeArray_apply n)

theorem tame_takeByteorderArray (n : Nat) (o : ByteOrder) : Tame (takeByteorderArray n o) :=
  (tame_takeArray n).pureMap

theorem takeBytesStarts_apply (p : List Byte) (b : Buf) (h : b.Ok) :
    takeBytesStarts p b =
      if b.data.length - b.pos < p.length then (.err ⟨b.pos, .invalidByteLength⟩, b)
      else if p.isPrefixOf (b.data.drop b.pos) then (.ok (), ⟨b.data, b.pos + p.length⟩)
      else (.err ⟨b.pos, .fail⟩, b) := by
  obtain ⟨h1, h2⟩ := h
  have h3 := isizeMax_lt
  unfold takeBytesStarts
  simp only [bind_apply, remaining_apply', ite_apply', List.length_drop, fail_apply, advance_apply]
  split
  · rfl
  · split
    · rw [wadd_eq (by omega)]
    · rfl

theorem tame_takeBytesStarts (p : List Byte) : Tame (takeBytesStarts p) := by
  intro b hb
  rw [takeBytesStarts_apply p b hb]
  have := hb.1
  split
  · exact .inr ⟨_, rfl⟩
  · split
    · exact .inl ⟨_, p.length, rfl, by omega⟩
    · exact .inr ⟨_, rfl⟩

theorem tame_findSubsequence (p : List Byte) : Tame (findSubsequence p) := by
  intro b hb
  rw [findSubsequence_apply p b hb]
  have := hb.1
  split
  · rename_i i hi
    have := findSub_le hi
    simp at this
    exact .inl ⟨_, _, rfl, by omega⟩
  · exact .inr ⟨_, rfl⟩

theorem tame_findSubsequenceNeedle (p : List Byte) (c : Bool) : Tame (findSubsequenceNeedle p c) := by
  intro b hb
  rw [findSubsequenceNeedle_apply p c b hb]
  have := hb.1
  split
  · rename_i i hi
    have := findSub_le hi
    simp at this
    exact .inl ⟨_, _, rfl, by split <;> omega⟩
  · exact .inr ⟨_, rfl⟩

theorem tame_findSubsequences (ns : List (List Byte)) : Tame (findSubsequences ns) := by
  intro b hb
  rw [findSubsequences_apply ns b hb]
  have := hb.1
  split
  · rename_i s e hi
    have := (acFind_some hi).1
    simp at this
    exact .inl ⟨_, _, rfl, by omega⟩
  · exact .inr ⟨_, rfl⟩

theorem tame_findSubsequencesNeedle (ns : List (List Byte)) (c : Bool) :
    Tame (findSubsequencesNeedle ns c) := by
  intro b hb
  rw [findSubsequencesNeedle_apply ns c b hb]
  have := hb.1
  split
  · rename_i s e hi
    obtain ⟨h1, ⟨n, _, _, h2⟩, _⟩ := acFind_some hi
    simp at h1
    exact .inl ⟨_, _, rfl, by split <;> omega⟩
  · exact .inr ⟨_, rfl⟩

/-- The one read that panics in a normal state: a little-endian width above the type's. -/
def ReadOp.BadWidth : ReadOp → Prop
  | .uint n .le => 8 < n
  | _ => False

theorem tame_run (op : ReadOp) (h : ¬ op.BadWidth) : Tame op.run := by
  cases op with
  | bytes n => exact (tame_takeBytes n).map
  | array n => exact (tame_takeArray n).map
  | byteorderArray n o => exact (tame_takeByteorderArray n o).map
  | starts p => exact (tame_takeBytesStarts p).map
  | bool => exact tame_takeBool.map
  | char => exact tame_takeChar.map
  | scalar s o => exact (tame_takeScalar s o).map
  | u24 o => exact (tame_takeN o 4 3 (by omega)).map
  | uint n o =>
    exact (tame_takeN o 8 n (by intro ho; subst ho; simp only [ReadOp.BadWidth] at h; omega)).map
  | find p => exact (tame_findSubsequence p).map
  | findNeedle p c => exact (tame_findSubsequenceNeedle p c).map
  | finds ns => exact (tame_findSubsequences ns).map
  | findsNeedle ns c => exact (tame_findSubsequencesNeedle ns c).map

/-! ## In any state -/

/-- The data is never changed. -/
def Frame {α : Type} (m : M α) : Prop := ∀ b, (m b).2.data = b.data

theorem Frame.bind {α β : Type} {m : M α} {f : α → M β} (hm : Frame m) (hf : ∀ a, Frame (f a)) :
    Frame (m >>= f) := by
  intro b
  rw [bind_apply]
  have := hm b
  rcases hmb : m b with ⟨o, b'⟩
  rw [hmb] at this
  cases o with
  | ok a => simp only []; rw [hf a b', this]
  | _ => exact this

theorem frame_pure {α : Type} (a : α) : Frame (Pure.pure a : M α) := fun _ => rfl
theorem frame_fail {α : Type} (c : ErrCode) : Frame (fail c : M α) := fun _ => rfl
theorem frame_failAt {α : Type} (p : Nat) (c : ErrCode) : Frame (failAt p c : M α) := fun _ => rfl
theorem frame_panic {α : Type} : Frame (M.panic : M α) := fun _ => rfl
theorem frame_timeout {α : Type} : Frame (M.timeout : M α) := fun _ => rfl
theorem frame_getPos : Frame getPos := fun _ => rfl
theorem frame_setPos (p : Nat) : Frame (setPos p) := fun _ => rfl
theorem frame_getData : Frame getData := fun _ => rfl
theorem frame_advance (n : Nat) : Frame (advance n) := fun _ => rfl
theorem frame_remaining : Frame remaining := fun _ => rfl
theorem frame_slice (s t : Nat) : Frame (slice s t) := by
  intro b
  rw [slice_apply]
  split <;> rfl
theorem frame_index0 (l : List Byte) : Frame (index0 l) := by
  cases l
  · exact frame_panic
  · exact fun _ => rfl
theorem frame_attempt {α : Type} {m : M α} (h : Frame m) : Frame (attempt m) := by
  intro b
  have := h b
  unfold attempt
  rcases hmb : m b with ⟨o, b'⟩
  rw [hmb] at this
  cases o <;> exact this

theorem frame_remainingLen : Frame remainingLen := fun b => by rw [remainingLen_apply]

theorem frame_takeBytes (n : Nat) : Frame (takeBytes n) := by
  unfold takeBytes
  refine frame_remainingLen.bind fun r => ?_
  split
  · exact frame_fail _
  · exact (frame_advance n).bind fun _ => frame_getPos.bind fun _ => frame_slice _ _

theorem frame_untakeBytes (n : Nat) : Frame (untakeBytes n) := by
  unfold untakeBytes
  refine frame_remainingLen.bind fun r => ?_
  split
  · exact frame_fail _
  · exact frame_getPos.bind fun _ => frame_slice _ _

theorem frame_map {α β : Type} {f : α → β} {m : M α} (h : Frame m) : Frame (mapM' f m) :=
  h.bind fun _ => frame_pure _

theorem frame_takeU8 : Frame takeU8 := (frame_takeBytes 1).bind fun _ => frame_index0 _
theorem frame_takeBool : Frame takeBool :=
  (frame_takeBytes 1).bind fun _ => (frame_index0 _).bind fun _ => frame_pure _
theorem frame_takeChar : Frame takeChar :=
  (frame_takeBytes 1).bind fun _ => (frame_index0 _).bind fun _ => frame_pure _
theorem frame_takeFixed (o : ByteOrder) (n : Nat) : Frame (takeFixed o n) :=
  (frame_takeBytes n).bind fun _ => frame_pure _
theorem frame_takeScalar (s : Scalar) (o : ByteOrder) : Frame (takeScalar s o) := by
  cases s <;> first | exact frame_takeU8.bind fun _ => frame_pure _ | exact frame_takeFixed _ _
theorem frame_takeN (o : ByteOrder) (s n : Nat) : Frame (takeN o s n) := by
  cases o
  · show Frame (takeBeN s n)
    unfold takeBeN
    split
    · exact (frame_takeBytes n).bind fun _ => frame_pure _
    · exact frame_fail _
  · show Frame (takeLeN s n)
    unfold takeLeN
    split
    · exact (frame_takeBytes n).bind fun _ => frame_pure _
    · exact frame_panic
theorem frame_takeArray (n : Nat) : Frame (takeArray n) := by
  refine frame_remaining.bind fun r => ?_
  split
  · exact (frame_advance n).bind fun _ => frame_pure _
  · exact frame_fail _
theorem frame_takeByteorderArray (n : Nat) (o : ByteOrder) : Frame (takeByteorderArray n o) :=
  (frame_takeArray n).bind fun _ => frame_pure _
theorem frame_takeBytesStarts (p : List Byte) : Frame (takeBytesStarts p) := by
  refine frame_remaining.bind fun r => ?_
  split
  · exact frame_fail _
  · split
    · exact frame_advance _
    · exact frame_fail _
theorem frame_findSubsequence (p : List Byte) : Frame (findSubsequence p) := by
  refine frame_getPos.bind fun q => frame_remaining.bind fun r => ?_
  split
  · exact (frame_advance _).bind fun _ => frame_slice _ _
  · exact frame_failAt _ _
theorem frame_findSubsequenceNeedle (p : List Byte) (c : Bool) : Frame (findSubsequenceNeedle p c) := by
  refine frame_getPos.bind fun q => frame_remaining.bind fun r => ?_
  split
  · exact (frame_advance _).bind fun _ => frame_slice _ _
  · exact frame_failAt _ _
theorem frame_findSubsequences (ps : List (List Byte)) : Frame (findSubsequences ps) := by
  refine frame_getPos.bind fun q => frame_remaining.bind fun r => ?_
  split
  · exact (frame_advance _).bind fun _ => frame_slice _ _
  · exact frame_failAt _ _
theorem frame_findSubsequencesNeedle (ps : List (List Byte)) (c : Bool) :
    Frame (findSubsequencesNeedle ps c) := by
  refine frame_getPos.bind fun q => frame_remaining.bind fun r => ?_
  split
  · exact (frame_advance _).bind fun _ => frame_slice _ _
  · exact frame_failAt _ _

theorem frame_run (op : ReadOp) : Frame op.run := by
  cases op with
  | bytes n => exact frame_map (frame_takeBytes n)
  | array n => exact frame_map (frame_takeArray n)
  | byteorderArray n o => exact frame_map (frame_takeByteorderArray n o)
  | starts p => exact frame_map (frame_takeBytesStarts p)
  | bool => exact frame_map frame_takeBool
  | char => exact frame_map frame_takeChar
  | scalar s o => exact frame_map (frame_takeScalar s o)
  | u24 o => exact frame_map (frame_takeN o 4 3)
  | uint n o => exact frame_map (frame_takeN o 8 n)
  | find p => exact frame_map (frame_findSubsequence p)
  | findNeedle p c => exact frame_map (frame_findSubsequenceNeedle p c)
  | finds ns => exact frame_map (frame_findSubsequences ns)
  | findsNeedle ns c => exact frame_map (frame_findSubsequencesNeedle ns c)

end JBytes
