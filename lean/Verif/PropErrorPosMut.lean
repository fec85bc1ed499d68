import Verif.MutRead
/-!
# C92 for the other readers: `BufReadMut`

The same for every implementation of `BufReadMut`, in particular `&[u8]`, whose position is always 0, and `Cursor`.
-/

namespace JBytes

variable {σ α β : Type}

/-- If it fails, the error has the position the reader is at. -/
def StandsIn (I : MutImpl σ) (m : MS σ α) : Prop := ∀ s e s', m s = (.err e, s') → e.position = I.pos s'

namespace StandsIn
variable {I : MutImpl σ}

theorem pure (a : α) : StandsIn I (Pure.pure a : MS σ α) := by
  intro s e s' h
  cases h

theorem panic : StandsIn I (fun s => (.panic, s) : MS σ α) := by
  intro s e s' h
  cases h

theorem bind {m : MS σ α} {f : α → MS σ β} (hm : StandsIn I m) (hf : ∀ a, StandsIn I (f a)) : StandsIn I (m >>= f) := by
  intro s e s' h
  have h : (match m s with
    | (.ok a, s') => f a s'
    | (.err e, s') => (.err e, s')
    | (.panic, s') => (.panic, s')
    | (.timeout, s') => (.timeout, s')) = (Out.err e, s') := h
  split at h
  · exact hf _ _ _ _ h
  · next he =>
    cases h
    exact hm _ _ _ he
  · cases h
  · cases h

theorem fail (c : ErrCode) : StandsIn I (I.fail c : MS σ α) := by
  intro s e s' h
  cases h
  rfl

theorem slice (a b : Nat) : StandsIn I (I.slice a b) := by
  intro s e s' h
  unfold MutImpl.slice at h
  split at h <;> cases h

theorem index0 (v : List Byte) : StandsIn I (I.index0 v) := by
  cases v with
  | nil => exact panic
  | cons x v => exact pure x

theorem map (f : α → β) {m : MS σ α} (hm : StandsIn I m) : StandsIn I (I.map f m) := hm.bind fun _ => pure _

/-- Pointwise. -/
theorem at_ {m : MS σ α} (h : ∀ s, ∃ m', StandsIn I m' ∧ m s = m' s) : StandsIn I m := by
  intro s e s' he
  obtain ⟨m', hm, h⟩ := h s
  exact hm _ _ _ (h ▸ he)

theorem untakeBytes (n : Nat) : StandsIn I (I.untakeBytes n) := by
  refine at_ fun s => ?_
  unfold MutImpl.untakeBytes
  by_cases h : (I.remaining s).length < n
  · exact ⟨_, fail _, if_pos h⟩
  · exact ⟨_, slice _ _, if_neg h⟩

theorem untakeN (o : ByteOrder) (size n : Nat) : StandsIn I (MutImpl.untake.untakeN I o size n) := by
  unfold MutImpl.untake.untakeN
  cases o with
  | be =>
    by_cases h : n ≤ size
    · simp only [if_pos h]
      exact (untakeBytes n).bind fun _ => pure _
    · simp only [if_neg h]
      exact fail _
  | le =>
    refine at_ fun s => ?_
    by_cases h : n ≤ size
    · exact ⟨_, (untakeBytes n).bind fun _ => pure _, congrFun (if_pos h) s⟩
    · exact ⟨_, panic, congrFun (if_neg h) s⟩

theorem untake (op : PeekOp) : StandsIn I (I.untake op) := by
  cases op with
  | bytes n => exact (untakeBytes n).map _
  | bool => exact ((untakeBytes 1).bind fun v => (index0 v).bind fun _ => pure _).map _
  | char => exact ((untakeBytes 1).bind fun v => (index0 v).bind fun _ => pure _).map _
  | scalar s o =>
    refine map _ ?_
    cases s <;> first
      | exact (untakeBytes 1).bind fun v => (index0 v).bind fun _ => pure _
      | exact (untakeBytes _).bind fun _ => pure _
  | u24 o => exact (untakeN o 4 3).map _
  | uint n o => exact (untakeN o 8 n).map _

section
variable (ha : ∀ n, StandsIn I (I.advance n))
include ha

theorem takeArray (n : Nat) : StandsIn I (I.takeArray n) := by
  refine at_ fun s => ?_
  unfold MutImpl.takeArray
  by_cases h : n ≤ (I.remaining s).length
  · exact ⟨_, (ha n).bind fun _ => pure ((I.remaining s).take n), if_pos h⟩
  · exact ⟨_, fail _, if_neg h⟩

theorem takeBytesStarts (p : List Byte) : StandsIn I (I.takeBytesStarts p) := by
  refine at_ fun s => ?_
  unfold MutImpl.takeBytesStarts
  by_cases h : (I.remaining s).length < p.length
  · exact ⟨_, fail _, if_pos h⟩
  · rw [if_neg h]
    by_cases h' : p.isPrefixOf (I.remaining s) = true
    · exact ⟨_, ha _, if_pos h'⟩
    · exact ⟨_, fail _, if_neg h'⟩

theorem findSubsequence (p : List Byte) : StandsIn I (I.findSubsequence p) := by
  refine at_ fun s => ?_
  unfold MutImpl.findSubsequence
  cases findSub p (I.remaining s) with
  | none => exact ⟨_, fail .fail, rfl⟩
  | some i => exact ⟨_, (ha _).bind fun _ => slice _ _, rfl⟩

theorem findSubsequenceNeedle (p : List Byte) (incl : Bool) : StandsIn I (I.findSubsequenceNeedle p incl) := by
  refine at_ fun s => ?_
  unfold MutImpl.findSubsequenceNeedle
  cases findSub p (I.remaining s) with
  | none => exact ⟨_, fail .fail, rfl⟩
  | some i => exact ⟨_, (ha _).bind fun _ => slice _ _, rfl⟩

theorem findSubsequences (ps : List (List Byte)) : StandsIn I (I.findSubsequences ps) := by
  refine at_ fun s => ?_
  unfold MutImpl.findSubsequences
  cases acFind ps (I.remaining s) with
  | none => exact ⟨_, fail .fail, rfl⟩
  | some i => exact ⟨_, (ha _).bind fun _ => slice _ _, rfl⟩

theorem findSubsequencesNeedle (ps : List (List Byte)) (incl : Bool) : StandsIn I (I.findSubsequencesNeedle ps incl) := by
  refine at_ fun s => ?_
  unfold MutImpl.findSubsequencesNeedle
  cases acFind ps (I.remaining s) with
  | none => exact ⟨_, fail .fail, rfl⟩
  | some i => exact ⟨_, (ha _).bind fun _ => slice _ _, rfl⟩

theorem run (ht : ∀ n, StandsIn I (I.takeBytes n)) (op : ReadOp) : StandsIn I (I.run op) := by
  have hN : ∀ o size n, StandsIn I (I.takeN o size n) := by
    intro o size n
    unfold MutImpl.takeN
    cases o with
    | be =>
      by_cases h : n ≤ size
      · simp only [if_pos h]
        exact (ht n).bind fun _ => pure _
      · simp only [if_neg h]
        exact fail _
    | le =>
      refine at_ fun s => ?_
      by_cases h : n ≤ size
      · exact ⟨_, (ht n).bind fun _ => pure _, congrFun (if_pos h) s⟩
      · exact ⟨_, panic, congrFun (if_neg h) s⟩
  cases op with
  | bytes n => exact (ht n).map _
  | array n => exact (takeArray ha n).map _
  | byteorderArray n o => exact ((takeArray ha n).bind fun _ => pure _).map _
  | starts p => exact (takeBytesStarts ha p).map _
  | bool => exact ((ht 1).bind fun v => (index0 v).bind fun _ => pure _).map _
  | char => exact ((ht 1).bind fun v => (index0 v).bind fun _ => pure _).map _
  | scalar s o =>
    refine map _ ?_
    cases s <;> first
      | exact ((ht 1).bind fun v => index0 v).bind fun _ => pure _
      | exact (ht _).bind fun _ => pure _
  | u24 o => exact (hN o 4 3).map _
  | uint n o => exact (hN o 8 n).map _
  | find p => exact (findSubsequence ha p).map _
  | findNeedle p i => exact (findSubsequenceNeedle ha p i).map _
  | finds ps => exact (findSubsequences ha ps).map _
  | findsNeedle ps i => exact (findSubsequencesNeedle ha ps i).map _

end

end StandsIn

/-- C92 for any implementation of `BufReadMut` whose `advance` and `take_bytes` keep to it: so do all reads and peeks. -/
theorem C92_mut (I : MutImpl σ) (ha : ∀ n, StandsIn I (I.advance n)) (ht : ∀ n, StandsIn I (I.takeBytes n)) :
    (∀ op, StandsIn I (I.run op)) ∧ ∀ op, StandsIn I (I.untake op) :=
  ⟨StandsIn.run ha ht, StandsIn.untake⟩

/-- C92 for `&[u8]`: an error of a read or a peek is at 0, the position of every slice. -/
theorem C92_slice (l l' : List Byte) (e : JErr) :
    (∀ op, sliceImpl.run op l = (.err e, l') → e.position = 0) ∧ ∀ op, sliceImpl.untake op l = (.err e, l') → e.position = 0 := by
  have h := C92_mut sliceImpl (fun n s e s' h => by
      have h : (if n ≤ s.length then (Out.ok (), s.drop n) else (.panic, s)) = (Out.err e, s') := h
      split at h <;> cases h)
    (fun n s e s' h => by
      have h : (if n ≤ s.length then (Out.ok (s.take n), s.drop n) else (.err ⟨0, .invalidByteLength⟩, s)) = (Out.err e, s') := h
      split at h <;> cases h
      rfl)
  exact ⟨fun op => h.1 op l e l', fun op => h.2 op l e l'⟩

/-- C92 for `Cursor`. -/
theorem C92_cursor (b b' : Buf) (e : JErr) :
    (∀ op, cursorImpl.run op b = (.err e, b') → e.position = b'.pos) ∧
    ∀ op, cursorImpl.untake op b = (.err e, b') → e.position = b'.pos := by
  have h := C92_mut cursorImpl (fun n s e s' h => by cases h)
    (fun n s e s' h => by
      have h : (if (cursorImpl.remaining s).length < n then (Out.err ⟨s.pos, .invalidByteLength⟩, s)
        else if wsub (wadd s.pos n) n ≤ wadd s.pos n ∧ wadd s.pos n ≤ s.data.length then
          (.ok ((s.data.drop (wsub (wadd s.pos n) n)).take (wadd s.pos n - wsub (wadd s.pos n) n)), ⟨s.data, wadd s.pos n⟩)
        else (.panic, ⟨s.data, wadd s.pos n⟩)) = (Out.err e, s') := h
      split at h
      · cases h
        rfl
      · split at h <;> cases h)
  exact ⟨fun op => h.1 op b e b', fun op => h.2 op b e b'⟩

/-- A read that fails. -/
example : sliceImpl.run (.scalar .u32 .be) [1, 2] = (.err ⟨0, .invalidByteLength⟩, [1, 2]) ∧
    cursorImpl.run (.scalar .u32 .be) ⟨[1, 2, 3], 1⟩ = (.err ⟨1, .invalidByteLength⟩, ⟨[1, 2, 3], 1⟩) := ⟨rfl, rfl⟩

end JBytes
