import Verif.IO
import Verif.WriteLemmas
/-!
# Properties of the io traits: C15, C16
-/

namespace JBytes
open M

/-! ## Specification: a file with a cursor -/

/-- An abstract file. -/
structure FileSpec where
  bytes : List Byte
  cur : Nat
  deriving DecidableEq, Repr

/-- Contents after writing `d` at offset `p`: byte by byte, zero where nothing was ever written. -/
def specWrite (old : List Byte) (p : Nat) (d : List Byte) : List Byte :=
  (List.range (max old.length (p + d.length))).map fun i =>
    if p ≤ i ∧ i < p + d.length then d.getD (i - p) 0 else old.getD i 0

/-- Where a seek wants to go. -/
def FileSpec.target (f : FileSpec) : SeekFrom → Int
  | .start o => o
  | .fromEnd o => f.bytes.length + o
  | .current o => f.cur + o

/-- Whether it can go there: positions are numbers from 0 to `isize::MAX`. -/
def FileSpec.Reaches (f : FileSpec) (s : SeekFrom) : Prop := 0 ≤ f.target s ∧ f.target s ≤ isizeMax

instance (f : FileSpec) (s : SeekFrom) : Decidable (f.Reaches s) := inferInstanceAs (Decidable (_ ∧ _))

/-- One call on the abstract file. -/
def FileSpec.step (f : FileSpec) : IoOp → IoOut × FileSpec
  | .read n => let v := (f.bytes.drop f.cur).take n; (.bytes v, { f with cur := f.cur + v.length })
  | .write d => (.wrote d.length, ⟨specWrite f.bytes f.cur d, f.cur + d.length⟩)
  | .seek s =>
    if f.Reaches s then (.seek true, { f with cur := (f.target s).toNat }) else (.seek false, f)

/-- A history on the abstract file. -/
def FileSpec.run (f : FileSpec) : List IoOp → List IoOut × FileSpec
  | [] => ([], f)
  | op :: ops => ((f.step op).1 :: ((f.step op).2.run ops).1, ((f.step op).2.run ops).2)

/-- The offset is an `i64`, or a `u64` from the start. -/
def SeekFrom.Representable : SeekFrom → Prop
  | .start o => o < 18446744073709551616
  | .fromEnd o => -9223372036854775808 ≤ o ∧ o ≤ 9223372036854775807
  | .current o => -9223372036854775808 ≤ o ∧ o ≤ 9223372036854775807

/-- The call can be made: what is written ends at `isize::MAX` at the latest, offsets are representable. -/
def FileSpec.InRange (f : FileSpec) : IoOp → Prop
  | .read _ => True
  | .write d => f.cur + d.length ≤ isizeMax
  | .seek s => s.Representable

/-- Every call of the history stays in range. -/
def FileSpec.AllInRange (f : FileSpec) : List IoOp → Prop
  | [] => True
  | op :: ops => f.InRange op ∧ (f.step op).2.AllInRange ops

theorem specWrite_eq (old d : List Byte) (p : Nat) :
    specWrite old p d =
      (old.take p ++ List.replicate (p - old.length) 0) ++ d ++ old.drop (p + d.length) := by
  apply List.ext_getElem?
  intro i
  unfold specWrite
  rw [List.getElem?_map]
  by_cases hi : i < max old.length (p + d.length)
  · rw [List.getElem?_range hi]
    simp only [Option.map_some]
    by_cases h1 : i < p
    · rw [if_neg (by omega), List.append_assoc, List.getElem?_append_left (by simp; omega)]
      by_cases h2 : i < old.length
      · rw [List.getElem?_append_left (by simp; omega), List.getElem?_take_of_lt h1]
        simp [h2]
      · rw [List.getElem?_append_right (by simp; omega), List.getElem?_replicate, if_pos (by simp; omega)]
        simp [List.getD_eq_getElem?_getD, List.getElem?_eq_none (Nat.le_of_not_lt h2)]
    · by_cases h3 : i < p + d.length
      · rw [if_pos (by omega), List.getElem?_append_left (by simp; omega),
          List.getElem?_append_right (by simp; omega)]
        have e : i - (old.take p ++ List.replicate (p - old.length) 0).length = i - p := by
          simp; omega
        rw [e]
        have : i - p < d.length := by omega
        simp [this]
      · rw [if_neg (by omega), List.getElem?_append_right (by simp; omega), List.getElem?_drop]
        have e : p + d.length + (i - (old.take p ++ List.replicate (p - old.length) 0 ++ d).length) = i := by
          simp; omega
        rw [e]
        have : i < old.length := by omega
        simp [this]
  · rw [List.getElem?_eq_none (by simpa using hi), List.getElem?_eq_none (by simp; omega)]
    rfl

theorem wrapIsize_id (i : Int) (h1 : -9223372036854775808 ≤ i) (h2 : i ≤ 9223372036854775807) :
    wrapIsize i = i := by
  unfold wrapIsize
  omega

theorem seekTarget_eq (s : SeekFrom) (d : List Byte) (p : Nat) (hd : d.length ≤ 9223372036854775807)
    (hp : p ≤ 9223372036854775807) (hr : s.Representable) :
    ((⟨d, p⟩ : FileSpec).Reaches s → seekTarget p d.length s = (⟨d, p⟩ : FileSpec).target s) ∧
    (¬ (⟨d, p⟩ : FileSpec).Reaches s → seekTarget p d.length s < 0) := by
  unfold FileSpec.Reaches
  rw [isizeMax_def]
  cases s with
  | start o =>
    simp only [FileSpec.target, seekTarget, SeekFrom.Representable, wrapIsize] at hr ⊢
    omega
  | fromEnd o =>
    simp only [FileSpec.target, seekTarget, SeekFrom.Representable] at hr ⊢
    rw [wrapIsize_id d.length (by omega) (by omega), wrapIsize_id o hr.1 hr.2]
    unfold wrapIsize
    omega
  | current o =>
    simp only [FileSpec.target, seekTarget, SeekFrom.Representable] at hr ⊢
    rw [wrapIsize_id p (by omega) (by omega), wrapIsize_id o hr.1 hr.2]
    unfold wrapIsize
    omega

/-- One step: the buffer and the abstract file agree. -/
theorem io_step (op : IoOp) (d : List Byte) (p : Nat) (hd : d.length ≤ isizeMax) (hp : p ≤ isizeMax)
    (hr : (⟨d, p⟩ : FileSpec).InRange op) :
    op.run ⟨d, p⟩ = (.ok ((⟨d, p⟩ : FileSpec).step op).1,
      ⟨((⟨d, p⟩ : FileSpec).step op).2.bytes, ((⟨d, p⟩ : FileSpec).step op).2.cur⟩) ∧
    ((⟨d, p⟩ : FileSpec).step op).2.bytes.length ≤ isizeMax ∧
    ((⟨d, p⟩ : FileSpec).step op).2.cur ≤ isizeMax := by
  have h3 := isizeMax_lt
  cases op with
  | read n =>
    simp only [FileSpec.step, IoOp.run, ioRead, bind_apply, getData_apply, getPos_apply, ite_apply']
    by_cases hle : d.length ≤ p
    · rw [if_pos hle, List.drop_eq_nil_of_le hle]
      simp only [pure_apply, List.take_nil, List.length_nil, Nat.add_zero]
      exact ⟨trivial, hd, hp⟩
    · rw [if_neg hle]
      simp only [slice_apply, setPos_apply, pure_apply]
      have hk : min n (d.length - p) ≤ d.length - p := Nat.min_le_right _ _
      have e : wadd p (min n (d.length - p)) = p + min n (d.length - p) := wadd_eq (by omega)
      rw [e, if_pos (by omega)]
      simp only []
      have e2 : p + min n (d.length - p) - p = min n (d.length - p) := by omega
      have e3 : (d.drop p).take (min n (d.length - p)) = (d.drop p).take n := by
        rw [List.take_eq_take_iff]
        simp
      have e4 : ((d.drop p).take n).length = min n (d.length - p) := by simp
      rw [e2, e3, e4]
      refine ⟨rfl, hd, by omega⟩
  | write buf =>
    have hr : p + buf.length ≤ isizeMax := hr
    simp only [FileSpec.step, IoOp.run, ioWrite, bind_apply, getData_apply, getPos_apply, ite_apply']
    have e : wadd p buf.length = p + buf.length := wadd_eq (by omega)
    rw [e]
    have hlen : (specWrite d p buf).length = max d.length (p + buf.length) := by
      unfold specWrite; simp
    refine ⟨?_, by rw [hlen]; omega, hr⟩
    rw [specWrite_eq]
    by_cases hgt : p + buf.length > d.length
    · rw [if_pos hgt, vecResize_apply _ _ hr]
      simp only [copyInto]
      rw [if_pos (by simp; omega)]
      simp only [setPos_apply, pure_apply]
      congr 2
      have ht : d.take (p + buf.length) = d := List.take_of_length_le (by omega)
      rw [ht]
      congr 1
      · congr 1
        rw [List.take_append, List.take_replicate]
        congr 2
        omega
      · rw [List.drop_eq_nil_of_le (by simp; omega), List.drop_eq_nil_of_le (by omega)]
    · rw [if_neg hgt]
      simp only [pure_apply, copyInto]
      rw [if_pos (by omega)]
      simp only [setPos_apply]
      rw [show p - d.length = 0 by omega]
      simp
  | seek s =>
    simp only [FileSpec.step, IoOp.run, ioSeek, bind_apply, getData_apply, getPos_apply, ite_apply']
    have hq := seekTarget_eq s d p (by rw [← isizeMax_def]; exact hd) (by rw [← isizeMax_def]; exact hp) hr
    by_cases hin : (⟨d, p⟩ : FileSpec).Reaches s
    · rw [if_pos hin, hq.1 hin, if_neg (Int.not_lt.2 hin.1)]
      refine ⟨rfl, hd, ?_⟩
      have h1 := hin.1
      have h2 := hin.2
      show ((⟨d, p⟩ : FileSpec).target s).toNat ≤ isizeMax
      omega
    · rw [if_neg hin, if_pos (hq.2 hin)]
      exact ⟨rfl, hd, hp⟩

/-- C15: any history of reads, writes and seeks on a `Buffer` gives the caller the same results, and leaves
the same contents and position, as the abstract file.  Seeks may go anywhere: those that leave the range are refused. -/
theorem C15_file_refinement (ops : List IoOp) (d : List Byte) (p : Nat) (hd : d.length ≤ isizeMax)
    (hp : p ≤ isizeMax) (hr : (⟨d, p⟩ : FileSpec).AllInRange ops) :
    runIo ops ⟨d, p⟩ = (.ok ((⟨d, p⟩ : FileSpec).run ops).1,
      ⟨((⟨d, p⟩ : FileSpec).run ops).2.bytes, ((⟨d, p⟩ : FileSpec).run ops).2.cur⟩) := by
  induction ops generalizing d p with
  | nil => rfl
  | cons op ops ih =>
    obtain ⟨h1, h2, h3⟩ := io_step op d p hd hp hr.1
    have := ih _ _ h2 h3 hr.2
    simp only [runIo, FileSpec.run, bind_apply, h1, this, pure_apply]

example : (⟨[], 0⟩ : FileSpec).AllInRange [.write [1, 2, 3], .seek (.fromEnd (-1)), .read 5, .seek (.current (-7)),
    .seek (.start 9223372036854775808), .seek (.current 9223372036854775807)] := by
  simp only [FileSpec.AllInRange, FileSpec.InRange, SeekFrom.Representable]
  rw [isizeMax_def]
  decide +kernel

example : runIo [.write [1, 2, 3], .seek (.fromEnd (-1)), .read 5, .seek (.current (-7)), .seek (.start 9223372036854775808),
      .seek (.current 9223372036854775807), .seek (.start 5), .write [9]] ⟨[], 0⟩
    = (.ok [.wrote 3, .seek true, .bytes [3], .seek false, .seek false, .seek false, .seek true, .wrote 1], ⟨[1, 2, 3, 0, 0, 9], 6⟩) := by
  decide +kernel

/-- C15, refused seeks: a seek to a negative position, or beyond `isize::MAX`, changes nothing. -/
theorem C15_refused_seek (s : SeekFrom) (d : List Byte) (p : Nat) (hd : d.length ≤ isizeMax)
    (hp : p ≤ isizeMax) (hr : s.Representable) (hneg : (⟨d, p⟩ : FileSpec).target s < 0 ∨ (isizeMax : Int) < (⟨d, p⟩ : FileSpec).target s) :
    ioSeek s ⟨d, p⟩ = (.ok none, ⟨d, p⟩) := by
  have h := (io_step (.seek s) d p hd hp hr).1
  simp only [FileSpec.step, if_neg (show ¬ (⟨d, p⟩ : FileSpec).Reaches s by unfold FileSpec.Reaches; omega), IoOp.run, bind_apply] at h
  rcases hs : ioSeek s ⟨d, p⟩ with ⟨o, b'⟩
  rw [hs] at h
  cases o with
  | ok r =>
    simp only [pure_apply, Prod.mk.injEq, Out.ok.injEq, IoOut.seek.injEq] at h
    rw [h.2]
    cases r with
    | none => rfl
    | some _ => simp at h
  | _ => simp at h

/-- C15, writes that do not fit: a write that would end beyond `isize::MAX` panics, also where the addition wraps around; the
position and the bytes that were there stay. -/
theorem C15_write_too_far (buf d : List Byte) (p : Nat) (hp : p < usizeMod) (hd : d.length ≤ isizeMax)
    (hb : buf.length ≤ isizeMax) (hfar : isizeMax < p + buf.length) :
    ∃ b', ioWrite buf ⟨d, p⟩ = (.panic, b') ∧ b'.pos = p ∧ d <+: b'.data := by
  have h3 := isizeMax_lt
  simp only [ioWrite, bind_apply, getData_apply, getPos_apply, ite_apply']
  rcases Nat.lt_or_ge (p + buf.length) usizeMod with hc | hc
  · rw [wadd_eq hc, if_pos (show p + buf.length > d.length by omega)]
    unfold vecResize
    rw [if_neg (by omega)]
    exact ⟨_, rfl, rfl, List.prefix_refl _⟩
  · have e : wadd p buf.length = p + buf.length - usizeMod := by
      unfold wadd
      rw [Nat.mod_eq_sub_mod hc, Nat.mod_eq_of_lt (by omega)]
    rw [e]
    by_cases hgt : p + buf.length - usizeMod > d.length
    · rw [if_pos hgt, vecResize_apply _ _ (by omega)]
      simp only [copyInto]
      rw [if_neg (by omega)]
      refine ⟨_, rfl, rfl, ?_⟩
      show d <+: d.take _ ++ _
      rw [List.take_of_length_le (by omega)]
      exact List.prefix_append _ _
    · rw [if_neg hgt]
      simp only [pure_apply, copyInto]
      rw [if_neg (by omega)]
      exact ⟨_, rfl, rfl, List.prefix_refl _⟩

/-- A write of two bytes at the greatest position there is. -/
example : ∃ b', ioWrite [8, 9] ⟨[1], usizeMod - 1⟩ = (.panic, b') ∧ b'.pos = usizeMod - 1 ∧ [1] <+: b'.data :=
  C15_write_too_far [8, 9] [1] (usizeMod - 1) (by have := isizeMax_lt; omega) (by rw [isizeMax_def]; decide)
    (by rw [isizeMax_def]; decide) (by have := isizeMax_lt; simp only [List.length_cons, List.length_nil]; omega)

/-! ## C16 -/

/-- C16, what holds: a successful seek moves to the requested position, and the number it returns is the old
position (so it is the documented value only when the seek does not move).  Missing from the full statement:
the returned number is not the new position. -/
theorem C16_seek_partial (s : SeekFrom) (d : List Byte) (p : Nat) (hd : d.length ≤ isizeMax)
    (hp : p ≤ isizeMax) (hr : s.Representable) (hnn : (⟨d, p⟩ : FileSpec).Reaches s) :
    ioSeek s ⟨d, p⟩ = (.ok (some p), ⟨d, ((⟨d, p⟩ : FileSpec).target s).toNat⟩) := by
  have h := (io_step (.seek s) d p hd hp hr).1
  simp only [FileSpec.step, if_pos hnn, IoOp.run, bind_apply] at h
  have key : ∀ r b', ioSeek s ⟨d, p⟩ = (.ok (some r), b') → r = p := by
    intro r b' h
    simp only [ioSeek, bind_apply, getPos_apply, getData_apply, ite_apply'] at h
    split at h
    · simp [pure_apply] at h
    · simp [setPos_apply, pure_apply] at h
      exact h.1.symm
  rcases hs : ioSeek s ⟨d, p⟩ with ⟨o, b'⟩
  rw [hs] at h
  cases o with
  | ok r =>
    simp only [pure_apply, Prod.mk.injEq, Out.ok.injEq, IoOut.seek.injEq] at h
    rw [h.2]
    cases r with
    | none => simp at h
    | some r => rw [key r b' hs]
  | _ => simp at h

/-- C16 is violated: seeking from 0 to 3 returns 0. -/
theorem C16_violated : ioSeek (.start 3) ⟨[1, 2, 3, 4], 0⟩ = (.ok (some 0), ⟨[1, 2, 3, 4], 3⟩) := by
  decide +kernel

end JBytes
