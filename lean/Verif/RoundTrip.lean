import Verif.PropRead
import Verif.WriteLemmas
import Verif.CodecSeq
/-!
# Specification vocabulary of the codecs: what it means to append a wire image and to read one back
-/

namespace JBytes
open M

variable {α β : Type}

/-- Encoding at the end of a buffer appends exactly `w`, keeps what was there, reports the number of bytes and
leaves the position at the new end. -/
def Appends (e : M Nat) (w : List Byte) : Prop := ∀ pre : List Byte, pre.length + w.length ≤ isizeMax →
  e ⟨pre, pre.length⟩ = (.ok w.length, ⟨pre ++ w, pre.length + w.length⟩)

/-- Decoding where `w` stands, after any `pre` and before `suf`, returns `v` and consumes exactly `w`. -/
def Reads (d : M α) (v : α) (w suf : List Byte) : Prop := ∀ pre : List Byte,
  pre.length + w.length + suf.length ≤ isizeMax →
  d ⟨pre ++ (w ++ suf), pre.length⟩ = (.ok v, ⟨pre ++ (w ++ suf), pre.length + w.length⟩)

theorem Appends.pure0 : Appends (Pure.pure 0) [] := by
  intro pre _
  rw [pure_apply]
  simp

theorem Appends.bind {e1 : M Nat} {w1 : List Byte} (h1 : Appends e1 w1) {f : Nat → M Nat} {w2 : List Byte}
    (h2 : ∀ pre : List Byte, pre.length + w2.length ≤ isizeMax →
      f w1.length ⟨pre, pre.length⟩ = (.ok (w1.length + w2.length), ⟨pre ++ w2, pre.length + w2.length⟩)) :
    Appends (e1 >>= f) (w1 ++ w2) := by
  intro pre hp
  rw [List.length_append] at hp
  rw [bind_apply, h1 pre (by omega)]
  have := h2 (pre ++ w1) (by rw [List.length_append]; omega)
  rw [List.length_append] at this
  simp only [this, List.append_assoc, List.length_append, Nat.add_assoc]

theorem Appends.seq {e1 : M Nat} {w1 : List Byte} (h1 : Appends e1 w1) {e2 : M Nat} {w2 : List Byte}
    (h2 : Appends e2 w2) :
    Appends (e1 >>= fun n => e2 >>= fun m => (Pure.pure (n + m) : M Nat)) (w1 ++ w2) := by
  refine h1.bind ?_
  intro pre hp
  rw [bind_apply, h2 pre hp]
  rfl

theorem Appends.push (w : List Byte) : Appends (push w) w := fun pre h => push_end pre w h

theorem Appends.scalar (s : Scalar) (v : Nat) (o : ByteOrder) :
    Appends (pushScalar s v o) (toBytes o s.size v) := by
  rw [pushScalar_eq]
  exact Appends.push _

theorem Appends.uint (v n : Nat) (o : ByteOrder) (h : n ≤ 8) : Appends (pushUint v n o) (toBytes o n v) := by
  rw [pushUint_eq v n o h]
  exact Appends.push _

theorem Reads.pure (v : α) (suf : List Byte) : Reads (Pure.pure v) v [] suf := by
  intro pre _
  rfl

theorem Reads.bind {d1 : M α} {a : α} {w1 w2 suf : List Byte} (h1 : Reads d1 a w1 (w2 ++ suf))
    {f : α → M β} {v : β} (h2 : Reads (f a) v w2 suf) : Reads (d1 >>= f) v (w1 ++ w2) suf := by
  intro pre hp
  rw [List.length_append] at hp
  have e1 := h1 pre (by rw [List.length_append]; omega)
  have e2 := h2 (pre ++ w1) (by rw [List.length_append]; omega)
  rw [bind_apply, List.append_assoc, e1]
  simp only [List.append_assoc, List.length_append] at e2 ⊢
  rw [e2]
  simp only [Nat.add_assoc]

theorem Reads.map {d : M α} {a : α} {w suf : List Byte} (h : Reads d a w suf) (f : α → β) :
    Reads (d >>= fun x => (Pure.pure (f x) : M β)) (f a) w suf := by
  have := Reads.bind (w2 := []) (f := fun x => (Pure.pure (f x) : M β)) (d1 := d) (a := a) (w1 := w)
    (suf := suf) (v := f a) (by simpa using h) (Reads.pure _ _)
  simpa using this

theorem ok_of_size {pre w suf : List Byte} (h : pre.length + w.length + suf.length ≤ isizeMax) :
    (⟨pre ++ (w ++ suf), pre.length⟩ : Buf).Ok := by
  refine ⟨by simp, ?_⟩
  simp only [List.length_append]
  omega

theorem Reads.bytes (w suf : List Byte) : Reads (takeBytes w.length) w w suf := by
  intro pre hp
  rw [takeBytes_apply _ _ (ok_of_size hp), if_neg (by simp)]
  simp

theorem Reads.fixed (o : ByteOrder) (n v : Nat) (suf : List Byte) (h : v < 256 ^ n) :
    Reads (takeFixed o n) v (toBytes o n v) suf := by
  have := (Reads.bytes (toBytes o n v) suf).map (fromBytes o)
  rw [toBytes_length, fromBytes_toBytes, Nat.mod_eq_of_lt h] at this
  exact this

theorem Reads.congr {d d' : M α} {v : α} {w suf : List Byte} (h : Reads d v w suf)
    (e : ∀ b, b.Ok → d' b = d b) : Reads d' v w suf := by
  intro pre hp
  rw [e _ (ok_of_size hp)]
  exact h pre hp

theorem Reads.scalar (s : Scalar) (o : ByteOrder) (v : Nat) (suf : List Byte) (h : v < 256 ^ s.size) :
    Reads (takeScalar s o) v (toBytes o s.size v) suf :=
  (Reads.fixed o s.size v suf h).congr (fun b hb => takeScalar_eq_fixed s o b hb)

theorem Reads.uint (o : ByteOrder) (n v : Nat) (suf : List Byte) (hn : n ≤ 8) (h : v < 256 ^ n) :
    Reads (takeUint n o) v (toBytes o n v) suf :=
  (Reads.fixed o n v suf h).congr (fun b _ => takeN_apply o 8 n hn b)

theorem Reads.u8 (x : Byte) (suf : List Byte) : Reads takeU8 x [x] suf := by
  intro pre hp
  rw [takeU8_apply _ (ok_of_size hp), dif_pos (by simp)]
  simp

theorem mapM'_eq (f : α → β) (m : M α) : mapM' f m = m >>= fun a => (Pure.pure (f a) : M β) := rfl

end JBytes
