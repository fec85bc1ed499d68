import Verif.WriteOps
import Verif.Tame
/-! # Helper lemmas about the writing primitives -/

namespace JBytes
open M

/-- Specification of a write of `d` at position `p`: overwrite or extend, filling a gap with zeros. -/
def writeAt (data : List Byte) (p : Nat) (d : List Byte) : List Byte :=
  (data ++ List.replicate (p - data.length) 0).take p ++ d ++ data.drop (p + d.length)

theorem vecResize_apply (n : Nat) (b : Buf) (h : n ≤ isizeMax) :
    vecResize n b = (.ok (), ⟨b.data.take n ++ List.replicate (n - b.data.length) 0, b.pos⟩) := by
  unfold vecResize
  rw [if_pos h]

theorem push_apply (d : List Byte) (b : Buf) (hs : b.pos + d.length ≤ isizeMax)
    (hne : d ≠ [] ∨ b.pos ≤ b.data.length) :
    push d b = (.ok d.length, ⟨writeAt b.data b.pos d, b.pos + d.length⟩) := by
  have h3 := isizeMax_lt
  unfold push
  simp only [bind_apply, remainingLen_apply, ite_apply', pure_apply]
  by_cases hgt : d.length > b.data.length - b.pos
  · have hpos : b.data.length < b.pos + d.length := by
      rcases hne with h | h
      · have : 0 < d.length := List.length_pos_iff.mpr h
        omega
      · omega
    have hd : 0 < d.length := by omega
    rw [if_pos hgt]
    unfold bufResize
    simp only [bind_apply, getPos_apply]
    rw [wadd_eq (by omega), vecResize_apply _ _ hs]
    simp only [pure_apply]
    rw [if_neg (by omega)]
    have ht : b.data.take (b.pos + d.length) = b.data := List.take_of_length_le (by omega)
    simp only [ht, overwrite]
    rw [if_pos (by simp; omega)]
    simp only [advance_apply]
    rw [wadd_eq (by omega)]
    simp only [writeAt]
    congr 2
    have e1 : (b.data ++ List.replicate (b.pos + d.length - b.data.length) 0).take b.pos
        = (b.data ++ List.replicate (b.pos - b.data.length) 0).take b.pos := by
      rw [List.take_append, List.take_append, List.take_replicate, List.take_replicate]
      congr 2
      omega
    rw [e1]
    congr 1
    rw [List.drop_eq_nil_of_le (by simp; omega), List.drop_eq_nil_of_le (by omega)]
  · rw [if_neg hgt]
    simp only [Nat.one_ne_zero, if_false]
    have hpos : b.pos ≤ b.data.length := by
      rcases hne with h | h
      · have : 0 < d.length := List.length_pos_iff.mpr h
        omega
      · exact h
    simp only [overwrite]
    rw [if_pos (by omega)]
    simp only [advance_apply]
    rw [wadd_eq (by omega)]
    simp only [writeAt]
    rw [show b.pos - b.data.length = 0 by omega]
    simp

/-- Inside the data no zero fill is involved. -/
theorem writeAt_inside (data d : List Byte) (p : Nat) (h : p ≤ data.length) :
    writeAt data p d = data.take p ++ d ++ data.drop (p + d.length) := by
  unfold writeAt
  rw [show p - data.length = 0 by omega]
  simp

theorem writeAt_end (data d : List Byte) : writeAt data data.length d = data ++ d := by
  rw [writeAt_inside _ _ _ (Nat.le_refl _), List.take_length, List.drop_eq_nil_of_le (by omega)]
  simp

theorem push_end (data d : List Byte) (h : data.length + d.length ≤ isizeMax) :
    push d ⟨data, data.length⟩ = (.ok d.length, ⟨data ++ d, data.length + d.length⟩) := by
  rw [push_apply d _ h (.inr (Nat.le_refl _)), writeAt_end]

theorem toBytes_one (o : ByteOrder) (v : Nat) : toBytes o 1 v = [UInt8.ofNat v] := by
  cases o <;> simp [toBytes, toBE, toLE]

theorem pushScalar_eq (s : Scalar) (v : Nat) (o : ByteOrder) :
    pushScalar s v o = push (toBytes o s.size v) := by
  cases s <;> first | rfl | (simp only [pushScalar, pushU8, Scalar.size, toBytes_one]; done)

theorem pushU24_eq (v : Nat) (o : ByteOrder) : pushU24 v o = push (toBytes o 3 v) := by
  cases o
  · show push ((toBE 4 v).drop (4 - 3)) = _
    rw [toBE_drop 4 3 v (by omega)]; rfl
  · show push ((toLE 4 v).take 3) = _
    rw [toLE_take 4 3 v (by omega)]; rfl

theorem pushUint_eq (v n : Nat) (o : ByteOrder) (h : n ≤ 8) : pushUint v n o = push (toBytes o n v) := by
  cases o
  · show pushBeUint v n = _
    unfold pushBeUint
    rw [if_pos h, toBE_drop 8 n v h]; rfl
  · show pushLeUint v n = _
    unfold pushLeUint
    rw [if_pos h, toLE_take 8 n v h]; rfl

theorem pushUint_wide (v n : Nat) (o : ByteOrder) (h : 8 < n) (b : Buf) :
    pushUint v n o b = (.err ⟨b.pos, .invalidByteLength⟩, b) := by
  cases o
  · show pushBeUint v n b = _
    unfold pushBeUint
    rw [if_neg (by omega)]; rfl
  · show pushLeUint v n b = _
    unfold pushLeUint
    rw [if_neg (by omega)]; rfl

/-- Every write method is `push` of its payload, or an error in place. -/
theorem run_eq (op : WriteOp) (b : Buf) : op.run b = match op.payload with
    | some d => push d b
    | none => (.err ⟨b.pos, .invalidByteLength⟩, b) := by
  cases op with
  | bytes d => rfl
  | byteorderArray d o => cases o <;> rfl
  | bool c => rfl
  | char c => rfl
  | scalar s v o => exact congrFun (pushScalar_eq s v o) b
  | u24 v o => exact congrFun (pushU24_eq v o) b
  | uint v n o =>
    simp only [WriteOp.payload, WriteOp.run]
    by_cases h : n ≤ 8
    · rw [if_pos h]
      exact congrFun (pushUint_eq v n o h) b
    · rw [if_neg h]
      exact pushUint_wide v n o (by omega) b

theorem read_back (data d rest : List Byte) (p : Nat) (hp : p = data.length)
    (hs : (data ++ d ++ rest).length ≤ isizeMax) :
    takeBytes d.length ⟨data ++ d ++ rest, p⟩ = (.ok d, ⟨data ++ d ++ rest, p + d.length⟩) := by
  subst hp
  rw [takeBytes_apply _ _ ⟨by simp, hs⟩, if_neg (by simp)]
  simp

theorem writeAt_split (data d : List Byte) (p : Nat) : ∃ pre, writeAt data p d = pre ++ d ++ data.drop (p + d.length) ∧
    pre.length = p := by
  refine ⟨(data ++ List.replicate (p - data.length) 0).take p, rfl, ?_⟩
  simp
  omega

theorem writeAt_length (data d : List Byte) (p : Nat) (_h : d ≠ [] ∨ p ≤ data.length) :
    (writeAt data p d).length = max data.length (p + d.length) := by
  obtain ⟨pre, e, hp⟩ := writeAt_split data d p
  rw [e]
  simp
  omega

end JBytes
