import Verif.ReadOps
/-! # Helper lemmas about the reading primitives -/

namespace JBytes
open M

theorem bind_apply {α β : Type} (m : M α) (f : α → M β) (b : Buf) :
    (m >>= f) b = (match m b with
      | (.ok a, b') => f a b'
      | (.err e, b') => (.err e, b')
      | (.panic, b') => (.panic, b')
      | (.timeout, b') => (.timeout, b')) := rfl

theorem pure_apply {α : Type} (a : α) (b : Buf) : (Pure.pure a : M α) b = (.ok a, b) := rfl
theorem mpure_apply {α : Type} (a : α) (b : Buf) : (M.pure a : M α) b = (.ok a, b) := rfl
theorem fail_apply {α : Type} (c : ErrCode) (b : Buf) : (fail c : M α) b = (.err ⟨b.pos, c⟩, b) := rfl
theorem failAt_apply {α : Type} (p : Nat) (c : ErrCode) (b : Buf) :
    (failAt p c : M α) b = (.err ⟨p, c⟩, b) := rfl
theorem panic_apply {α : Type} (b : Buf) : (M.panic : M α) b = (.panic, b) := rfl
theorem timeout_apply {α : Type} (b : Buf) : (M.timeout : M α) b = (.timeout, b) := rfl
theorem getPos_apply (b : Buf) : getPos b = (.ok b.pos, b) := rfl
theorem getData_apply (b : Buf) : getData b = (.ok b.data, b) := rfl
theorem setPos_apply (p : Nat) (b : Buf) : setPos p b = (.ok (), ⟨b.data, p⟩) := rfl
theorem advance_apply (n : Nat) (b : Buf) :
    advance n b = (.ok (), ⟨b.data, wadd b.pos n⟩) := rfl
theorem slice_apply (s t : Nat) (b : Buf) :
    slice s t b = if s ≤ t ∧ t ≤ b.data.length then (.ok ((b.data.drop s).take (t - s)), b)
      else (.panic, b) := rfl
theorem remaining_apply (b : Buf) :
    remaining b = (.ok (if b.pos ≤ b.data.length then b.data.drop b.pos else []), b) := rfl
theorem remaining_apply' (b : Buf) : remaining b = (.ok (b.data.drop b.pos), b) := by
  rw [remaining_apply]
  split
  · rfl
  · rw [List.drop_eq_nil_of_le (by omega)]

theorem ite_apply' {α : Type} (c : Prop) [Decidable c] (m n : M α) (b : Buf) :
    (if c then m else n) b = if c then m b else n b := by split <;> rfl

/-- The state a reader is normally in: position inside data of a possible size. -/
def Buf.Ok (b : Buf) : Prop := b.pos ≤ b.data.length ∧ b.data.length ≤ isizeMax

instance (b : Buf) : Decidable b.Ok := by unfold Buf.Ok; infer_instance

theorem remainingLen_apply (b : Buf) : remainingLen b = (.ok (b.data.length - b.pos), b) := by
  unfold remainingLen
  simp [bind_apply, remaining_apply', pure_apply]

theorem wadd_eq {a b : Nat} (h : a + b < usizeMod) : wadd a b = a + b := Nat.mod_eq_of_lt h

theorem wsub_add (a b : Nat) : wsub (a + b) b = a := by
  unfold wsub
  rw [if_pos (Nat.le_add_left b a)]
  omega

theorem takeBytes_apply (n : Nat) (b : Buf) (h : b.Ok) :
    takeBytes n b = if b.data.length - b.pos < n then (.err ⟨b.pos, .invalidByteLength⟩, b)
      else (.ok ((b.data.drop b.pos).take n), ⟨b.data, b.pos + n⟩) := by
  obtain ⟨h1, h2⟩ := h
  have h3 := isizeMax_lt
  unfold takeBytes
  simp only [bind_apply, remainingLen_apply, ite_apply', fail_apply, advance_apply, getPos_apply,
    slice_apply]
  split
  · rfl
  · rename_i hn
    have e1 : wadd b.pos n = b.pos + n := wadd_eq (by omega)
    simp only [e1, wsub_add]
    rw [if_pos (by omega)]
    simp

theorem untakeBytes_apply (n : Nat) (b : Buf) (h : b.Ok) :
    untakeBytes n b = if b.data.length - b.pos < n then (.err ⟨b.pos, .invalidByteLength⟩, b)
      else (.ok ((b.data.drop b.pos).take n), b) := by
  obtain ⟨h1, h2⟩ := h
  have h3 := isizeMax_lt
  unfold untakeBytes
  simp only [bind_apply, remainingLen_apply, ite_apply', fail_apply, getPos_apply, slice_apply]
  split
  · rfl
  · rename_i hn
    have e1 : wadd b.pos n = b.pos + n := wadd_eq (by omega)
    simp only [e1]
    rw [if_pos (by omega)]
    simp

/-- Past the end of the data. -/
theorem takeBytes_past (n : Nat) (b : Buf) (h : b.data.length < b.pos) (hp : b.pos < usizeMod) :
    takeBytes n b = if n = 0 then (.panic, b) else (.err ⟨b.pos, .invalidByteLength⟩, b) := by
  unfold takeBytes
  simp only [bind_apply, remainingLen_apply, ite_apply', fail_apply, advance_apply, getPos_apply,
    slice_apply]
  by_cases hn : n = 0
  · subst hn
    have e1 : wadd b.pos 0 = b.pos := wadd_eq hp
    have e2 : wsub b.pos 0 = b.pos := wsub_add b.pos 0
    simp only [e1, e2]
    rw [if_neg (by omega), if_neg (by omega), if_pos trivial]
  · rw [if_pos (by omega), if_neg hn]

end JBytes
