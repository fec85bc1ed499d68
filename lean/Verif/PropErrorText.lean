import Verif.ErrorText
import Verif.PropNet
/-!
# C82: an error can be told from its text
-/

namespace JBytes

theorem DecimalText.unique {s : List Byte} {n m : Nat} (h : DecimalText s n) (h' : DecimalText s m) : n = m := by
  induction h generalizing m with
  | one d hd =>
    generalize hs : [UInt8.ofNat (0x30 + d)] = s at h'
    cases h' with
    | one d' hd' =>
      have := congrArg UInt8.toNat (List.cons.inj hs).1
      rw [digit_toNat hd, digit_toNat hd'] at this
      omega
    | @snoc s' n' d' h' hd' =>
      have := congrArg List.length hs
      have h0 := List.length_pos_iff.2 h'.digits.1
      simp only [List.length_cons, List.length_nil, List.length_append] at this
      omega
  | @snoc s n d h hd ih =>
    generalize hs : s ++ [UInt8.ofNat (0x30 + d)] = t at h'
    cases h' with
    | one d' hd' =>
      have := congrArg List.length hs
      have h0 := List.length_pos_iff.2 h.digits.1
      simp only [List.length_cons, List.length_nil, List.length_append] at this
      omega
    | @snoc s' n' d' h' hd' =>
      obtain ⟨rfl, e⟩ := List.append_inj' hs rfl
      have := congrArg UInt8.toNat (List.cons.inj e).1
      rw [digit_toNat hd, digit_toNat hd'] at this
      have := ih h'
      omega

theorem decimal_inj {n m : Nat} (h : decimal n = decimal m) : n = m :=
  (decimal_text n).unique (h ▸ decimal_text m)

theorem digits_split {a a' d d' : List Byte} {c c' : Byte} (hd : ∀ x ∈ d, 0x30 ≤ x.toNat ∧ x.toNat ≤ 0x39)
    (hd' : ∀ x ∈ d', 0x30 ≤ x.toNat ∧ x.toNat ≤ 0x39) (hc : c.toNat < 0x30) (hc' : c'.toNat < 0x30)
    (h : a ++ [c] ++ d = a' ++ [c'] ++ d') : a ++ [c] = a' ++ [c'] ∧ d = d' := by
  rcases List.append_eq_append_iff.1 h with ⟨m, h1, h2⟩ | ⟨m, h1, h2⟩
  · rcases m.eq_nil_or_concat with rfl | ⟨m, x, rfl⟩
    · exact ⟨by simpa using h1.symm, by simpa using h2⟩
    · rw [List.concat_eq_append, ← List.append_assoc] at h1
      obtain ⟨-, e⟩ := List.append_inj' h1 rfl
      have := hd x (by rw [h2]; simp)
      rw [← (List.cons.inj e).1] at this
      omega
  · rcases m.eq_nil_or_concat with rfl | ⟨m, x, rfl⟩
    · exact ⟨by simpa using h1, by simpa using h2.symm⟩
    · rw [List.concat_eq_append, ← List.append_assoc] at h1
      obtain ⟨-, e⟩ := List.append_inj' h1 rfl
      have := hd' x (by rw [h2]; simp)
      rw [← (List.cons.inj e).1] at this
      omega

theorem message_inj {k k' : ErrCode} {v v' : List Byte} (h : k.message v = k'.message v') :
    k = k' ∧ (k = .invalidValue → v = v') := by
  cases k with
  | invalidPosition n =>
    cases k' with
    | invalidPosition m =>
      simp only [ErrCode.message, List.append_cancel_right_eq, List.append_cancel_left_eq] at h
      exact ⟨by rw [decimal_inj h], nofun⟩
    | _ => simp [ErrCode.message, asciiText] at h
  | invalidValue =>
    cases k' with
    | invalidValue =>
      simp only [ErrCode.message, List.append_cancel_right_eq, List.append_cancel_left_eq] at h
      exact ⟨rfl, fun _ => h⟩
    | _ => simp [ErrCode.message, asciiText] at h
  | _ => cases k' <;> first | exact ⟨rfl, nofun⟩ | (simp [ErrCode.message, asciiText] at h)

/-- C82: two errors with the same text have the same position, the same kind and, for a value that was not the expected
one, the same text of the value – whatever this text is. -/
theorem C82_faithful (e e' : JErr) (v v' : List Byte) (h : e.text v = e'.text v') :
    e = e' ∧ (e.code = .invalidValue → v = v') := by
  have hs : asciiText ", position: " = asciiText ", position:" ++ [0x20] := by decide
  unfold JErr.text at h
  simp only [hs, ← List.append_assoc] at h
  obtain ⟨h1, h2⟩ := digits_split (decimal_text _).digits.2 (decimal_text _).digits.2 (by decide) (by decide) h
  simp only [List.append_cancel_right_eq, List.append_assoc, List.append_cancel_left_eq] at h1
  obtain ⟨h3, h4⟩ := message_inj h1
  refine ⟨?_, h4⟩
  cases e
  cases e'
  simp only at h3 h2
  rw [h3, decimal_inj h2]

/-- C82 (position): the text ends in the decimal digits of the position, after a space. -/
theorem C82_position (e : JErr) (v : List Byte) :
    ∃ front digits, e.text v = front ++ [0x20] ++ digits ∧ DecimalText digits e.position := by
  refine ⟨asciiText "[ERROR]: " ++ e.code.message v ++ asciiText ", position:", _, ?_, decimal_text _⟩
  have hs : asciiText ", position: " = asciiText ", position:" ++ [0x20] := by decide
  unfold JErr.text
  simp only [hs, ← List.append_assoc]

/-- A value whose text looks like the end of a message does not lead astray. -/
example : (⟨12, .invalidValue⟩ : JErr).text (asciiText "7), position: 3") =
    asciiText "[ERROR]: invalid value (7), position: 3), position: 12" := by
  unfold JErr.text ErrCode.message
  rw [decimal.eq_def, decimal.eq_def]
  decide

example : (⟨1, .invalidPosition 10⟩ : JErr).text [] ≠ (⟨0, .invalidPosition 11⟩ : JErr).text [] := fun h =>
  absurd (C82_faithful _ _ _ _ h).1 (by decide)

end JBytes
