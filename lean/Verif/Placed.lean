import Verif.EncLogic
/-!
# Helper lemmas: what an encoder writes does not depend on the buffer
-/

namespace JBytes
open M

variable {α β V : Type}

/-- The buffer after writing `w` at its position. -/
def window (b : Buf) (w : List Byte) : Buf :=
  ⟨b.data.take b.pos ++ w ++ b.data.drop (b.pos + w.length), b.pos + w.length⟩

theorem window_ok {b : Buf} (hb : b.Ok) (w : List Byte) (hw : b.pos + w.length ≤ isizeMax) : (window b w).Ok := by
  obtain ⟨h1, h2⟩ := hb
  constructor
  · simp only [window, List.length_append, List.length_take, List.length_drop]; omega
  · simp only [window, List.length_append, List.length_take, List.length_drop]; omega

theorem window_nil {b : Buf} (_hb : b.Ok) : window b [] = b := by
  simp [window]

theorem window_window {b : Buf} (hb : b.Ok) (w w' : List Byte) : window (window b w) w' = window b (w ++ w') := by
  obtain ⟨h1, _⟩ := hb
  have hl : (b.data.take b.pos ++ w).length = b.pos + w.length := by
    rw [List.length_append, List.length_take]; omega
  have e : ∀ l : List Byte, List.drop (b.pos + w.length + w'.length) (b.data.take b.pos ++ w ++ l)
      = List.drop w'.length l := by
    intro l
    rw [← hl, List.drop_append, List.drop_eq_nil_of_le (by omega)]
    simp
  simp only [window]
  congr 1
  · rw [List.take_left' hl, e]
    simp only [List.append_assoc, List.drop_drop, List.length_append, Nat.add_assoc]
  · rw [List.length_append]; omega

/-- Either `m` never succeeds, or there are a result `a` (with `P a`) and bytes `w` such that in every buffer with
room for `w` it succeeds with `a` and writes `w` at the position. -/
def Placed (P : α → Prop) (m : M α) : Prop :=
  (∃ a w, P a ∧ ∀ b : Buf, b.Ok → (b.pos + w.length ≤ isizeMax → m b = (.ok a, window b w)) ∧
    (isizeMax < b.pos + w.length → ∀ x b', m b ≠ (.ok x, b'))) ∨
  (∀ b : Buf, b.Ok → ∀ x b', m b ≠ (.ok x, b'))

theorem bind_ok {m : M α} {f : α → M β} {b b' : Buf} {y : β} (h : (m >>= f) b = (.ok y, b')) :
    ∃ a b1, m b = (.ok a, b1) ∧ f a b1 = (.ok y, b') := by
  rw [bind_apply] at h
  rcases hm : m b with ⟨o, b1⟩
  rw [hm] at h
  cases o with
  | ok a => exact ⟨a, b1, rfl, h⟩
  | _ => cases h

theorem Placed.bind {P : α → Prop} {Q : β → Prop} {m : M α} {f : α → M β} (hm : Placed P m)
    (hf : ∀ a, P a → Placed Q (f a)) : Placed Q (m >>= f) := by
  rcases hm with ⟨a, w, hp, hw⟩ | hn
  · rcases hf a hp with ⟨c, w', hq, hw'⟩ | hn'
    · refine .inl ⟨c, w ++ w', hq, fun b hb => ⟨fun hr => ?_, fun hr x b' he => ?_⟩⟩
      · rw [List.length_append] at hr
        have h1 := (hw b hb).1 (by omega)
        rw [bind_apply, h1]
        simp only
        rw [(hw' _ (window_ok hb w (by omega))).1 (by simp only [window]; omega), window_window hb]
      · obtain ⟨a', b1, h1, h2⟩ := bind_ok he
        rw [List.length_append] at hr
        by_cases hr1 : b.pos + w.length ≤ isizeMax
        · rw [(hw b hb).1 hr1] at h1
          cases h1
          exact (hw' _ (window_ok hb w hr1)).2 (by simp only [window]; omega) _ _ h2
        · exact (hw b hb).2 (by omega) _ _ h1
    · refine .inr fun b hb x b' he => ?_
      obtain ⟨a', b1, h1, h2⟩ := bind_ok he
      by_cases hr1 : b.pos + w.length ≤ isizeMax
      · rw [(hw b hb).1 hr1] at h1
        cases h1
        exact hn' _ (window_ok hb w hr1) _ _ h2
      · exact (hw b hb).2 (by omega) _ _ h1
  · refine .inr fun b hb x b' he => ?_
    obtain ⟨a', b1, h1, _⟩ := bind_ok he
    exact hn b hb _ _ h1

theorem Placed.pure {P : α → Prop} (a : α) (h : P a) : Placed P (Pure.pure a : M α) := by
  refine .inl ⟨a, [], h, fun b hb => ⟨fun _ => ?_, fun hr => ?_⟩⟩
  · rw [window_nil hb]; rfl
  · have := hb.1
    have := hb.2
    simp at hr
    omega

theorem Placed.fail (P : α → Prop) (c : ErrCode) : Placed P (M.fail c : M α) := .inr fun _ _ _ _ h => by cases h

theorem Placed.panic (P : α → Prop) : Placed P (M.panic : M α) := .inr fun _ _ _ _ h => by cases h

theorem push_no_room {d : List Byte} {b : Buf} (hb : b.Ok) (h : isizeMax < b.pos + d.length) (n : Nat) (b' : Buf) :
    push d b ≠ (.ok n, b') := by
  intro he
  have h3 := isizeMax_lt
  obtain ⟨h1, h2⟩ := hb
  unfold JBytes.push at he
  simp only [bind_apply, remainingLen_apply, ite_apply'] at he
  rw [if_pos (by omega)] at he
  unfold bufResize at he
  simp only [bind_apply, getPos_apply, pure_apply] at he
  by_cases hm : wadd b.pos d.length ≤ isizeMax
  · rw [vecResize_apply _ _ hm] at he
    simp only at he
    by_cases h0 : wadd b.pos d.length = 0
    · rw [if_pos h0] at he
      cases he
    · rw [if_neg h0] at he
      have hbig : isizeMax < d.length := by
        by_cases hlt : b.pos + d.length < usizeMod
        · rw [wadd_eq hlt] at hm; omega
        · have := isizeMax_def
          have := usizeMod_def
          omega
      rw [overwrite_panic _ _ (by
        simp only [List.length_append, List.length_take, List.length_replicate]
        omega)] at he
      cases he
  · rw [vecResize_panic _ _ hm] at he
    cases he

theorem Placed.push (d : List Byte) : Placed Any (push d) := by
  refine .inl ⟨d.length, d, trivial, fun b hb => ⟨fun hr => ?_, fun hr x b' => push_no_room hb hr x b'⟩⟩
  rw [push_apply d b hr (.inr hb.1), writeAt_inside _ _ _ hb.1]
  rfl

theorem Placed.logic : EncLogic (fun _ P m => Placed P m) :=
  ⟨Placed.bind, Placed.pure, Placed.fail, Placed.panic, fun _ => .inr fun _ _ _ _ h => (by cases h), Placed.push⟩

/-- What an encodable type writes does not depend on the buffer. -/
theorem Encodable.placed {c : Bool} {e : Enc α} (h : Encodable c α e) (v : α) (ca : Option CAttr)
    (fa : Option FAttr) (hf : StartsWord fa) : Placed Any (e v ca fa) := Placed.logic.encodable h v ca fa hf

end JBytes
