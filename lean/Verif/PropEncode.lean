import Verif.Storable
import Verif.PropDerive
/-!
# Properties C61, C62 (and C48 on failures): encoding into any buffer
-/

namespace JBytes
open M

variable {α β V : Type}

/-! ## C61 -/

/-- C61, partial: encoding a value whose byte strings have at most `M` bytes, at any position inside any buffer, comes
to an end, and panics only when fewer than `M` bytes of address space are left at the position it has reached.
Missing: user-written encoders, byte order expressions that give something else than 0 or 1, and 128-bit members of a
bit-field word after the first (`C61_violated`). -/
theorem C61_no_panic_partial (M : Nat) (hM : 16 ≤ M ∧ M ≤ isizeMax) (starts : Bool) (P : α → Prop) (e : Enc α)
    (h : Storable M starts α P e) (v : α) (hv : P v) (ca : Option CAttr) (fa : Option FAttr)
    (hf : FaFits? M starts fa) (b : Buf) (hb : b.Ok) :
    (e v ca fa b).1 ≠ .timeout ∧ ((e v ca fa b).1 = .panic → isizeMax < (e v ca fa b).2.pos + M) := by
  obtain ⟨_, h2, h3, _⟩ := h.sound hM v ca fa hf hv b hb
  constructor
  · intro he
    exact h3 (e v ca fa b).2 (by rw [← he])
  · intro he
    exact h2 (e v ca fa b).2 (by rw [← he])

/-- C61 fails outside these limits: a byte order that is neither 0 nor 1, and a little-endian `u128` that shares its
word with a member before it. -/
theorem C61_violated :
    (encStruct { fields := [u8Field {}, u16Field { isUse := true, byteorder := some (.expr fun env => env.num 0) }] }
      [.num 2, .num 5] none none ⟨[], 0⟩).1 = .panic ∧
    (encStruct { fields := [
        u128Field { isUse := true, byteorder := some (.lit .le), bits := some fun _ => 0xF0, bitsStart := true },
        u128Field { isUse := true, byteorder := some (.lit .le), bits := some fun _ => 0x0F }] }
      [.num 1, .num 2] none none ⟨[], 0⟩).1 = .panic := by
  refine ⟨?_, ?_⟩ <;> decide +kernel

/-! ## C48 on failures -/

/-- C48, whatever the outcome: also when the encoder fails half way, the bytes before the position it started from are
the ones that were there (`bits` only on the first member of a word). -/
theorem C48_kept_on_failure (M : Nat) (hM : 16 ≤ M ∧ M ≤ isizeMax) (P : α → Prop) (e : Enc α)
    (h : Storable M true α P e) (v : α) (hv : P v) (ca : Option CAttr) (fa : Option FAttr)
    (hf : FaFits? M true fa) (b : Buf) (hb : b.Ok) :
    (e v ca fa b).2.data.take b.pos = b.data.take b.pos :=
  (h.sound hM v ca fa hf hv b hb).2.2.2 rfl _ _ rfl

/-! ## C62 -/

/-- C62: if encoding a value succeeds at some position of some buffer, then it writes bytes `w` there that depend on
the value and its modifiers only: in every other buffer with room for them it succeeds with the same count, writes the
same bytes at the position, and changes nothing before or after them. -/
theorem C62_position_independent (c : Bool) (e : Enc α) (h : Encodable c α e) (v : α) (ca : Option CAttr)
    (fa : Option FAttr) (hf : StartsWord fa) (b : Buf) (hb : b.Ok) (n : Nat) (b' : Buf)
    (he : e v ca fa b = (.ok n, b')) :
    ∃ w : List Byte, b' = ⟨b.data.take b.pos ++ w ++ b.data.drop (b.pos + w.length), b.pos + w.length⟩ ∧
      ∀ b2 : Buf, b2.Ok → b2.pos + w.length ≤ isizeMax →
        e v ca fa b2 = (.ok n, ⟨b2.data.take b2.pos ++ w ++ b2.data.drop (b2.pos + w.length), b2.pos + w.length⟩) := by
  rcases h.placed v ca fa hf with ⟨a, w, _, hw⟩ | hn
  · have hr : b.pos + w.length ≤ isizeMax := Nat.le_of_not_lt fun hr => (hw b hb).2 hr n b' he
    have h1 := (hw b hb).1 hr
    rw [he] at h1
    cases h1
    exact ⟨w, rfl, fun b2 hb2 hr2 => (hw b2 hb2).1 hr2⟩
  · exact absurd he (hn b hb n b')

/-- C62, failures: an encoder that fails on an empty buffer fails in every buffer. -/
theorem C62_failure_everywhere (c : Bool) (e : Enc α) (h : Encodable c α e) (v : α) (ca : Option CAttr)
    (fa : Option FAttr) (hf : StartsWord fa) (b : Buf) (hb : b.Ok) (n : Nat) (b' : Buf)
    (he : e v ca fa b = (.ok n, b')) : ∃ w, e v ca fa ⟨[], 0⟩ = (.ok n, ⟨w, w.length⟩) := by
  rcases h.placed v ca fa hf with ⟨a, w, _, hw⟩ | hn
  · have hr : b.pos + w.length ≤ isizeMax := Nat.le_of_not_lt fun hr => (hw b hb).2 hr n b' he
    have h1 := (hw b hb).1 hr
    rw [he] at h1
    cases h1
    refine ⟨w, ?_⟩
    have := (hw ⟨[], 0⟩ ⟨Nat.le_refl _, Nat.zero_le _⟩).1 (by simp only; omega)
    simpa [window] using this
  · exact absurd he (hn b hb n b')

/-! ## Instances -/

theorem attrsFit_plain (M : Nat) (s : Bool) : AttrsFit M s ({} : FieldAttrs V) := by
  refine ⟨rfl, fun e env h => (by cases h), fun o env => ?_⟩
  constructor <;> simp [FieldAttrs.modifiers]

/-- The number in a value. -/
def numOf : Val → Option Nat
  | .num n => some n
  | _ => none

theorem numEnc_storable (M : Nat) (s : Bool) (k : IntKind) (hk : s = true ∨ k.size ≤ 8) :
    Storable M s Val (fun v => ∀ a, numOf v = some a → True) (numEnc k) := by
  have e : numEnc k = fun v ca fa => encOption (encInt k) (numOf v) ca fa := by
    funext v ca fa
    cases v <;> rfl
  rw [e]
  exact .project _ (.int k hk)

/-- Two bit-field members sharing a byte, then a number: any values, any buffer. -/
def flags : StructDef Val := { fields := [
  u8Field { isUse := true, bits := some fun _ => 0xF0, bitsStart := true },
  u8Field { isUse := true, bits := some fun _ => 0x0F }, u16Field {}] }

theorem flags_storable : Storable 16 false (List Val)
    (fun vs => ∀ x ∈ flags.fields.zip vs, FieldFits 16
      (fun v => ∀ a, numOf v = some a → True) x.1.attrs x.2) (encStruct flags) := by
  refine Storable.struct flags (fun _ => _) rfl ?_ ?_
  · intro f hf
    simp only [flags, u8Field, u16Field, List.mem_cons, List.not_mem_nil, or_false] at hf
    rcases hf with rfl | rfl | rfl
    · refine ⟨rfl, fun e env h => (by cases h), fun o env => ?_⟩
      constructor <;> simp [FieldAttrs.modifiers]
    · refine ⟨rfl, fun e env h => (by cases h), fun o env => ?_⟩
      constructor <;> simp [FieldAttrs.modifiers]
    · exact attrsFit_plain _ _
  · intro f hf
    simp only [flags, u8Field, u16Field, List.mem_cons, List.not_mem_nil, or_false] at hf
    rcases hf with rfl | rfl | rfl <;> exact numEnc_storable _ _ _ (.inr (by decide))

/-- C61 on `flags`: with 16 bytes of address space left after the buffer's position (it writes 3) nothing panics. -/
example (x y z : Nat) (b : Buf) (hb : b.Ok) :
    (encStruct flags [.num x, .num y, .num z] none none b).1 = .panic →
      isizeMax < (encStruct flags [.num x, .num y, .num z] none none b).2.pos + 16 := by
  refine (C61_no_panic_partial 16 ⟨Nat.le_refl _, by rw [isizeMax_def]; decide⟩ false _ _ flags_storable _ ?_ none none
    (fun _ h => by cases h) b hb).2
  intro p hp
  simp only [flags, List.zip_cons_cons, List.zip_nil_right, List.mem_cons, List.not_mem_nil, or_false] at hp
  rcases hp with rfl | rfl | rfl <;>
    exact ⟨fun _ _ => trivial, fun g env h => (by cases h), fun ps h => (by cases h)⟩

example : encStruct flags [.num 1, .num 2, .num 3] none none ⟨[9, 9, 9, 9, 9], 1⟩
    = (.ok 4, ⟨[9, 0x12, 0, 3, 9], 4⟩) := by decide +kernel

/-- C62 on `message`: what is appended to an empty buffer is what is written anywhere. -/
example : encStruct (message 0) [.num 2, .bytes [65, 66], .choices [(1, [.num 1])]] none none ⟨[], 0⟩
      = (.ok 7, ⟨[2, 65, 66, 1, 0, 7, 1], 7⟩) ∧
    encStruct (message 0) [.num 2, .bytes [65, 66], .choices [(1, [.num 1])]] none none ⟨[9, 9, 9, 9, 9, 9, 9, 9, 9, 8], 2⟩
      = (.ok 7, ⟨[9, 9, 2, 65, 66, 1, 0, 7, 1, 8], 9⟩) := by
  refine ⟨?_, ?_⟩ <;> decide +kernel

example (b2 : Buf) (hb : b2.Ok) (hr : b2.pos + 7 ≤ isizeMax) :
    encStruct (message 0) [.num 2, .bytes [65, 66], .choices [(1, [.num 1])]] none none b2
      = (.ok 7, ⟨b2.data.take b2.pos ++ [2, 65, 66, 1, 0, 7, 1] ++ b2.data.drop (b2.pos + 7), b2.pos + 7⟩) := by
  obtain ⟨w, hw, h⟩ := C62_position_independent true _ message_encodable
    [.num 2, .bytes [65, 66], .choices [(1, [.num 1])]] none none StartsWord.none ⟨[], 0⟩
    ⟨Nat.le_refl _, Nat.zero_le _⟩ 7 ⟨[2, 65, 66, 1, 0, 7, 1], 7⟩ (by decide +kernel)
  have e : w = [2, 65, 66, 1, 0, 7, 1] := by
    have := congrArg Buf.data hw
    simpa using this.symm
  subst e
  exact h b2 hb hr

/-- Why the first member of a word is asked for: a further member is merged into the byte before it. -/
example : numEnc ⟨1, false⟩ (.num 2) none (some { bits := some 0x0F }) ⟨[0x10], 1⟩ = (.ok 1, ⟨[0x12], 1⟩) ∧
    numEnc ⟨1, false⟩ (.num 2) none (some { bits := some 0x0F }) ⟨[0x50], 1⟩ = (.ok 1, ⟨[0x52], 1⟩) := by
  refine ⟨?_, ?_⟩ <;> decide +kernel

/-- C48 on a failure: the second field is refused after the first was written. -/
def refused : StructDef Val := { fields := [u8Field {}, u16Field { isUse := true, length := some fun _ => 3 }] }

example : encStruct refused [.num 7, .num 1] none none ⟨[1, 2], 2⟩ = (.err ⟨3, .invalidByteLength⟩, ⟨[1, 2, 7], 3⟩) := by
  decide +kernel

theorem refused_storable : Storable 16 true (List Val)
    (fun vs => ∀ x ∈ refused.fields.zip vs, FieldFits 16
      (fun v => ∀ a, numOf v = some a → True) x.1.attrs x.2)
    (encStruct refused) := by
  refine Storable.struct refused (fun _ => _) rfl ?_ ?_
  · intro f hf
    simp only [refused, u8Field, u16Field, List.mem_cons, List.not_mem_nil, or_false] at hf
    rcases hf with rfl | rfl
    · exact attrsFit_plain _ _
    · refine ⟨rfl, fun e env h => (by cases h), fun o env => ?_⟩
      constructor <;> simp [FieldAttrs.modifiers]
  · intro f hf
    simp only [refused, u8Field, u16Field, List.mem_cons, List.not_mem_nil, or_false] at hf
    rcases hf with rfl | rfl <;> exact numEnc_storable _ _ _ (.inl rfl)

example (x y : Nat) (b : Buf) (hb : b.Ok) :
    (encStruct refused [.num x, .num y] none none b).2.data.take b.pos = b.data.take b.pos := by
  refine C48_kept_on_failure 16 ⟨Nat.le_refl _, by rw [isizeMax_def]; decide⟩ _ _ refused_storable _ ?_ none none
    (fun _ h => by cases h) b hb
  intro p hp
  simp only [refused, List.zip_cons_cons, List.zip_nil_right, List.mem_cons, List.not_mem_nil, or_false] at hp
  rcases hp with rfl | rfl <;>
    exact ⟨fun _ _ => trivial, fun g env h => (by cases h), fun ps h => (by cases h)⟩

end JBytes
