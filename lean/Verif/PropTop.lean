import Verif.Top
import Verif.PropDerive
/-!
# The functions of src/lib.rs: C53, C54
-/

namespace JBytes
open M

variable {α V : Type}

/-- C53: for a codec that round trips, `encode` returns a buffer holding the wire image and nothing else, and
`decode` of these bytes, with any bytes `suf` the codec tolerates after them, is the value.  The buffer may also be
passed on through `to_bytes`. -/
theorem C53_top_roundtrip (e : Enc α) (d : Dec α) (v : α) (w suf : List Byte) (hw : Writes (e v none none) w)
    (hr : Reads (d none none) v w suf) (hs : w.length + suf.length ≤ isizeMax) :
    ∃ b, encodeTop e v = .ok b ∧ b.data = w ∧ decodeTop d (b.data ++ suf) = .ok v ∧
      (suf = [] → (decodeAt d b.toBytes).1 = .ok v) := by
  obtain ⟨n, h⟩ := hw [] (by simp; omega)
  have r := hr [] (by simpa using hs)
  simp only [List.length_nil, List.nil_append, Nat.zero_add] at h r
  refine ⟨⟨w, w.length⟩, ?_, rfl, ?_, ?_⟩
  · simp only [encodeTop, Buf.new, h]
  · simp only [decodeTop, Buf.ofBytes, r]
  · rintro rfl
    rw [List.append_nil] at r
    simp only [decodeAt, Buf.toBytes, Buf.ofBytes, r]

/-- C53 for derived structs: every field, or bit-field group, round trips in its place (see C43). -/
theorem C53_struct (S : StructDef V) (hwd : S.withDecode = none) (hwe : S.withEncode = none)
    (ht : S.tuple = true → ∀ f ∈ S.fields, f.attrs.isUse = true) (vs : List V) (w suf : List Byte)
    (h : Segments S.container S.fields S.container { vars := localVars S.getVars none }
      { vars := localVars S.getVars none } vs w suf)
    (hs : w.length + suf.length ≤ isizeMax) :
    ∃ b, encodeTop (encStruct S) vs = .ok b ∧ b.data = w ∧ decodeTop (decStruct S) (b.data ++ suf) = .ok vs := by
  obtain ⟨h1, h2⟩ := C43_struct_roundtrip S hwd hwe ht none none none none vs w suf h
  obtain ⟨b, x1, x2, x3, _⟩ := C53_top_roundtrip _ _ vs w suf h1 h2 hs
  exact ⟨b, x1, x2, x3⟩

/-- Every value of `packet` (see C43) within its ranges survives `encode` and `decode`. -/
example (s : List Byte) (hi lo x : Nat) (hs : s.length < 256) (hhi : hi < 16) (hlo : lo < 16) (hx : x + 1 < 65536) :
    ∃ w, w.length ≤ isizeMax → ∃ b, encodeTop (encStruct packet) [.num s.length, .bytes s, .num hi, .num lo, .num 0, .num x]
      = .ok b ∧ b.data = w ∧ decodeTop (decStruct packet) w = .ok [.num s.length, .bytes s, .num hi, .num lo, .num 0, .num x] := by
  obtain ⟨w, h⟩ := packet_segments s hi lo x hs hhi hlo hx []
  refine ⟨w, fun hl => ?_⟩
  obtain ⟨b, h1, h2, h3⟩ := C53_struct packet rfl rfl (by intro h; cases h) _ w [] h (by simpa using hl)
  rw [h2, List.append_nil] at h3
  exact ⟨b, h1, h2, h3⟩

/-- C53: whatever the input, `decode` of a type within the limits of C49 returns a value or an error; a value only
depends on the bytes, not on earlier calls. -/
theorem C53_decode_total (L : Limits) (h1 : L.noOffset = true) (h2 : L.narrow = true) (h3 : L.prefixes = true)
    (d : Nat → Dec α) (h : Derivable L α d) (input : List Byte) (hs : input.length ≤ isizeMax) (fuel : Nat)
    (hf : input.length < fuel) :
    (∃ v, decodeTop (d fuel) input = .ok v) ∨ ∃ e, decodeTop (d fuel) input = .err e :=
  C49_total_partial L h1 h2 h3 d h none none (FaOk?.none _) ⟨input, 0⟩ ⟨Nat.zero_le _, hs⟩ fuel hf

/-- C53: `encode` fails exactly when the encoder does, with its error. -/
theorem C53_encode_error (e : Enc α) (v : α) (x : JErr) :
    encodeTop e v = .err x ↔ (e v none none ⟨[], 0⟩).1 = .err x := by
  unfold encodeTop Buf.new
  rcases e v none none ⟨[], 0⟩ with ⟨o, b⟩
  cases o <;> simp

/-! ## C54: several values in one buffer -/

/-- Values of any codecs, each with its image, standing one after the other before `suf`. -/
inductive Stream : List (M Nat) → List (M α) → List α → List Byte → List Byte → Prop
  | nil (suf : List Byte) : Stream [] [] [] [] suf
  | cons {e : M Nat} {d : M α} {v : α} {es : List (M Nat)} {ds : List (M α)} {vs : List α} {w ws suf : List Byte} :
      Writes e w → Reads d v w (ws ++ suf) → Stream es ds vs ws suf → Stream (e :: es) (d :: ds) (v :: vs) (w ++ ws) suf

theorem Stream.writes {es : List (M Nat)} {ds : List (M α)} {vs : List α} {w suf : List Byte}
    (h : Stream es ds vs w suf) : ∀ pre : List Byte, pre.length + w.length ≤ isizeMax →
      encodeEach es ⟨pre, pre.length⟩ = (.ok (), ⟨pre ++ w, pre.length + w.length⟩) := by
  induction h with
  | nil suf => intro pre _; simp [encodeEach, pure_apply]
  | cons hw _ _ ih =>
    rename_i w ws suf _ _
    intro pre hp
    rw [List.length_append] at hp
    obtain ⟨n, e⟩ := hw pre (by omega)
    have e2 := ih (pre ++ w) (by rw [List.length_append]; omega)
    rw [List.length_append] at e2
    simp only [encodeEach, bind_apply, e, e2, List.append_assoc, List.length_append, Nat.add_assoc]

theorem Stream.reads {es : List (M Nat)} {ds : List (M α)} {vs : List α} {w suf : List Byte}
    (h : Stream es ds vs w suf) : Reads (decodeEach ds) vs w suf := by
  induction h with
  | nil suf => exact Reads.pure _ _
  | cons _ hr _ ih => exact Reads.bind hr (ih.map _)

/-- C54: values of any types written one after the other into a buffer (with anything in it) are read back one after
the other from where the first was written; the position ends where the last one ends. -/
theorem C54_stream (es : List (M Nat)) (ds : List (M α)) (vs : List α) (pre w suf : List Byte)
    (h : Stream es ds vs w suf) (hs : pre.length + w.length + suf.length ≤ isizeMax) :
    encodeEach es ⟨pre, pre.length⟩ = (.ok (), ⟨pre ++ w, pre.length + w.length⟩) ∧
    decodeEach ds ⟨pre ++ (w ++ suf), pre.length⟩ = (.ok vs, ⟨pre ++ (w ++ suf), pre.length + w.length⟩) :=
  ⟨h.writes pre (by omega), h.reads pre hs⟩

/-- A `u16` followed by a `u32`, for all values, after anything and before anything. -/
example (x y : Nat) (hx : x < 65536) (hy : y < 4294967296) (pre suf : List Byte)
    (hs : pre.length + 6 + suf.length ≤ isizeMax) :
    decodeEach [decInt ⟨2, false⟩ none none, decInt ⟨4, false⟩ none none]
      ⟨pre ++ ((toBytes .be 2 x ++ (toBytes .be 4 y ++ [])) ++ suf), pre.length⟩
      = (.ok [x, y], ⟨pre ++ ((toBytes .be 2 x ++ (toBytes .be 4 y ++ [])) ++ suf), pre.length + 6⟩) := by
  have h : Stream [encInt ⟨2, false⟩ x none none, encInt ⟨4, false⟩ y none none]
      [decInt ⟨2, false⟩ none none, decInt ⟨4, false⟩ none none] [x, y]
      (toBytes .be 2 x ++ (toBytes .be 4 y ++ [])) suf :=
    .cons (int_writes ⟨2, false⟩ (.mk _ _ (by decide)) x none none rfl rfl)
      (int_reads ⟨2, false⟩ (.mk _ _ (by decide)) x none none _ rfl rfl hx)
      (.cons (int_writes ⟨4, false⟩ (.mk _ _ (by decide)) y none none rfl rfl)
        (int_reads ⟨4, false⟩ (.mk _ _ (by decide)) y none none _ rfl rfl hy) (.nil _))
  have hl : (toBytes .be 2 x ++ (toBytes .be 4 y ++ [])).length = 6 := by simp [toBytes_length]
  have r := (C54_stream _ _ _ pre _ suf h (by rw [hl]; exact hs)).2
  rw [hl] at r
  exact r

/-- C54: the buffer returned by `encode` stands at its end: decoding it as it is starts after the last byte, so a
decoder that needs a byte fails; after `reset_position` it reads the value. -/
theorem C54_written_buffer (e : Enc α) (d : Dec α) (v : α) (w : List Byte) (hw : Writes (e v none none) w)
    (hr : Reads (d none none) v w []) (hs : w.length ≤ isizeMax) :
    ∃ b, encodeTop e v = .ok b ∧ b.pos = b.data.length ∧ (decodeAt d b.reset).1 = .ok v ∧
      ∀ k : IntKind, k.Valid → (decodeAt (decInt k) b).1 = .err ⟨b.data.length, .invalidByteLength⟩ := by
  obtain ⟨n, h⟩ := hw [] (by simpa using hs)
  have r := hr [] (by simpa using hs)
  simp only [List.length_nil, List.nil_append, Nat.zero_add, List.append_nil] at h r
  refine ⟨⟨w, w.length⟩, ?_, rfl, ?_, ?_⟩
  · simp only [encodeTop, Buf.new, h]
  · simp only [decodeAt, Buf.reset, r]
  · intro k hk
    have hb : (⟨w, w.length⟩ : Buf).Ok := ⟨Nat.le_refl _, hs⟩
    have hp : 0 < k.scalar.size := by cases k.scalar <;> decide
    have ht : takeScalar k.scalar (getByteorder none none) ⟨w, w.length⟩ =
        (.err ⟨w.length, .invalidByteLength⟩, ⟨w, w.length⟩) := by
      rw [takeScalar_eq_fixed _ _ _ hb]
      unfold takeFixed
      rw [bind_apply, takeBytes_apply _ _ hb, if_pos (by simpa using hp)]
    have hd : decWord k (getByteorder none none) none ⟨w, w.length⟩ =
        (.err ⟨w.length, .invalidByteLength⟩, ⟨w, w.length⟩) := ht
    simp only [decodeAt, decInt, Option.bind_none, bind_apply, hd]

example : encodeTop (encInt ⟨2, false⟩) 258 = .ok ⟨[1, 2], 2⟩ ∧ decodeTop (decInt ⟨2, false⟩) [1, 2, 77] = .ok 258 ∧
    decodeAt (decInt ⟨2, false⟩) ⟨[1, 2], 2⟩ = (.err ⟨2, .invalidByteLength⟩, ⟨[1, 2], 2⟩) := by decide +kernel

end JBytes
