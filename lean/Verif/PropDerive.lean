import Verif.Local
import Verif.Extend
import Verif.Emits
import Verif.PropEnum
/-!
# All derivable types: C34, C47 - C52

The types are those of `Derivable`/`Encodable` (Universe.lean).
-/

namespace JBytes
open M

variable {α β V : Type}

/-! ## Decoding: C50, C49, C34 -/

/-- C50: decoding a type without `offset`, whatever the other modifiers, the input and the outcome, leaves the data
as it is and the position between where it was and the end of the data. -/
theorem C50_stays_inside (d : Nat → Dec α) (h : Derivable { noOffset := true } α d) (fuel : Nat) (ca : Option CAttr)
    (fa : Option FAttr) (b : Buf) (hb : b.Ok) :
    (d fuel ca fa b).2.data = b.data ∧ b.pos ≤ (d fuel ca fa b).2.pos ∧ (d fuel ca fa b).2.pos ≤ b.data.length := by
  refine (Derivable.good (N := 0) (t := false) rfl h fuel (fun h => nomatch h) ca fa ?_).1 b hb
  intro fr _
  constructor <;> (intro h; cases h)

/-- C49, partial: without `offset`, with widths of at most 8 bytes (and no `length` over 8 on 128-bit integers) and
byte order expressions that give 0 or 1, no input makes the decoder panic.  Missing: the definitions outside these
limits, some of which do panic (`C49_violated`). -/
theorem C49_no_panic_partial (L : Limits) (h1 : L.noOffset = true) (h2 : L.narrow = true) (d : Nat → Dec α)
    (h : Derivable L α d) (fuel : Nat) (ca : Option CAttr) (fa : Option FAttr)
    (hfa : FaOk? L fa) (b : Buf) (hb : b.Ok) : (d fuel ca fa b).1 ≠ .panic :=
  (Derivable.good (N := 0) (t := false) h1 h fuel (fun h => nomatch h) ca fa hfa).2.1 h2 b hb

/-- C34, partial: without `offset` and with non-empty `loop_skip_starts` decoding terminates on every input: no
loop runs more often than there are bytes left.  Missing: the other definitions, some of which loop for ever
(`C34_violated`, `C34_offset_violated`). -/
theorem C34_terminates_partial (L : Limits) (h1 : L.noOffset = true) (h2 : L.prefixes = true) (d : Nat → Dec α)
    (h : Derivable L α d) (ca : Option CAttr) (fa : Option FAttr) (hfa : FaOk? L fa) (b : Buf) (hb : b.Ok)
    (fuel : Nat) (hf : b.data.length - b.pos < fuel) : (d fuel ca fa b).1 ≠ .timeout :=
  (Derivable.good (N := b.data.length - b.pos) (t := true) h1 h fuel (fun _ => ⟨h2, hf⟩) ca fa hfa).2.2 rfl b hb (Nat.le_refl _)

/-- Together: within the limits decoding returns a value or an error, for every input. -/
theorem C49_total_partial (L : Limits) (h1 : L.noOffset = true) (h2 : L.narrow = true) (h3 : L.prefixes = true)
    (d : Nat → Dec α) (h : Derivable L α d) (ca : Option CAttr) (fa : Option FAttr) (hfa : FaOk? L fa) (b : Buf)
    (hb : b.Ok) (fuel : Nat) (hf : b.data.length - b.pos < fuel) :
    (∃ v, (d fuel ca fa b).1 = .ok v) ∨ ∃ e, (d fuel ca fa b).1 = .err e := by
  have hp := C49_no_panic_partial L h1 h2 d h fuel ca fa hfa b hb
  have ht := C34_terminates_partial L h1 h3 d h ca fa hfa b hb fuel hf
  cases ho : (d fuel ca fa b).1 with
  | ok v => exact .inl ⟨v, rfl⟩
  | err e => exact .inr ⟨e, rfl⟩
  | panic => exact absurd ho hp
  | timeout => exact absurd ho ht

/-! ## C51, C52 -/

/-- C51, partial: when decoding a type that does not look for the end of the data (and has no `offset`) succeeds,
it gives the same value and position on any data that has the same bytes up to the final position.  Missing:
`offset` (a large one wraps around, so bytes after the final position may have been read, `C51_violated`; extending
the data is covered by `C51_extension`). -/
theorem C51_suffix_irrelevant_partial (L : Limits) (h1 : L.noOffset = true) (h2 : L.standalone = true)
    (d : Nat → Dec α) (h : Derivable L α d) (fuel : Nat) (ca : Option CAttr) (fa : Option FAttr) (hfa : FaOk? L fa)
    (pre w rest rest' : List Byte) (v : α) (hs : (pre ++ w ++ rest).length ≤ isizeMax)
    (hs' : (pre ++ w ++ rest').length ≤ isizeMax)
    (he : d fuel ca fa ⟨pre ++ w ++ rest, pre.length⟩ = (.ok v, ⟨pre ++ w ++ rest, (pre ++ w).length⟩)) :
    d fuel ca fa ⟨pre ++ w ++ rest', pre.length⟩ = (.ok v, ⟨pre ++ w ++ rest', (pre ++ w).length⟩) := by
  refine (Derivable.loc h1 h2 h fuel ca fa hfa).2 ⟨pre ++ w ++ rest, pre.length⟩ v _ ⟨by simp, hs⟩ he _ hs' ?_ ?_
  · simp
  · show (pre ++ w ++ rest').take (pre ++ w).length = (pre ++ w ++ rest).take (pre ++ w).length
    rw [List.take_left, List.take_left]

/-- C51, the consumed bytes are enough: the data may as well end at the final position. -/
theorem C51_consumed_suffices_partial (L : Limits) (h1 : L.noOffset = true) (h2 : L.standalone = true)
    (d : Nat → Dec α) (h : Derivable L α d) (fuel : Nat) (ca : Option CAttr) (fa : Option FAttr) (hfa : FaOk? L fa)
    (b b' : Buf) (v : α) (hb : b.Ok) (he : d fuel ca fa b = (.ok v, b')) :
    d fuel ca fa ⟨b.data.take b'.pos, b.pos⟩ = (.ok v, ⟨b.data.take b'.pos, b'.pos⟩) := by
  have hl := Derivable.loc h1 h2 h fuel ca fa hfa
  have hin := hl.1 b hb
  rw [he] at hin
  simp only at hin
  have := hb.2
  exact hl.2 b v b' hb he _ (by rw [List.length_take]; omega) (by rw [List.length_take]; omega)
    (by rw [List.take_take, Nat.min_self])

/-- C51, extending the data, also with `offset`: when decoding a type that does not look for the end of the data
succeeds, from whatever position, it gives the same value and position when more bytes follow. -/
theorem C51_extension (L : Limits) (h2 : L.standalone = true) (d : Nat → Dec α) (h : Derivable L α d) (fuel : Nat)
    (ca : Option CAttr) (fa : Option FAttr) (hfa : FaOk? L fa) (data suf : List Byte) (p q : Nat) (v : α)
    (hp : p < usizeMod) (hs : (data ++ suf).length ≤ isizeMax)
    (he : d fuel ca fa ⟨data, p⟩ = (.ok v, ⟨data, q⟩)) :
    d fuel ca fa ⟨data ++ suf, p⟩ = (.ok v, ⟨data ++ suf, q⟩) :=
  (Derivable.ext h2 h fuel ca fa hfa data p (by rw [List.length_append] at hs; omega) hp v _ he).2.2 suf hs

theorem Writes.unique {e : M Nat} {w w' : List Byte} (h : Writes e w) (h' : Writes e w') (hs : w.length ≤ isizeMax)
    (hs' : w'.length ≤ isizeMax) : w = w' := by
  obtain ⟨n, h⟩ := h [] (by simpa using hs)
  obtain ⟨n', h'⟩ := h' [] (by simpa using hs')
  rw [h] at h'
  simp only [Prod.mk.injEq, Buf.mk.injEq, List.nil_append] at h'
  exact h'.2.1

/-- C52: of two different values that round trip, the first whatever follows it, the encoding of the first is not a
prefix of the encoding of the second. -/
theorem C52_prefix_free (e : Enc α) (d : Dec α) (ca : Option CAttr) (fa : Option FAttr) (v v' : α)
    (h : ∀ suf, ∃ w, w.length ≤ isizeMax ∧ Writes (e v ca fa) w ∧ Reads (d ca fa) v w suf)
    (h' : ∃ w, w.length ≤ isizeMax ∧ Writes (e v' ca fa) w ∧ Reads (d ca fa) v' w []) (hne : v ≠ v') :
    ¬ (e v ca fa ⟨[], 0⟩).2.data <+: (e v' ca fa ⟨[], 0⟩).2.data := by
  obtain ⟨w', hs', hw', hr'⟩ := h'
  obtain ⟨w, hs, hw, _⟩ := h []
  obtain ⟨n, e1⟩ := hw [] (by simpa using hs)
  obtain ⟨n', e2⟩ := hw' [] (by simpa using hs')
  simp only [List.length_nil, List.nil_append] at e1 e2
  rw [e1, e2]
  rintro ⟨r, rfl⟩
  obtain ⟨u, hu, hwu, hru⟩ := h r
  obtain rfl := hwu.unique hw hu hs
  simp only at hs'
  have h1 := hru [] (by simpa using hs')
  have h2 := hr' [] (by simpa using hs')
  simp only [List.nil_append, List.append_nil] at h1 h2
  rw [h1] at h2
  simp only [Prod.mk.injEq, Out.ok.injEq] at h2
  exact hne h2.1

/-- C52 for every type that does not look for the end of the data: the inputs that are consumed to the end are
unambiguous, so it is enough that the two encodings are read back on their own. -/
theorem C52_derivable (L : Limits) (h1 : L.noOffset = true) (h2 : L.standalone = true) (e : Enc α) (d : Nat → Dec α)
    (h : Derivable L α d) (fuel : Nat) (ca : Option CAttr) (fa : Option FAttr) (hfa : FaOk? L fa) (v v' : α)
    (w w' : List Byte) (n n' : Nat) (hw : e v ca fa ⟨[], 0⟩ = (.ok n, ⟨w, w.length⟩))
    (hw' : e v' ca fa ⟨[], 0⟩ = (.ok n', ⟨w', w'.length⟩))
    (hr : d fuel ca fa ⟨w, 0⟩ = (.ok v, ⟨w, w.length⟩)) (hr' : d fuel ca fa ⟨w', 0⟩ = (.ok v', ⟨w', w'.length⟩))
    (hs : w'.length ≤ isizeMax) (hne : v ≠ v') : ¬ (e v ca fa ⟨[], 0⟩).2.data <+: (e v' ca fa ⟨[], 0⟩).2.data := by
  rw [hw, hw']
  rintro ⟨r, rfl⟩
  simp only at hs
  have := C51_suffix_irrelevant_partial L h1 h2 d h fuel ca fa hfa [] w [] r v
    (by rw [List.length_append] at hs; simp; omega) (by simpa using hs) (by simpa using hr)
  simp only [List.nil_append, List.length_nil] at this
  rw [this] at hr'
  simp only [Prod.mk.injEq, Out.ok.injEq] at hr'
  exact hne hr'.1

/-! ## Encoding: C47, C48 -/

/-- C48: encoding a type without user-written codecs at the end of a buffer, when it succeeds, appends: everything
that was there stays and the position is the new end (`bits` only on the first member of a word). -/
theorem C48_only_appends (e : Enc α) (h : Encodable false α e) (v : α) (ca : Option CAttr) (fa : Option FAttr)
    (hb : StartsWord fa) (pre : List Byte) (hp : pre.length ≤ isizeMax) (n : Nat) (b' : Buf)
    (he : e v ca fa ⟨pre, pre.length⟩ = (.ok n, b')) :
    pre <+: b'.data ∧ b'.pos = b'.data.length := by
  obtain ⟨w, rfl, _, _⟩ := h.emits v ca fa hb pre n b' hp he
  exact ⟨⟨w, rfl⟩, rfl⟩

/-- C47, partial: without `offset` (and with `bits` only on the first member of a word) the reported count is the
number of bytes by which the buffer grew.  Missing: `offset` and further bit-field members, which are miscounted
(`C47_violated`). -/
theorem C47_count_partial (e : Enc α) (h : Encodable true α e) (v : α) (ca : Option CAttr) (fa : Option FAttr)
    (hb : StartsWord fa) (pre : List Byte) (hp : pre.length ≤ isizeMax) (n : Nat) (b' : Buf)
    (he : e v ca fa ⟨pre, pre.length⟩ = (.ok n, b')) : pre.length + n = b'.data.length := by
  obtain ⟨w, rfl, _, hn⟩ := h.emits v ca fa hb pre n b' hp he
  rw [hn rfl]
  simp

/-! ## Where the limits are needed -/

/-- C47 fails: the padding of `offset` is not counted (3 bytes are written, 1 is reported), and every member of a
bit-field word is counted as a word of its own (1 byte is written, 2 are reported). -/
theorem C47_violated :
    encStruct { fields := [u8Field { isUse := true, offset := some fun _ => 2 }] } [.num 5] none none ⟨[], 0⟩
      = (.ok 1, ⟨[0, 0, 5], 3⟩) ∧
    encStruct { fields := [
        u8Field { isUse := true, bits := some fun _ => 0xF0, bitsStart := true },
        u8Field { isUse := true, bits := some fun _ => 0x0F }] } [.num 1, .num 2] none none ⟨[], 0⟩
      = (.ok 2, ⟨[0x12], 1⟩) := by
  refine ⟨?_, ?_⟩ <;> decide +kernel

/-- A `u128` field. -/
def u128Field (a : FieldAttrs Val) : Field Val := ⟨a, numDec ⟨16, false⟩, numEnc ⟨16, false⟩, .num 0, .absent⟩

/-- C49 fails, on inputs of one byte: a little-endian length prefix of more than 8 bytes, a little-endian `u128`
of 9 to 16 bytes, a byte order that is neither 0 nor 1, and an empty byte string at an offset past the end. -/
theorem C49_violated :
    (decStruct { fields := [u8Field {},
        bytesField { isUse := true, byteorder := some (.lit .le), byteCount := some fun env => env.num 0 }] }
      none none ⟨[9], 0⟩).1 = .panic ∧
    (decStruct { fields := [u8Field {},
        u128Field { isUse := true, byteorder := some (.lit .le), length := some fun env => env.num 0 }] }
      none none ⟨[9], 0⟩).1 = .panic ∧
    (decStruct { fields := [u8Field {},
        u16Field { isUse := true, byteorder := some (.expr fun env => env.num 0) }] }
      none none ⟨[2], 0⟩).1 = .panic ∧
    (decStruct { fields := [u8Field {},
        bytesField { isUse := true, offset := some fun _ => 2, length := some fun env => env.num 0 }] }
      none none ⟨[0], 0⟩).1 = .panic := by
  refine ⟨?_, ?_, ?_, ?_⟩ <;> decide +kernel

/-- `struct Back { #[jbytes(offset = "usize::MAX")] mark: Mark }`: decoding it moves back one byte (the position
wraps around). -/
def backStep : StructDef Val :=
  { fields := [⟨{ isUse := true, offset := some fun _ => 18446744073709551615 }, fun _ _ => return .absent,
      fun _ _ _ => return 0, .absent, .absent⟩] }

/-- C34 fails also with a non-empty prefix: elements that move back make the loop read the same prefix for ever. -/
theorem C34_offset_violated : ∀ fuel,
    (decVec fuel (decStruct backStep) none (some { loopSkipStarts := some [1] }) ⟨[1], 0⟩).1 = .timeout := by
  have h1 : attempt (takeBytesStarts [1]) ⟨[1], 0⟩ = (.ok (some ()), ⟨[1], 1⟩) := by decide +kernel
  have h2 : decStruct backStep none (some { loopSkipStarts := some [1] }) ⟨[1], 1⟩ = (.ok [.absent], ⟨[1], 0⟩) := by
    decide +kernel
  have h : ∀ fuel, (whileStarts [1] (decStruct backStep none (some { loopSkipStarts := some [1] })) fuel ⟨[1], 0⟩).1
      = .timeout := by
    intro fuel
    induction fuel with
    | zero => rfl
    | succ n ih =>
      rw [whileStarts, bind_apply, h1]
      simp only [bind_apply, h2]
      rcases hw : whileStarts [1] (decStruct backStep none (some { loopSkipStarts := some [1] })) n ⟨[1], 0⟩ with ⟨o, b⟩
      rw [hw] at ih
      simp only at ih
      rw [ih]
  exact h

/-- `struct Peek { a: u8, #[jbytes(offset = "usize::MAX")] mark: Mark }`: the position ends where it began. -/
def peekStruct : StructDef Val := { fields := u8Field {} :: backStep.fields }

/-- C51 fails with an `offset` that wraps around: the byte after the final position changes the value. -/
theorem C51_violated :
    decStruct peekStruct none none ⟨[7, 1], 1⟩ = (.ok [.num 1, .absent], ⟨[7, 1], 1⟩) ∧
    decStruct peekStruct none none ⟨[7, 2], 1⟩ = (.ok [.num 2, .absent], ⟨[7, 2], 1⟩) ∧
    (decStruct peekStruct none none ⟨[7], 1⟩).1 = .err ⟨1, .invalidByteLength⟩ := by
  refine ⟨?_, ?_, ?_⟩ <;> decide +kernel

/-- Why C51 leaves out `Option`, `try_count`, `loop_skip_starts`, `remaining` and `untake`: what follows the final
position changes the result. -/
theorem C51_lookahead :
    (decOption (decInt ⟨1, false⟩) none none ⟨[], 0⟩ = (.ok none, ⟨[], 0⟩) ∧
      decOption (decInt ⟨1, false⟩) none none ⟨[5], 0⟩ = (.ok (some 5), ⟨[5], 1⟩)) ∧
    (decVec 9 (decInt ⟨1, false⟩) none (some { tryCount := some 2 }) ⟨[5], 0⟩ = (.ok [5], ⟨[5], 1⟩) ∧
      decVec 9 (decInt ⟨1, false⟩) none (some { tryCount := some 2 }) ⟨[5, 6], 0⟩ = (.ok [5, 6], ⟨[5, 6], 2⟩)) ∧
    (decVec 9 (decInt ⟨1, false⟩) none (some { loopSkipStarts := some [1] }) ⟨[1, 5], 0⟩ = (.ok [5], ⟨[1, 5], 2⟩) ∧
      decVec 9 (decInt ⟨1, false⟩) none (some { loopSkipStarts := some [1] }) ⟨[1, 5, 1, 6], 0⟩
        = (.ok [5, 6], ⟨[1, 5, 1, 6], 4⟩)) ∧
    (decBytes none (some { remaining := true }) ⟨[5], 0⟩ = (.ok [5], ⟨[5], 1⟩) ∧
      decBytes none (some { remaining := true }) ⟨[5, 6], 0⟩ = (.ok [5, 6], ⟨[5, 6], 2⟩)) ∧
    (decStruct { fields := [u8Field { isUse := true, untake := true }] } none none ⟨[5], 0⟩
        = (.ok [.num 5], ⟨[5], 0⟩) ∧
      decStruct { fields := [u8Field { isUse := true, untake := true }] } none none ⟨[6], 0⟩
        = (.ok [.num 6], ⟨[6], 0⟩)) := by
  refine ⟨⟨?_, ?_⟩, ⟨?_, ?_⟩, ⟨?_, ?_⟩, ⟨?_, ?_⟩, ?_, ?_⟩ <;> decide +kernel

/-! ## A type with structs, enums, lists and bytes inside one another -/

/-- Field values of the example. -/
inductive Part where
  | num (n : Nat)
  | bytes (l : List Byte)
  | choices (l : List (Nat × List Val))
  deriving DecidableEq

/-- `enum Kind { A(u8), #[branch_value = 7] B { #[length = 1] x: u16 } }`. -/
def kindEnum : EnumDef Val :=
  { variants := [
      { name := [97], tuple := true, fields := [u8Field {}] },
      { name := [98], branchValue := some (.num 7), fields := [u16Field { isUse := true, length := some fun _ => 1 }] }] }

/-- `len: u8` -/
def lenField : Field Part := ⟨{}, fun ca fa => do
    let a ← decInt ⟨1, false⟩ ca fa
    return .num a, fun v ca fa => encOption (encInt ⟨1, false⟩) (match v with | .num n => some n | _ => none) ca fa,
  .num 0, .num 0⟩

/-- `#[length = "len"] body: Vec<u8>` -/
def bodyField : Field Part := ⟨{ isUse := true
                                 length := some fun env => match env.fields with | [.num n] => n | _ => 0 },
  fun ca fa => do
    let a ← decBytes ca fa
    return .bytes a,
  fun v ca fa => encOption encBytes (match v with | .bytes n => some n | _ => none) ca fa, .num 0, .num 0⟩

/-- `#[byte_count_outside = 2, byteorder = "le"] kinds: Vec<Kind>` -/
def kindsField (n : Nat) : Field Part := ⟨{ isUse := true, byteorder := some (.lit .le)
                                            byteCountOutside := some fun _ => 2 },
  fun ca fa => do
    let a ← decVec n (decEnum kindEnum) ca fa
    return .choices a,
  fun v ca fa => encOption (encVec (encEnum kindEnum)) (match v with | .choices n => some n | _ => none) ca fa,
  .num 0, .num 0⟩

/-- A struct with a byte string whose length is an earlier field, and a list of enums. -/
def message (n : Nat) : StructDef Part := { fields := [lenField, bodyField, kindsField n] }

/-- All limits at once. -/
def strict : Limits := { noOffset := true, narrow := true, prefixes := true, standalone := true, searchless := true }

theorem attrsOk_plain : AttrsOk strict ({} : FieldAttrs V) := by
  refine ⟨rfl, fun _ => rfl, ?_, fun _ => rfl, ?_⟩
  · intro _ e env h
    cases h
  · intro o env
    constructor <;> simp [FieldAttrs.modifiers]

theorem kind_derivable : Derivable strict (Nat × List Val) (fun _ => decEnum kindEnum) := by
  refine DerivableIn.enum (fun _ => kindEnum) [fun _ => numDec ⟨1, false⟩, fun _ => numDec ⟨2, false⟩] ?_
    (fun _ => rfl) (fun _ n c k h => by cases h) (fun _ n u h => by cases h) ?_ ?_
  · intro d hd
    simp only [List.mem_cons, List.not_mem_nil, or_false] at hd
    rcases hd with rfl | rfl
    · exact .inject Val.num (.int ⟨1, false⟩ fun _ => .inr (by decide))
    · exact .inject Val.num (.int ⟨2, false⟩ fun _ => .inr (by decide))
  · intro n v hv
    simp only [kindEnum, List.mem_cons, List.not_mem_nil, or_false] at hv
    rcases hv with rfl | rfl <;> exact attrsOk_plain
  · intro n v hv f hf
    simp only [kindEnum, List.mem_cons, List.not_mem_nil, or_false] at hv
    rcases hv with rfl | rfl
    · simp only [List.mem_cons, List.not_mem_nil, or_false] at hf
      subst hf
      exact ⟨attrsOk_plain, fun _ => numDec ⟨1, false⟩, by simp, rfl⟩
    · simp only [List.mem_cons, List.not_mem_nil, or_false] at hf
      subst hf
      refine ⟨⟨rfl, fun _ => rfl, ?_, fun _ => rfl, ?_⟩, fun _ => numDec ⟨2, false⟩, by simp, rfl⟩
      · intro _ e env h
        cases h
      · intro o env
        constructor <;> simp [FieldAttrs.modifiers, u16Field, strict]

theorem message_derivable : Derivable strict (List Part) (fun n => decStruct (message n)) := by
  refine DerivableIn.struct message [fun _ => lenField.dec, fun _ => bodyField.dec, fun n => (kindsField n).dec] ?_
    (fun _ => rfl) ?_
  · intro d hd
    simp only [List.mem_cons, List.not_mem_nil, or_false] at hd
    rcases hd with rfl | rfl | rfl
    · exact .inject Part.num (.int ⟨1, false⟩ fun _ => .inr (by decide))
    · exact .inject Part.bytes .bytes
    · exact .inject Part.choices (.vec kind_derivable)
  · intro n f hf
    simp only [message, List.mem_cons, List.not_mem_nil, or_false] at hf
    rcases hf with rfl | rfl | rfl
    · exact ⟨attrsOk_plain, fun _ => lenField.dec, by simp, rfl⟩
    · refine ⟨⟨rfl, fun _ => rfl, ?_, fun _ => rfl, ?_⟩, fun _ => bodyField.dec, by simp, rfl⟩
      · intro _ e env h
        cases h
      · intro o env
        constructor <;> simp [FieldAttrs.modifiers, bodyField, strict]
    · refine ⟨⟨rfl, fun _ => rfl, ?_, fun _ => rfl, ?_⟩, fun n => (kindsField n).dec, by simp, rfl⟩
      · intro _ e env h
        cases h
      · intro o env
        constructor <;> simp [FieldAttrs.modifiers, kindsField, strict]

/-- C49, C34: whatever the input, `message` is decoded to a value or an error. -/
example (data : List Byte) (h : data.length ≤ isizeMax) :
    (∃ v, (decStruct (message (data.length + 1)) none none ⟨data, 0⟩).1 = .ok v) ∨
    ∃ e, (decStruct (message (data.length + 1)) none none ⟨data, 0⟩).1 = .err e :=
  C49_total_partial strict rfl rfl rfl _ message_derivable none none (FaOk?.none _) ⟨data, 0⟩ ⟨Nat.zero_le _, h⟩ _
    (Nat.lt_succ_self _)

example : decStruct (message 9) none none ⟨[2, 65, 66, 2, 0, 7, 1, 0, 3, 99], 0⟩ =
    (.ok [.num 2, .bytes [65, 66], .choices [(1, [.num 1]), (0, [.num 3])]], ⟨[2, 65, 66, 2, 0, 7, 1, 0, 3, 99], 9⟩) := by
  decide +kernel

/-- C51: the last byte of the input above does not matter. -/
example (rest : List Byte) (h : ([2, 65, 66, 2, 0, 7, 1, 0, 3] ++ rest).length ≤ isizeMax) :
    decStruct (message 9) none none ⟨[] ++ [2, 65, 66, 2, 0, 7, 1, 0, 3] ++ rest, 0⟩ =
      (.ok [.num 2, .bytes [65, 66], .choices [(1, [.num 1]), (0, [.num 3])]],
        ⟨[] ++ [2, 65, 66, 2, 0, 7, 1, 0, 3] ++ rest, 9⟩) :=
  C51_suffix_irrelevant_partial strict rfl rfl _ message_derivable 9 none none (FaOk?.none _) []
    [2, 65, 66, 2, 0, 7, 1, 0, 3] [99] rest _ (by rw [isizeMax_def]; decide) h (by decide +kernel)

/-- `struct Skip { n: u8, #[jbytes(offset = "n")] x: u8 }` -/
def skipStruct : StructDef Val :=
  { fields := [u8Field {},
      u8Field { isUse := true, offset := some fun env => match env.fields with | [.num n] => n | _ => 0 }] }

/-- C51 with `offset`: the bytes after the input do not matter. -/
example (suf : List Byte) (h : ([2, 8, 9, 5] ++ suf).length ≤ isizeMax) :
    decStruct skipStruct none none ⟨[2, 8, 9, 5] ++ suf, 0⟩ = (.ok [.num 2, .num 5], ⟨[2, 8, 9, 5] ++ suf, 4⟩) := by
  refine C51_extension { standalone := true } rfl (fun _ => decStruct skipStruct) ?_ 0 none none (FaOk?.none _)
    [2, 8, 9, 5] suf 0 4 _ (by rw [usizeMod_def]; decide) h (by decide +kernel)
  refine DerivableIn.struct (fun _ => skipStruct) [fun _ => numDec ⟨1, false⟩] ?_ (fun _ => rfl) ?_
  · intro d hd
    simp only [List.mem_cons, List.not_mem_nil, or_false] at hd
    subst hd
    exact .inject Val.num (.int ⟨1, false⟩ fun _ => .inr (by decide))
  · intro n f hf
    simp only [skipStruct, List.mem_cons, List.not_mem_nil, or_false] at hf
    rcases hf with rfl | rfl <;>
      refine ⟨⟨rfl, (fun h => nomatch h), (fun h => nomatch h), fun _ => rfl, ?_⟩, fun _ => numDec ⟨1, false⟩,
        by simp, rfl⟩ <;>
      intro o env <;> constructor <;> simp [FieldAttrs.modifiers, u8Field]

theorem encOk_plain (c : Bool) : EncOk c ({} : FieldAttrs V) := ⟨rfl, .inl rfl, fun _ => rfl⟩

theorem numEnc_encodable (c : Bool) (k : IntKind) : Encodable c Val (numEnc k) := by
  have e : numEnc k = fun v ca fa => encOption (encInt k) (match v with | .num n => some n | _ => none) ca fa := by
    funext v ca fa
    cases v <;> rfl
  rw [e]
  exact .project _ (.int k)

theorem kind_encodable : Encodable true (Nat × List Val) (encEnum kindEnum) := by
  refine Encodable.enum kindEnum ?_ ?_ ?_
  · intro v hv
    simp only [kindEnum, List.mem_cons, List.not_mem_nil, or_false] at hv
    rcases hv with rfl | rfl <;> exact encOk_plain _
  · intro v hv f hf
    simp only [kindEnum, List.mem_cons, List.not_mem_nil, or_false] at hv
    rcases hv with rfl | rfl <;>
      (simp only [List.mem_cons, List.not_mem_nil, or_false] at hf; subst hf; exact ⟨rfl, .inl rfl, fun _ => rfl⟩)
  · intro v hv f hf
    simp only [kindEnum, List.mem_cons, List.not_mem_nil, or_false] at hv
    rcases hv with rfl | rfl <;>
      (simp only [List.mem_cons, List.not_mem_nil, or_false] at hf; subst hf; exact numEnc_encodable _ _)

theorem message_encodable : Encodable true (List Part) (encStruct (message 0)) := by
  refine Encodable.struct (message 0) rfl ?_ ?_
  · intro f hf
    simp only [message, List.mem_cons, List.not_mem_nil, or_false] at hf
    rcases hf with rfl | rfl | rfl <;> exact ⟨rfl, .inl rfl, fun _ => rfl⟩
  · intro f hf
    simp only [message, List.mem_cons, List.not_mem_nil, or_false] at hf
    rcases hf with rfl | rfl | rfl
    · exact .project _ (.int _)
    · exact .project _ .bytes
    · exact .project _ (.vec kind_encodable)

/-- C47 on `message`, and a value that is encoded. -/
example (v : List Part) (pre : List Byte) (hp : pre.length ≤ isizeMax) (n : Nat) (b' : Buf)
    (he : encStruct (message 0) v none none ⟨pre, pre.length⟩ = (.ok n, b')) : pre.length + n = b'.data.length :=
  C47_count_partial _ message_encodable v none none StartsWord.none pre hp n b' he

example : encStruct (message 0) [.num 2, .bytes [65, 66], .choices [(1, [.num 1]), (0, [.num 3])]] none none ⟨[9], 1⟩
    = (.ok 9, ⟨[9, 2, 65, 66, 2, 0, 7, 1, 0, 3], 10⟩) := by decide +kernel

/-- C52 on two messages. -/
example : ¬ (encStruct (message 0) [.num 0, .bytes [], .choices []] none none ⟨[], 0⟩).2.data <+:
    (encStruct (message 0) [.num 1, .bytes [65], .choices []] none none ⟨[], 0⟩).2.data :=
  C52_derivable strict rfl rfl (encStruct (message 0)) _ message_derivable 9 none none (FaOk?.none _) _ _
    [0, 0, 0] [1, 65, 0, 0] 3 4 (by decide +kernel) (by decide +kernel) (by decide +kernel) (by decide +kernel)
    (by rw [isizeMax_def]; decide) (by decide)

/-- C52 on little-endian 4-byte integers. -/
example (x y : Nat) (hx : x < 256 ^ 4) (hy : y < 256 ^ 4) (hne : x ≠ y) :
    ¬ (encInt ⟨4, false⟩ x none (some { byteorder := some .le }) ⟨[], 0⟩).2.data <+:
      (encInt ⟨4, false⟩ y none (some { byteorder := some .le }) ⟨[], 0⟩).2.data := by
  have hl : ∀ v, (toBytes .le 4 v).length ≤ isizeMax := by
    intro v
    rw [isizeMax_def, toBytes_length]
    decide
  exact C52_prefix_free (encInt ⟨4, false⟩) (decInt ⟨4, false⟩) none _ x y
    (fun suf => ⟨_, hl x, int_writes ⟨4, false⟩ (.mk _ _ (by decide)) x none _ rfl rfl,
      int_reads ⟨4, false⟩ (.mk _ _ (by decide)) x none _ suf rfl rfl hx⟩)
    ⟨_, hl y, int_writes ⟨4, false⟩ (.mk _ _ (by decide)) y none _ rfl rfl,
      int_reads ⟨4, false⟩ (.mk _ _ (by decide)) y none _ [] rfl rfl hy⟩ hne

end JBytes
