import Verif.PropStructRT
import Verif.PropMore
/-!
# C74: fields with `from_str`

The type of such a field is read from text (`FromStr`) and written as text (`ToString`); `parse` and `print` below are
the two functions of the type.
-/

namespace JBytes

variable {V : Type}

/-- `#[from_str]` with the functions `parse` and `print`, not overridden by `with` or `skip`. -/
structure IsText (a : FieldAttrs V) (parse : List Byte → Option V) (print : V → List Byte) : Prop where
  fromStr : a.fromStr = some (parse, print)
  withDecode : a.withDecode = none
  withEncode : a.withEncode = none
  skip : a.skip = false
  skipDecode : a.skipDecode = false
  skipEncode : a.skipEncode = false

/-- **C74** (decoding): the bytes are those that the modifiers of the field frame; they must be UTF-8 and have a value.
Everything else that can be written on a field – `untake`, `if_expr`, `value_decode`, `check_value` – has no effect. -/
theorem C74_decode {f : Field V} {parse : List Byte → Option V} {print : V → List Byte} (h : IsText f.attrs parse print)
    (hoff : f.attrs.offset = none) (env : Env V) (ca : Option CAttr) (fa : Option FAttr) (b : Buf) :
    (∀ text v b', decBytes ca fa b = (.ok (utf8Of text), b') → parse (utf8Of text) = some v →
      decField f env ca fa b = (.ok v, b')) ∧
    (∀ text b', decBytes ca fa b = (.ok (utf8Of text), b') → parse (utf8Of text) = none →
      decField f env ca fa b = (.err ⟨b'.pos, .fail⟩, b')) ∧
    (∀ x b', decBytes ca fa b = (.ok x, b') → (¬ ∃ text : List Char, x = utf8Of text) →
      decField f env ca fa b = (.err ⟨b'.pos, .fail⟩, b')) ∧
    (∀ e b', decBytes ca fa b = (.err e, b') → decField f env ca fa b = (.err e, b')) := by
  have key : decField f env ca fa b = (decStr ca fa >>= fun s =>
      match parse s with
      | some v => (Pure.pure v : M V)
      | none => M.fail .fail) b := by
    simp only [decField, skipOffset, hoff, h.withDecode, h.skip, h.skipDecode, h.fromStr, bind_apply, pure_apply,
      Bool.or_self, Bool.false_eq_true, if_false] <;> rfl
  obtain ⟨s1, s2, s3⟩ := C28_text_decode ca fa b
  rw [key]
  simp only [bind_apply]
  refine ⟨?_, ?_, ?_, ?_⟩
  · intro text v b' hd hp
    rw [(s1 _ b').2 ⟨hd, text, rfl⟩]
    simp only [hp, pure_apply]
  · intro text b' hd hp
    rw [(s1 _ b').2 ⟨hd, text, rfl⟩]
    simp only [hp]
    rfl
  · intro x b' hd hn
    rw [s2 x b' hd hn]
  · intro e b' hd
    rw [s3 e b' hd]

/-- **C74** (encoding): the text is written, and after it – unless `untake` is set and `bits` is not – filler bytes and
the field itself once more, as if there were no `from_str`. -/
theorem C74_encode {f : Field V} {parse : List Byte → Option V} {print : V → List Byte} (h : IsText f.attrs parse print)
    (env : Env V) (ca : Option CAttr) (fa : Option FAttr) (v : V) (wt : List Byte)
    (ht : Writes (encBytes (print v) ca fa) wt) :
    (f.attrs.untake = true → f.attrs.bits = none → Writes (encField f env v ca fa) wt) ∧
    (f.attrs.untake = false ∨ f.attrs.bits ≠ none → ∀ w, Writes (f.enc (sentValue f.attrs env v) ca fa) w →
      Writes (encField f env v ca fa) (wt ++ (List.replicate (gap f.attrs env) f.attrs.full ++ w))) := by
  constructor
  · intro hu hb pre hp
    obtain ⟨n, e⟩ := ht pre hp
    refine ⟨n, ?_⟩
    simp only [encField, h.withEncode, h.skip, h.skipEncode, encText, h.fromStr, hu, hb, bind_apply, pure_apply, e,
      Bool.or_self, Bool.false_eq_true, if_false, Option.isSome_none, Bool.not_true]
  · intro hu w hw
    have hc : (f.attrs.bits.isSome || !f.attrs.untake) = true := by
      rcases hu with h | h
      · simp [h]
      · cases hb : f.attrs.bits with
        | none => exact absurd hb h
        | some _ => rfl
    have hp : Writes (encPlain f env v ca fa) (List.replicate (gap f.attrs env) f.attrs.full ++ w) := by
      intro pre hp
      simp only [List.length_append, List.length_replicate] at hp
      obtain ⟨n, e⟩ := hw (pre ++ List.replicate (gap f.attrs env) f.attrs.full)
        (by simp only [List.length_append, List.length_replicate]; omega)
      refine ⟨n, ?_⟩
      rw [encPlain_eq]
      simp only [bind_apply]
      rw [padOffset_end _ _ _ (by omega)]
      simp only [List.length_append, List.length_replicate] at e ⊢
      rw [e]
      simp [Nat.add_assoc]
    refine (ht.seq hp).congr fun b => ?_
    simp only [encField, h.withEncode, h.skip, h.skipEncode, encText, h.fromStr, hc, bind_apply,
      Bool.or_self, Bool.false_eq_true, if_false, if_true]

/-- **C74** (round trip), the part that holds: a field with `from_str` and `untake` (and neither `bits` nor `offset`)
round trips, as part of any struct (`FieldRT`, see C43), if the type parses what it prints and the text fits its
framing; the image is that of the text.  Full statement: without `untake`, too; see `C74_violated`. -/
theorem C74_roundtrip_partial {f : Field V} {parse : List Byte → Option V} {print : V → List Byte}
    (h : IsText f.attrs parse print) (hu : f.attrs.untake = true) (hb : f.attrs.bits = none)
    (hoff : f.attrs.offset = none) (ce cd : Option CAttr) (ee ed : Env V) (ho : OrderOk f.attrs ee)
    (ho' : OrderOk f.attrs ed) (hsame : ownModifiers f.attrs ed = ownModifiers f.attrs ee)
    (hord : effectiveOrder cd (ownModifiers f.attrs ee) = effectiveOrder ce (ownModifiers f.attrs ee))
    (v : V) (text : List Char) (suf : List Byte) (hprint : print v = utf8Of text) (hparse : parse (utf8Of text) = some v)
    (hf : (framingOf (ownModifiers f.attrs ee)).Fits (utf8Of text) suf) :
    FieldRT f ce cd ee ed v (bytesWire ce (ownModifiers f.attrs ee) (utf8Of text)) suf := by
  have hw : bytesWire cd (ownModifiers f.attrs ee) (utf8Of text) = bytesWire ce (ownModifiers f.attrs ee) (utf8Of text) := by
    unfold bytesWire
    rw [hord]
  refine ⟨⟨ownModifiers f.attrs ee, toCode_ok _ _ ho, ?_⟩, ⟨ownModifiers f.attrs ed, toCode_ok _ _ ho', ?_⟩⟩
  · refine (C74_encode h ee ce _ v _ ?_).1 hu hb
    rw [hprint]
    refine (encBytes_appends _ ce _ fun k hk => ?_).writes
    rw [hk] at hf
    exact hf.1
  · rw [hsame]
    intro pre hp
    have r := decBytes_reads (utf8Of text) suf cd _ hf
    rw [hw] at r
    exact (C74_decode h hoff ed cd _ _).1 text v _ (r pre hp) hparse

/-- **C74, negation**: without `untake`, whatever the type and the text, the decoder stops after the text: the second
copy of the field is left over and read as the next field. -/
theorem C74_violated {f : Field V} {parse : List Byte → Option V} {print : V → List Byte}
    (h : IsText f.attrs parse print) (hu : f.attrs.untake = false) (hoff : f.attrs.offset = none) (env : Env V)
    (ca : Option CAttr) (fa : Option FAttr) (v : V) (text : List Char) (w suf : List Byte) (hprint : print v = utf8Of text)
    (hparse : parse (utf8Of text) = some v) (hw : Writes (f.enc (sentValue f.attrs env v) ca fa) w) (hne : w ≠ [])
    (hf : (framingOf fa).Fits (utf8Of text) (w ++ suf)) :
    ∃ wt, Writes (encField f env v ca fa) (wt ++ w) ∧ Reads (decField f env ca fa) v wt (w ++ suf) ∧
      wt.length < (wt ++ w).length := by
  obtain ⟨wt, h1, h2, -⟩ := C26_framing_roundtrip (utf8Of text) (w ++ suf) ca fa hf
  refine ⟨wt, ?_, fun pre hp => (C74_decode h hoff env ca fa _).1 text v _ (h2 pre hp) hparse, ?_⟩
  · have := (C74_encode h env ca fa v wt (by rw [hprint]; exact h1.writes)).2 (.inl hu) w hw
    simpa [gap, hoff] using this
  · cases w with
    | nil => exact absurd rfl hne
    | cons x w => simp

/-! ## Examples -/

/-- A digit and its text. -/
def parseDigit (t : List Byte) : Option Val := if t = [55] then some (.num 7) else none

/-- A `u8` written as text, up to a blank. -/
def digitField (untake : Bool) : Field Val :=
  u8Field { isUse := true, untake := untake, linend := some [32], fromStr := some (parseDigit, fun _ => [55]) }

example : IsText (digitField true).attrs parseDigit (fun _ => [55]) := ⟨rfl, rfl, rfl, rfl, rfl, rfl⟩

example : backAndForth { fields := [digitField true, u8Field {}] } [.num 7, .num 9] = ([55, 32, 9], .ok [.num 7, .num 9], 3) ∧
    backAndForth { fields := [digitField false, u8Field {}] } [.num 7, .num 9] = ([55, 32, 7, 9], .ok [.num 7, .num 7], 3) := by
  decide +kernel

example : (decStruct { fields := [digitField true] } none none ⟨[56, 32], 0⟩).1 = .err ⟨2, .fail⟩ := by decide +kernel

end JBytes
