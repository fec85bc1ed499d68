import Verif.DeriveLemmas
import Verif.PropSeq
/-!
# Derived structs: C42

Positions and values of the fields of a derived struct, and what each field modifier does to them.
-/

namespace JBytes
open M

variable {V : Type}

/-! ## Values used in the examples -/

/-- Field values of the examples. -/
inductive Val where
  | num (n : Nat)
  | bytes (l : List Byte)
  | absent
  deriving DecidableEq, Repr

/-- An integer field type. -/
def numDec (k : IntKind) : Dec Val := fun ca fa => mapM' Val.num (decInt k ca fa)

/-- An integer field type. -/
def numEnc (k : IntKind) : Enc Val
  | .num n, ca, fa => encInt k n ca fa
  | _, _, _ => return 0

/-- A byte string field type. -/
def bytesDec : Dec Val := fun ca fa => mapM' Val.bytes (decBytes ca fa)

/-- A byte string field type. -/
def bytesEnc : Enc Val
  | .bytes l, ca, fa => encBytes l ca fa
  | _, _, _ => return 0

/-- A number among the earlier fields. -/
def Env.num (env : Env Val) (i : Nat) : Nat :=
  match env.fields[i]? with
  | some (.num n) => n
  | _ => 0

/-- `u8` field. -/
def u8Field (a : FieldAttrs Val) : Field Val := ⟨a, numDec ⟨1, false⟩, numEnc ⟨1, false⟩, .num 0, .absent⟩
/-- `u16` field. -/
def u16Field (a : FieldAttrs Val) : Field Val := ⟨a, numDec ⟨2, false⟩, numEnc ⟨2, false⟩, .num 0, .absent⟩
/-- `Vec<u8>` field. -/
def bytesField (a : FieldAttrs Val) : Field Val := ⟨a, bytesDec, bytesEnc, .bytes [], .absent⟩

/-! ## C42: order, starting points, scope -/

theorem decFields_iff (fs : List (Field V)) : ∀ (ca : Option CAttr) (env : Env V) (b b' : Buf) (vs : List V),
    decFields false fs ca none env b = (.ok vs, b') ↔ vs.length = fs.length ∧ ∃ bs : Nat → Buf, bs 0 = b ∧
      bs fs.length = b' ∧ ∀ i (h : i < fs.length) (h' : i < vs.length),
        fieldStep fs[i] (cachedAfter (fs.take i) ca env (vs.take i)) (env.extend (vs.take i)) (bs i)
          = (.ok vs[i], bs (i + 1)) := by
  induction fs with
  | nil =>
    intro ca env b b' vs
    simp only [decFields, pure_apply, Prod.mk.injEq, Out.ok.injEq, List.length_nil]
    constructor
    · rintro ⟨rfl, rfl⟩
      exact ⟨rfl, fun _ => b, rfl, rfl, fun i h => absurd h (by simp)⟩
    · rintro ⟨h, bs, h0, h1, _⟩
      exact ⟨(List.length_eq_zero_iff.mp h).symm, by rw [← h0, ← h1]⟩
  | cons f fs ih =>
    intro ca env b b' vs
    rw [decFields_cons, bind_apply]
    constructor
    · intro h
      rcases h1 : fieldStep f ca env b with ⟨o, b1⟩
      rw [h1] at h
      cases o with
      | ok v =>
        simp only [bind_apply] at h
        rcases h2 : decFields false fs (cacheVars f.attrs ca (env.push v)) none (env.push v) b1 with ⟨o2, b2⟩
        rw [h2] at h
        cases o2 with
        | ok ws =>
          simp only [pure_apply, Prod.mk.injEq, Out.ok.injEq] at h
          obtain ⟨rfl, rfl⟩ := h
          obtain ⟨hl, bs, e0, e1, hs⟩ := (ih _ _ _ _ _).mp h2
          refine ⟨by simp [hl], fun i => match i with | 0 => b | i + 1 => bs i, rfl, e1, ?_⟩
          intro i hi hi'
          cases i with
          | zero => simpa [cachedAfter, Env.extend_nil, e0] using h1
          | succ i =>
            have := hs i (by simpa using hi) (by simpa using hi')
            simpa [cachedAfter, Env.push_extend] using this
        | _ => simp at h
      | _ => simp at h
    · rintro ⟨hl, bs, h0, h1, hs⟩
      cases vs with
      | nil => simp at hl
      | cons v vs =>
        have s0 := hs 0 (by simp) (by simp)
        simp only [List.getElem_cons_zero, List.take_zero, cachedAfter, Env.extend_nil, h0] at s0
        rw [s0]
        have r := (ih (cacheVars f.attrs ca (env.push v)) (env.push v) (bs 1) b' vs).mpr
          ⟨by simpa using hl, fun i => bs (i + 1), rfl, h1, ?_⟩
        · simp only [bind_apply]
          rw [show bs (0 + 1) = bs 1 from rfl, r]
          rfl
        · intro i hi hi'
          have := hs (i + 1) (by simpa using hi) (by simpa using hi')
          simpa [cachedAfter, Env.push_extend] using this

/-- C42 (order): decoding a struct succeeds with `vs` exactly when there are intermediate states `bs 0 .. bs n`,
the first the starting state and the last the final one, such that the `i`-th field, decoded in state `bs i` with
modifiers that see the values of fields `0 .. i-1` only, returns `vs[i]` and ends in state `bs (i+1)`. -/
theorem C42_in_order (S : StructDef V) (hw : S.withDecode = none) (ht : S.tuple = false) (ca : Option CAttr)
    (fa : Option FAttr) (b b' : Buf) (vs : List V) :
    decStruct S ca fa b = (.ok vs, b') ↔ vs.length = S.fields.length ∧ ∃ bs : Nat → Buf, bs 0 = b ∧
      bs S.fields.length = b' ∧ ∀ i (h : i < S.fields.length) (h' : i < vs.length),
        fieldStep S.fields[i] (cachedAfter (S.fields.take i) S.container { vars := localVars S.getVars ca } (vs.take i))
          { vars := localVars S.getVars ca, fields := vs.take i } (bs i) = (.ok vs[i], bs (i + 1)) := by
  simp only [decStruct, hw, ht]
  rw [decFields_iff]
  simp only [Env.extend, List.nil_append]

/-- C42 (scope): the first fields decode to the same values, ending at the same place, whatever fields follow
them. -/
theorem C42_later_fields_irrelevant (fs gs : List (Field V)) (ca ca' : Option CAttr) (fa fa' : Option FAttr)
    (S S' : StructDef V) (h : S.fields = fs) (h' : S'.fields = fs ++ gs) (hc : S'.container = S.container)
    (hv : localVars S'.getVars ca' = localVars S.getVars ca) (hw : S.withDecode = none) (hw' : S'.withDecode = none)
    (ht : S.tuple = false) (ht' : S'.tuple = false) (b b' : Buf) (vs : List V)
    (hd : decStruct S' ca' fa' b = (.ok vs, b')) :
    ∃ b1, decStruct S ca fa b = (.ok (vs.take fs.length), b1) := by
  simp only [decStruct, hw', ht', h', hc, hv] at hd
  simp only [decStruct, hw, ht, h]
  rw [decFields_append, bind_apply] at hd
  rcases h1 : decFields false fs S.container none { vars := localVars S.getVars ca } b with ⟨o, b1⟩
  rw [h1] at hd
  cases o with
  | ok ws =>
    simp only [bind_apply] at hd
    rcases h2 : decFields false gs (cachedAfter fs S.container { vars := localVars S.getVars ca } ws) none
      (Env.extend { vars := localVars S.getVars ca } ws) b1 with ⟨o2, b2⟩
    rw [h2] at hd
    cases o2 with
    | ok us =>
      simp only [pure_apply, Prod.mk.injEq, Out.ok.injEq] at hd
      have hl := decFields_length _ _ _ _ _ _ _ _ h1
      refine ⟨b1, ?_⟩
      rw [← hd.1, List.take_left' hl]
    | _ => simp at hd
  | _ => simp at hd

/-- A failing field makes the struct fail with the same error, where that field left the position. -/
theorem C42_failure (S : StructDef V) (hw : S.withDecode = none) (ht : S.tuple = false) (ca : Option CAttr)
    (fa : Option FAttr) (fs gs : List (Field V)) (f : Field V) (hf : S.fields = fs ++ f :: gs) (b b1 b2 : Buf)
    (vs : List V) (e : JErr)
    (h1 : decStruct { S with fields := fs } ca fa b = (.ok vs, b1))
    (h2 : fieldStep f (cachedAfter fs S.container { vars := localVars S.getVars ca } vs)
      { vars := localVars S.getVars ca, fields := vs } b1 = (.err e, b2)) :
    decStruct S ca fa b = (.err e, b2) := by
  simp only [decStruct, hw, ht] at h1
  simp only [decStruct, hw, ht, hf]
  rw [decFields_append, bind_apply, h1]
  simp only [Env.extend, List.nil_append]
  rw [bind_apply, decFields_cons, bind_apply, h2]

/-! ## C42: one field -/

/-- C42 (offset): `offset` moves the position before anything else is done for the field. -/
theorem C42_offset (f : Field V) (env : Env V) (ca : Option CAttr) (fa : Option FAttr) (e : Env V → Nat)
    (h : f.attrs.offset = some e) (b : Buf) (hb : b.pos + e env < usizeMod) :
    decField f env ca fa b = decField { f with attrs := { f.attrs with offset := none } } env ca fa
      ⟨b.data, b.pos + e env⟩ := by
  rw [decField_offset f env ca fa (e env) (by rw [h]; rfl), wadd_eq hb]

/-- C42 (plain field): a field without special modifiers is decoded by the decoder of its type, with its own
modifiers. -/
theorem C42_plain (f : Field V) (env : Env V) (ca : Option CAttr) (fa : Option FAttr)
    (ho : f.attrs.offset = none) (hw : f.attrs.withDecode = none) (hs : f.attrs.skip = false)
    (hs' : f.attrs.skipDecode = false) (hf : f.attrs.fromStr = none) (hi : f.attrs.ifExpr = none)
    (hu : f.attrs.untake = false) (hv : f.attrs.valueDecode = none) (hc : f.attrs.checkValue = none) (b : Buf) :
    decField f env ca fa b = f.dec ca fa b := by
  simp only [decField, skipOffset, ho, hw, hs, hs', hf, decPlain, decCond, hi, hu, finishValue, hv, hc, bind_apply,
    pure_apply, getPos_apply, Bool.or_self, Bool.false_eq_true, if_false]
  rcases f.dec ca fa b with ⟨o, b1⟩
  cases o <;> rfl

/-- C42 (skip): a skipped field is the default of its type and touches nothing. -/
theorem C42_skip (f : Field V) (env : Env V) (ca : Option CAttr) (fa : Option FAttr)
    (ho : f.attrs.offset = none) (hw : f.attrs.withDecode = none)
    (hs : f.attrs.skip = true ∨ f.attrs.skipDecode = true) (b : Buf) :
    decField f env ca fa b = (.ok f.dflt, b) := by
  have : (f.attrs.skip || f.attrs.skipDecode) = true := by rcases hs with h | h <;> simp [h]
  simp only [decField, skipOffset, ho, hw, this, bind_apply, pure_apply, if_true]

/-- The value a field gets from what the decoder of its type returned: `value_decode` applied. -/
def finalValue (f : Field V) (env : Env V) (v : V) : V := (f.attrs.valueDecode.map (fun g => g env v)).getD v

/-- The field's `check_value`, if any, holds of `v`. -/
def Checked (f : Field V) (env : Env V) (v : V) : Prop := ∀ c, f.attrs.checkValue = some c → c env v = true

theorem finishValue_eq (f : Field V) (env : Env V) (v : V) (b : Buf) [Decidable (Checked f env (finalValue f env v))] :
    finishValue f.attrs env v b = if Checked f env (finalValue f env v) then (.ok (finalValue f env v), b)
      else (.err ⟨b.pos, .invalidValue⟩, b) := by
  have e : finishValue f.attrs env v = (match f.attrs.checkValue with
      | some c => if c env (finalValue f env v) then (Pure.pure (finalValue f env v) : M V) else fail .invalidValue
      | none => Pure.pure (finalValue f env v)) := by
    unfold finishValue finalValue
    cases f.attrs.valueDecode <;> rfl
  rw [e]
  cases hc : f.attrs.checkValue with
  | none =>
    rw [if_pos (by intro c h; rw [hc] at h; cases h)]
    rfl
  | some c =>
    show (if c env (finalValue f env v) = true then (Pure.pure (finalValue f env v) : M V) else fail .invalidValue) b = _
    by_cases h : c env (finalValue f env v) = true
    · rw [if_pos h, if_pos (by intro c' h'; rw [hc] at h'; cases h'; exact h)]
      rfl
    · rw [if_neg h, if_neg (by intro h'; exact h (h' c hc))]
      rfl

/-- C42 (value, check, untake): when the decoder of the field's type returns `v` ending in `b1`, the field is
`value_decode` of it; the position is `b1`'s, or the starting one for an `untake` field; a failed `check_value` is
an `InvalidValue` error at that position. -/
theorem C42_decoded (f : Field V) (env : Env V) (ca : Option CAttr) (fa : Option FAttr)
    (ho : f.attrs.offset = none) (hw : f.attrs.withDecode = none) (hs : f.attrs.skip = false)
    (hs' : f.attrs.skipDecode = false) (hf : f.attrs.fromStr = none)
    (hi : ∀ c, f.attrs.ifExpr = some c → c env = true) (b b1 : Buf) (v : V) (h : f.dec ca fa b = (.ok v, b1))
    (b2 : Buf) (h2 : b2 = if f.attrs.untake then ⟨b1.data, b.pos⟩ else b1) :
    (Checked f env (finalValue f env v) → decField f env ca fa b = (.ok (finalValue f env v), b2)) ∧
    (¬ Checked f env (finalValue f env v) → decField f env ca fa b = (.err ⟨b2.pos, .invalidValue⟩, b2)) := by
  classical
  have hc : decCond f env ca fa b = (.ok v, b1) := by
    unfold decCond
    cases h3 : f.attrs.ifExpr with
    | none => exact h
    | some c => simp only [hi c h3, if_true]; exact h
  have e : decField f env ca fa b = finishValue f.attrs env v b2 := by
    simp only [decField, skipOffset, ho, hw, hs, hs', hf, decPlain, bind_apply, pure_apply, getPos_apply,
      Bool.or_self, Bool.false_eq_true, if_false, hc]
    cases hu : f.attrs.untake <;> simp only [hu] at h2 ⊢
    · simp [h2]
    · simp [h2, bind_apply, setPos_apply]
  rw [e, finishValue_eq]
  exact ⟨fun h => if_pos h, fun h => if_neg h⟩

/-- C42 (if_expr): when the condition is false the field is `None` and nothing is read. -/
theorem C42_if_false (f : Field V) (env : Env V) (ca : Option CAttr) (fa : Option FAttr) (c : Env V → Bool)
    (ho : f.attrs.offset = none) (hw : f.attrs.withDecode = none) (hs : f.attrs.skip = false)
    (hs' : f.attrs.skipDecode = false) (hf : f.attrs.fromStr = none) (hi : f.attrs.ifExpr = some c)
    (hc : c env = false) (hv : f.attrs.valueDecode = none) (hck : f.attrs.checkValue = none) (b : Buf) :
    decField f env ca fa b = (.ok f.noneV, b) := by
  simp only [decField, skipOffset, ho, hw, hs, hs', hf, decPlain, decCond, hi, hc, bind_apply, pure_apply,
    getPos_apply, Bool.or_self, Bool.false_eq_true, if_false, finishValue, hv, hck]
  cases f.attrs.untake <;> rfl

/-- C42 (errors): an error of the field's type is the error of the field. -/
theorem C42_error (f : Field V) (env : Env V) (ca : Option CAttr) (fa : Option FAttr)
    (ho : f.attrs.offset = none) (hw : f.attrs.withDecode = none) (hs : f.attrs.skip = false)
    (hs' : f.attrs.skipDecode = false) (hf : f.attrs.fromStr = none)
    (hi : ∀ c, f.attrs.ifExpr = some c → c env = true) (b b1 : Buf) (e : JErr) (h : f.dec ca fa b = (.err e, b1)) :
    decField f env ca fa b = (.err e, b1) := by
  have hc : decCond f env ca fa b = (.err e, b1) := by
    unfold decCond
    cases h3 : f.attrs.ifExpr with
    | none => exact h
    | some c => simp only [hi c h3, if_true]; exact h
  simp only [decField, skipOffset, ho, hw, hs, hs', hf, decPlain, bind_apply, pure_apply, getPos_apply,
    Bool.or_self, Bool.false_eq_true, if_false, hc]

/-- A struct with a count, an offset, a peeked field, a conditional field and a checked one:
`n: u8; #[offset = "n"] a: u16; #[untake] peek: u8; #[length = "n"] s: Vec<u8>; #[if_expr = "n > 5"] x: Option<u8>;
#[check_value = 7] c: u8`. -/
def sampleStruct : StructDef Val :=
  { fields := [
      u8Field {},
      u16Field { isUse := true, offset := some fun env => env.num 0 },
      u8Field { isUse := true, untake := true },
      bytesField { isUse := true, length := some fun env => env.num 0 },
      u8Field { isUse := true, ifExpr := some fun env => 5 < env.num 0 },
      u8Field { isUse := true, checkValue := some fun _ v => v == .num 7 }] }

example : decStruct sampleStruct none none ⟨[2, 0xEE, 0xEE, 1, 2, 65, 66, 7, 99], 0⟩
    = (.ok [.num 2, .num 258, .num 65, .bytes [65, 66], .absent, .num 7],
       ⟨[2, 0xEE, 0xEE, 1, 2, 65, 66, 7, 99], 8⟩) := by decide +kernel

example : decStruct sampleStruct none none ⟨[2, 0xEE, 0xEE, 1, 2, 65, 66, 8, 99], 0⟩
    = (.err ⟨8, .invalidValue⟩, ⟨[2, 0xEE, 0xEE, 1, 2, 65, 66, 8, 99], 8⟩) := by decide +kernel

end JBytes
