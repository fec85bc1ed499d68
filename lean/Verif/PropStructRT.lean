import Verif.PropStruct
import Verif.PropBits
/-!
# Derived structs: round trip (C43)

`Writes e w`: encoding appends exactly `w` (whatever count it reports: see C47).  A struct is cut into segments of
consecutive fields - single fields, or bit-field groups sharing a word - each of which round trips.
-/

namespace JBytes
open M

variable {V : Type}

/-- Encoding at the end of a buffer succeeds, appends exactly `w`, keeps what was there and leaves the position at
the new end. -/
def Writes (e : M Nat) (w : List Byte) : Prop := ∀ pre : List Byte, pre.length + w.length ≤ isizeMax →
  ∃ n, e ⟨pre, pre.length⟩ = (.ok n, ⟨pre ++ w, pre.length + w.length⟩)

theorem Appends.writes {e : M Nat} {w : List Byte} (h : Appends e w) : Writes e w :=
  fun pre hp => ⟨w.length, h pre hp⟩

theorem Writes.seq {e1 e2 : M Nat} {w1 w2 : List Byte} (h1 : Writes e1 w1) (h2 : Writes e2 w2) :
    Writes (e1 >>= fun n => e2 >>= fun m => (Pure.pure (n + m) : M Nat)) (w1 ++ w2) := by
  intro pre hp
  rw [List.length_append] at hp
  obtain ⟨n, e⟩ := h1 pre (by omega)
  obtain ⟨m, e'⟩ := h2 (pre ++ w1) (by rw [List.length_append]; omega)
  rw [List.length_append] at e'
  refine ⟨n + m, ?_⟩
  simp only [bind_apply, e, e', pure_apply, List.append_assoc, List.length_append, Nat.add_assoc]

theorem Writes.congr {e e' : M Nat} {w : List Byte} (h : Writes e w) (he : ∀ b, e' b = e b) : Writes e' w := by
  intro pre hp
  rw [he]
  exact h pre hp

/-- A run of consecutive fields round trips: encoding `vs` appends `w`, and decoding `w` followed by `suf` gives
`vs` back and consumes exactly `w`.  `ce`/`cd` are the container modifiers passed to the encoder/decoder, `ee`/`ed`
the scopes of their modifier expressions (they may differ in the `get_variable_name` locals, see C56). -/
structure SegRT (fs : List (Field V)) (ce cd : Option CAttr) (ee ed : Env V) (vs : List V) (w suf : List Byte) :
    Prop where
  len : fs.length = vs.length
  writes : Writes (encFields false fs ce none ee vs) w
  reads : Reads (decFields false fs cd none ed) vs w suf

/-- A struct cut into segments that round trip, each in the scope left by the earlier ones and before the images of
the later ones. -/
inductive Segments (ce : Option CAttr) :
    List (Field V) → Option CAttr → Env V → Env V → List V → List Byte → List Byte → Prop
  | nil (cd : Option CAttr) (ee ed : Env V) (suf : List Byte) : Segments ce [] cd ee ed [] [] suf
  | cons {fs gs : List (Field V)} {cd : Option CAttr} {ee ed : Env V} {vs us : List V} {w1 w2 suf : List Byte} :
      SegRT fs ce cd ee ed vs w1 (w2 ++ suf) →
      Segments ce gs (cachedAfter fs cd ed vs) (ee.extend vs) (ed.extend vs) us w2 suf →
      Segments ce (fs ++ gs) cd ee ed (vs ++ us) (w1 ++ w2) suf

theorem Segments.roundtrip {ce cd : Option CAttr} {fs : List (Field V)} {ee ed : Env V} {vs : List V}
    {w suf : List Byte} (h : Segments ce fs cd ee ed vs w suf) : SegRT fs ce cd ee ed vs w suf := by
  induction h with
  | nil cd ee ed suf => exact ⟨rfl, Appends.pure0.writes, Reads.pure _ _⟩
  | cons s _ ih =>
    refine ⟨by simp [s.len, ih.len], ?_, ?_⟩
    · exact (s.writes.seq ih.writes).congr (encFields_append _ _ _ _ _ _ s.len)
    · exact (Reads.bind s.reads (ih.reads.map _)).congr (fun b _ => decFields_append _ _ _ _ b)

/-- C43: a derived struct whose segments round trip under their modifiers round trips: the encoding is the
concatenation of the images, and decoding it, whatever precedes it and with `suf` after it, returns the fields and
consumes exactly the encoding.  The container modifiers `ca`, `ca'` the struct is given, which carry the variables of
an enclosing struct, may differ.  (Tuple structs: every field carries a modifier attribute, see C46.) -/
theorem C43_struct_roundtrip (S : StructDef V) (hwd : S.withDecode = none) (hwe : S.withEncode = none)
    (ht : S.tuple = true → ∀ f ∈ S.fields, f.attrs.isUse = true) (ca ca' : Option CAttr) (fa fa' : Option FAttr)
    (vs : List V) (w suf : List Byte)
    (h : Segments S.container S.fields S.container { vars := localVars S.getVars ca }
      { vars := localVars S.getVars ca' } vs w suf) :
    Writes (encStruct S vs ca fa) w ∧ Reads (decStruct S ca' fa') vs w suf := by
  have r := h.roundtrip
  refine ⟨r.writes.congr fun b => ?_, r.reads.congr fun b _ => ?_⟩
  · simp only [encStruct, hwe]
  · simp only [decStruct, hwd]
    cases htt : S.tuple with
    | false => rfl
    | true =>
      have hu := ht htt
      exact decFields_noLeak _ _ _ _ _ ⟨List.pairwise_of_forall_mem_list fun _ _ g hg _ => hu g hg, .inl rfl⟩

/-! ## Which fields round trip -/

/-- One field round trips under its modifiers. -/
structure FieldRT (f : Field V) (ce cd : Option CAttr) (ee ed : Env V) (v : V) (w suf : List Byte) : Prop where
  writes : ∃ fa, (∀ b, f.attrs.toCode ee b = (.ok fa, b)) ∧ Writes (encField f ee v ce fa) w
  reads : ∃ fa, (∀ b, f.attrs.toCode ed b = (.ok fa, b)) ∧ Reads (decField f ed cd fa) v w suf

/-- A field that round trips is a segment. -/
theorem C43_field_segment {f : Field V} {ce cd : Option CAttr} {ee ed : Env V} {v : V} {w suf : List Byte}
    (h : FieldRT f ce cd ee ed v w suf) : SegRT [f] ce cd ee ed [v] w suf := by
  obtain ⟨fa, ha, he⟩ := h.writes
  obtain ⟨fa', ha', hd⟩ := h.reads
  refine ⟨rfl, ?_, ?_⟩
  · intro pre hp
    obtain ⟨n, e⟩ := he pre hp
    refine ⟨n + 0, ?_⟩
    rw [encFields_cons]
    simp only [bind_apply, fieldEnc, ha, e, encFields, pure_apply]
  · intro pre hp
    have e := hd pre hp
    rw [decFields_cons]
    simp only [bind_apply, fieldStep, ha', e, decFields, pure_apply]

/-- `to_code` does not panic: the byte order is a literal, or an expression with value 0 or 1. -/
def OrderOk (a : FieldAttrs V) (env : Env V) : Prop :=
  ∀ e, a.byteorder = some (.expr e) → e env = 0 ∨ e env = 1

/-- The byte order a field asks for. -/
def askedOrder (a : FieldAttrs V) (env : Env V) : Option ByteOrder :=
  match a.byteorder with
  | none => none
  | some (.lit o) => some o
  | some (.expr e) => if e env = 0 then some .be else some .le

/-- What the codec of the field's type must be told: nothing when no codec modifier is written on the field, else
each modifier with its value in the scope of the field. -/
def ownModifiers (a : FieldAttrs V) (env : Env V) : Option FAttr :=
  if a.isUse = true ∧ (a.byteorder ≠ none ∨ a.length ≠ none ∨ a.count ≠ none ∨ a.tryCount ≠ none ∨ a.bits ≠ none ∨
      a.bitsStart = true ∨ a.byteCount ≠ none ∨ a.byteCountOutside ≠ none ∨ a.key ≠ none ∨ a.split ≠ none ∨
      a.linend ≠ none ∨ a.remaining = true ∨ a.branch ≠ none ∨ a.loopSkipStarts ≠ none) then
    some { byteorder := askedOrder a env
           length := a.length.map (· env)
           count := a.count.map (· env)
           tryCount := a.tryCount.map (· env)
           bits := a.bits.map (· env)
           bitsStart := a.bitsStart
           byteCount := a.byteCount.map (· env)
           byteCountOutside := a.byteCountOutside.map (· env)
           key := a.key
           split := a.split
           linendValue := a.linend
           remaining := a.remaining
           branch := a.branch.map (· env)
           loopSkipStarts := a.loopSkipStarts }
  else none

theorem toCode_ok (a : FieldAttrs V) (env : Env V) (h : OrderOk a env) (b : Buf) :
    a.toCode env b = (.ok (ownModifiers a env), b) := by
  have hset : (a.isUse && a.anySet) = true ↔ (a.isUse = true ∧ (a.byteorder ≠ none ∨ a.length ≠ none ∨ a.count ≠ none ∨
      a.tryCount ≠ none ∨ a.bits ≠ none ∨ a.bitsStart = true ∨ a.byteCount ≠ none ∨ a.byteCountOutside ≠ none ∨
      a.key ≠ none ∨ a.split ≠ none ∨ a.linend ≠ none ∨ a.remaining = true ∨ a.branch ≠ none ∨
      a.loopSkipStarts ≠ none)) := by
    simp only [FieldAttrs.anySet, Bool.and_eq_true, Bool.or_eq_true, Option.isSome_iff_ne_none]
    grind
  unfold FieldAttrs.toCode ownModifiers askedOrder
  by_cases hu : (a.isUse && a.anySet) = true
  · rw [if_pos hu, if_pos (hset.mp hu), bind_apply]
    unfold orderCode
    cases ho : a.byteorder with
    | none => rfl
    | some o =>
      cases o with
      | lit o => rfl
      | expr e =>
        simp only [ite_apply']
        rcases h e ho with h0 | h1
        · rw [if_pos h0, if_pos h0]; rfl
        · rw [if_neg (by rw [h1]; decide), if_pos h1, if_neg (by rw [h1]; decide)]; rfl
  · rw [if_neg hu, if_neg (fun h => hu (hset.mpr h))]; rfl

/-- C42 (modifiers): whatever modifiers are written on a field, the codec of its type is told each of them, with its
value in the scope of the field, and none that is not written. -/
theorem C42_modifiers_told (a : FieldAttrs V) (hu : a.isUse = true) (env : Env V) (ho : OrderOk a env) :
    ∃ fa, (∀ b, a.toCode env b = (.ok fa, b)) ∧
      fa.bind (·.byteorder) = askedOrder a env ∧
      fa.bind (·.length) = a.length.map (· env) ∧ fa.bind (·.count) = a.count.map (· env) ∧
      fa.bind (·.tryCount) = a.tryCount.map (· env) ∧ fa.bind (·.bits) = a.bits.map (· env) ∧
      (fa.map (·.bitsStart)).getD false = a.bitsStart ∧ fa.bind (·.byteCount) = a.byteCount.map (· env) ∧
      fa.bind (·.byteCountOutside) = a.byteCountOutside.map (· env) ∧ fa.bind (·.key) = a.key ∧
      fa.bind (·.split) = a.split ∧ fa.bind (·.linendValue) = a.linend ∧
      (fa.map (·.remaining)).getD false = a.remaining ∧ fa.bind (·.branch) = a.branch.map (· env) ∧
      fa.bind (·.loopSkipStarts) = a.loopSkipStarts := by
  refine ⟨ownModifiers a env, toCode_ok a env ho, ?_⟩
  unfold ownModifiers
  split
  · exact ⟨rfl, rfl, rfl, rfl, rfl, rfl, rfl, rfl, rfl, rfl, rfl, rfl, rfl, rfl⟩
  · rename_i hn
    simp only [hu, true_and, not_or, Decidable.not_not, Bool.not_eq_true] at hn
    obtain ⟨h1, h2, h3, h4, h5, h6, h7, h8, h9, h10, h11, h12, h13, h14⟩ := hn
    simp [askedOrder, h1, h2, h3, h4, h5, h6, h7, h8, h9, h10, h11, h12, h13, h14]

/-- `#[length = "n", byteorder = "1"]` on a field after `n`. -/
def packetLike : FieldAttrs Nat :=
  { isUse := true, length := some fun env => env.fields.headD 0, byteorder := some (.expr fun _ => 1) }

example : ∃ fa, (∀ b, (packetLike : FieldAttrs Nat).toCode { fields := [3] } b = (.ok fa, b)) ∧
    fa.bind (·.length) = some 3 ∧ fa.bind (·.byteorder) = some .le := by
  obtain ⟨fa, h, h1, h2, -⟩ := C42_modifiers_told (packetLike : FieldAttrs Nat) rfl { fields := [3] }
    (by intro e he; cases he; exact .inr rfl)
  exact ⟨fa, h, h2, h1⟩

/-- No modifier that replaces or suppresses the codec of the field's type. -/
def Ordinary (a : FieldAttrs V) : Prop :=
  a.withDecode = none ∧ a.withEncode = none ∧ a.skip = false ∧ a.skipEncode = false ∧ a.skipDecode = false ∧
  a.fromStr = none

/-- The number of filler bytes in front of the field. -/
def gap (a : FieldAttrs V) (env : Env V) : Nat := (a.offset.map (· env)).getD 0

/-- The value handed to the encoder of the field's type. -/
def sentValue (a : FieldAttrs V) (env : Env V) (v : V) : V := (a.valueEncode.map (fun g => g env v)).getD v

theorem padLoop_end (x : Byte) : ∀ (n : Nat) (pre : List Byte), pre.length + n ≤ isizeMax →
    padLoop x n ⟨pre, pre.length⟩ = (.ok (), ⟨pre ++ List.replicate n x, pre.length + n⟩) := by
  intro n
  induction n with
  | zero => intro pre _; simp [padLoop, pure_apply]
  | succ n ih =>
    intro pre hp
    have e := Appends.push [x] pre (by simp; omega)
    have r := ih (pre ++ [x]) (by simp; omega)
    simp only [padLoop, bind_apply, pushU8, e]
    simp only [List.length_append, List.length_singleton] at r ⊢
    rw [r]
    simp [List.replicate_succ, Nat.add_assoc, Nat.add_comm 1]

theorem padOffset_end (a : FieldAttrs V) (env : Env V) (pre : List Byte) (h : pre.length + gap a env ≤ isizeMax) :
    padOffset a env ⟨pre, pre.length⟩
      = (.ok (), ⟨pre ++ List.replicate (gap a env) a.full, pre.length + gap a env⟩) := by
  unfold padOffset gap at *
  cases ho : a.offset with
  | none => simp [pure_apply]
  | some e =>
    rw [ho] at h
    exact padLoop_end _ _ _ h

theorem encPlain_eq (f : Field V) (env : Env V) (v : V) (ca : Option CAttr) (fa : Option FAttr) (b : Buf) :
    encPlain f env v ca fa b = (padOffset f.attrs env >>= fun _ => f.enc (sentValue f.attrs env v) ca fa) b := by
  unfold encPlain sentValue
  cases f.attrs.valueEncode <;> rfl

theorem encField_plain (f : Field V) (env : Env V) (v : V) (ca : Option CAttr) (fa : Option FAttr)
    (ho : Ordinary f.attrs) (hu : f.attrs.untake = false ∨ f.attrs.bits.isSome = true) (b : Buf) :
    encField f env v ca fa b = (encPlain f env v ca fa >>= fun m => (Pure.pure (0 + m) : M Nat)) b := by
  obtain ⟨h1, h2, h3, h4, h5, h6⟩ := ho
  have hc : (f.attrs.bits.isSome || !f.attrs.untake) = true := by rcases hu with h | h <;> simp [h]
  simp only [encField, h2, h3, h4, encText, h6, hc, bind_apply, pure_apply, Bool.or_self, Bool.false_eq_true, if_false,
    if_true]

/-- C43 (ordinary field): whatever its codec modifiers, offset, fill byte, `value_encode`/`value_decode` and check, a
field round trips if the codec of its type does for the value sent, `value_decode` undoes `value_encode`, and the
check accepts the value; if `if_expr` is false the value is `None`, written as nothing.  The two scopes must agree on
the offset. -/
theorem C43_field_plain (f : Field V) (ce cd : Option CAttr) (env ed : Env V) (v : V) (w suf : List Byte)
    (hord : Ordinary f.attrs) (hu : f.attrs.untake = false) (ho : OrderOk f.attrs env) (ho' : OrderOk f.attrs ed)
    (hg : gap f.attrs ed = gap f.attrs env)
    (hw : Writes (f.enc (sentValue f.attrs env v) ce (ownModifiers f.attrs env)) w)
    (hr : (∀ c, f.attrs.ifExpr = some c → c ed = true) →
      Reads (f.dec cd (ownModifiers f.attrs ed)) (sentValue f.attrs env v) w suf)
    (hn : ∀ c, f.attrs.ifExpr = some c → c ed = false → sentValue f.attrs env v = f.noneV ∧ w = [])
    (hv : finalValue f ed (sentValue f.attrs env v) = v) (hc : Checked f ed v) :
    FieldRT f ce cd env ed v (List.replicate (gap f.attrs env) f.attrs.full ++ w) suf := by
  classical
  refine ⟨⟨ownModifiers f.attrs env, toCode_ok _ _ ho, ?_⟩, ⟨ownModifiers f.attrs ed, toCode_ok _ _ ho', ?_⟩⟩
  · intro pre hp
    simp only [List.length_append, List.length_replicate] at hp
    obtain ⟨n, e⟩ := hw (pre ++ List.replicate (gap f.attrs env) f.attrs.full)
      (by simp only [List.length_append, List.length_replicate]; omega)
    simp only [List.length_append, List.length_replicate] at e
    refine ⟨0 + n, ?_⟩
    rw [encField_plain f env v ce _ hord (.inl hu), bind_apply, encPlain_eq, bind_apply,
      padOffset_end _ _ _ (by omega)]
    simp only [e, pure_apply, List.append_assoc, List.length_append, List.length_replicate, Nat.add_assoc]
  · obtain ⟨h1, h2, h3, h4, h5, h6⟩ := hord
    intro pre hp
    simp only [List.length_append, List.length_replicate] at hp
    have hcond : decCond f ed cd (ownModifiers f.attrs ed)
        ⟨pre ++ (List.replicate (gap f.attrs env) f.attrs.full ++ w ++ suf), pre.length + gap f.attrs env⟩
        = (.ok (sentValue f.attrs env v), ⟨pre ++ (List.replicate (gap f.attrs env) f.attrs.full ++ w ++ suf),
            pre.length + (gap f.attrs env + w.length)⟩) := by
      unfold decCond
      have run : (∀ c, f.attrs.ifExpr = some c → c ed = true) → f.dec cd (ownModifiers f.attrs ed)
          ⟨pre ++ (List.replicate (gap f.attrs env) f.attrs.full ++ w ++ suf), pre.length + gap f.attrs env⟩
          = (.ok (sentValue f.attrs env v), ⟨pre ++ (List.replicate (gap f.attrs env) f.attrs.full ++ w ++ suf),
              pre.length + (gap f.attrs env + w.length)⟩) := by
        intro hi
        have e := hr hi (pre ++ List.replicate (gap f.attrs env) f.attrs.full)
          (by simp only [List.length_append, List.length_replicate]; omega)
        simpa only [List.append_assoc, List.length_append, List.length_replicate, Nat.add_assoc] using e
      cases hi : f.attrs.ifExpr with
      | none => exact run (by rw [hi]; intro c h; cases h)
      | some c =>
        cases hce : c ed with
        | true =>
          simp only [ite_apply', hce, if_true]
          exact run (by rw [hi]; intro c' h; cases h; exact hce)
        | false =>
          obtain ⟨n1, n2⟩ := hn c hi hce
          subst n2
          rw [n1]
          simp only [ite_apply', hce, Bool.false_eq_true, if_false, pure_apply, List.length_nil, Nat.add_zero]
    have hoff : skipOffset f.attrs ed
        ⟨pre ++ (List.replicate (gap f.attrs env) f.attrs.full ++ w ++ suf), pre.length⟩
        = (.ok (), ⟨pre ++ (List.replicate (gap f.attrs env) f.attrs.full ++ w ++ suf),
            pre.length + gap f.attrs env⟩) := by
      unfold skipOffset
      have hg : gap f.attrs env = (f.attrs.offset.map (· ed)).getD 0 := hg.symm
      cases hoo : f.attrs.offset with
      | none => rw [hoo] at hg; simp at hg; simp [hg, pure_apply]
      | some e =>
        rw [hoo] at hg
        simp only [Option.map_some, Option.getD_some] at hg
        have := isizeMax_lt
        simp only [advance_apply]
        rw [wadd_eq (by omega), hg]
    simp only [decField, bind_apply, hoff, h1, h3, h5, h6, decPlain, getPos_apply, hcond, hu, Bool.or_self,
      Bool.false_eq_true, if_false]
    rw [finishValue_eq, hv, if_pos hc]
    simp only [List.length_append, List.length_replicate]

/-- C43 (skipped field): a `skip` field without offset holds its default and takes no room. -/
theorem C43_field_skip (f : Field V) (ce cd : Option CAttr) (env ed : Env V) (suf : List Byte)
    (ho : OrderOk f.attrs env) (ho' : OrderOk f.attrs ed) (hd : f.attrs.withDecode = none) (he : f.attrs.withEncode = none)
    (hs : f.attrs.skip = true) (hoff : f.attrs.offset = none) : FieldRT f ce cd env ed f.dflt [] suf := by
  refine ⟨⟨ownModifiers f.attrs env, toCode_ok _ _ ho, ?_⟩, ⟨ownModifiers f.attrs ed, toCode_ok _ _ ho', ?_⟩⟩
  · intro pre _
    exact ⟨0, by simp [encField, he, hs, pure_apply]⟩
  · intro pre _
    simp [C42_skip f ed cd _ hoff hd (.inl hs)]

/-- C43 (peeked field): an `untake` field without offset or `bits` takes no room; it comes back if the bytes that
follow decode to it. -/
theorem C43_field_untake (f : Field V) (ce cd : Option CAttr) (env ed : Env V) (v : V) (suf : List Byte)
    (hord : Ordinary f.attrs) (ho : OrderOk f.attrs env) (ho' : OrderOk f.attrs ed) (hu : f.attrs.untake = true) (hb : f.attrs.bits = none)
    (hoff : f.attrs.offset = none) (hi : f.attrs.ifExpr = none)
    (hr : ∀ pre : List Byte, pre.length + suf.length ≤ isizeMax → ∃ x p,
      f.dec cd (ownModifiers f.attrs ed) ⟨pre ++ suf, pre.length⟩ = (.ok x, ⟨pre ++ suf, p⟩) ∧
      finalValue f ed x = v) (hc : Checked f ed v) : FieldRT f ce cd env ed v [] suf := by
  refine ⟨⟨ownModifiers f.attrs env, toCode_ok _ _ ho, ?_⟩, ⟨ownModifiers f.attrs ed, toCode_ok _ _ ho', ?_⟩⟩
  · intro pre _
    obtain ⟨h1, h2, h3, h4, h5, h6⟩ := hord
    exact ⟨0, by simp [encField, h2, h3, h4, encText, h6, hb, hu, pure_apply, bind_apply]⟩
  · intro pre hp
    obtain ⟨x, p, e, hx⟩ := hr pre (by simpa using hp)
    obtain ⟨h1, h2, h3, h4, h5, h6⟩ := hord
    have := (C42_decoded f ed cd (ownModifiers f.attrs ed) hoff h1 h3 h5 h6 (by rw [hi]; intro c h; cases h)
      ⟨pre ++ suf, pre.length⟩ _ x e _ rfl).1 (by rw [hx]; exact hc)
    rw [hx, hu] at this
    simpa using this

/-- C43 (custom functions): a `with` field without offset round trips if its functions do. -/
theorem C43_field_with (f : Field V) (ce cd : Option CAttr) (env ed : Env V) (v : V) (w suf : List Byte)
    (ho : OrderOk f.attrs env) (ho' : OrderOk f.attrs ed) (hoff : f.attrs.offset = none) (de : Env V → Dec V) (en : Env V → Enc V)
    (hd : f.attrs.withDecode = some de) (he : f.attrs.withEncode = some en)
    (hw : Writes (en env v ce (ownModifiers f.attrs env)) w)
    (hr : Reads (de ed cd (ownModifiers f.attrs ed)) v w suf) : FieldRT f ce cd env ed v w suf := by
  refine ⟨⟨ownModifiers f.attrs env, toCode_ok _ _ ho, ?_⟩, ⟨ownModifiers f.attrs ed, toCode_ok _ _ ho', ?_⟩⟩
  · exact hw.congr fun b => by simp [encField, he]
  · exact hr.congr fun b _ => by simp [decField, skipOffset, hoff, hd, bind_apply, pure_apply]

/-! ## Bit-field groups as segments -/

/-- A field holding one member of a bit-field group: an integer of kind `k`, injected into the field values by
`inj`, with the modifiers of the member.  `u` is the value of the field and `m.v` what stands on the wire for it:
`value_encode` turns the one into the other, `value_decode` turns it back. -/
structure IsMember (inj : Nat → V) (k : IntKind) (env : Env V) (f : Field V) (m : BitMember) (u : V) : Prop where
  dec : ∀ ca fa, f.dec ca fa = mapM' inj (decInt k ca fa)
  enc : ∀ n ca fa, f.enc (inj n) ca fa = encInt k n ca fa
  ordinary : Ordinary f.attrs
  order : OrderOk f.attrs env
  own : ownModifiers f.attrs env = some m.fr
  bits : f.attrs.bits.isSome = true
  offset : f.attrs.offset = none
  ifExpr : f.attrs.ifExpr = none
  sent : sentValue f.attrs env u = inj m.v
  final : finalValue f env (inj m.v) = u
  checked : Checked f env u
  variableName : f.attrs.variableName = none

/-- The fields of a group, with their values: every one but the last is `untake`. -/
def IsGroup (inj : Nat → V) (k : IntKind) : Env V → List (Field V) → List BitMember → List V → Prop
  | env, [f], [m], [u] => IsMember inj k env f m u ∧ f.attrs.untake = false
  | env, f :: g :: fs, m :: ms, u :: us =>
    IsMember inj k env f m u ∧ f.attrs.untake = true ∧ IsGroup inj k (env.push u) (g :: fs) ms us
  | _, _, _, _ => False

theorem IsMember.encoded {inj : Nat → V} {k : IntKind} {env : Env V} {f : Field V} {m : BitMember} {u : V}
    (h : IsMember inj k env f m u) (ca : Option CAttr) (b : Buf) :
    fieldEnc f ca env u b = encInt k m.v ca (some m.fr) b := by
  rw [fieldEnc, bind_apply, toCode_ok _ _ h.order, h.own]
  simp only
  rw [encField_plain f env _ ca _ h.ordinary (.inr h.bits), bind_apply, encPlain_eq, bind_apply]
  have e1 : padOffset f.attrs env b = (.ok (), b) := by simp only [padOffset, h.offset, pure_apply]
  rw [e1, h.sent]
  simp only
  rw [h.enc]
  rcases encInt k m.v ca (some m.fr) b with ⟨o, b1⟩
  cases o <;> simp [pure_apply]

theorem IsMember.decoded {inj : Nat → V} {k : IntKind} {env : Env V} {f : Field V} {m : BitMember} {u : V}
    (h : IsMember inj k env f m u) (ca : Option CAttr) (b b1 : Buf)
    (hd : decInt k ca (some m.fr) b = (.ok m.v, b1)) :
    fieldStep f ca env b = (.ok u, if f.attrs.untake then ⟨b1.data, b.pos⟩ else b1) := by
  rw [fieldStep, bind_apply, toCode_ok _ _ h.order, h.own]
  simp only
  obtain ⟨h1, h2, h3, h4, h5, h6⟩ := h.ordinary
  have e : f.dec ca (some m.fr) b = (.ok (inj m.v), b1) := by rw [h.dec, mapM'_apply, hd]
  have := (C42_decoded f env ca (some m.fr) h.offset h1 h3 h5 h6 (by rw [h.ifExpr]; intro c hc; cases hc)
    b b1 _ e _ rfl).1 (by rw [h.final]; exact h.checked)
  rw [this, h.final]

theorem IsGroup.encoded {inj : Nat → V} {k : IntKind} (ca : Option CAttr) : ∀ (ms : List BitMember)
    (fs : List (Field V)) (us : List V) (env : Env V), IsGroup inj k env fs ms us →
    fs.length = us.length ∧ ∀ b, encFields false fs ca none env us b = encGroup k ca ms b := by
  intro ms
  induction ms with
  | nil => intro fs us env h; rcases fs with _ | ⟨f, _ | ⟨g, fs⟩⟩ <;> exact h.elim
  | cons m ms ih =>
    intro fs us env h
    have key : ∀ f fs u us, IsMember inj k env f m u → (fs.length = us.length ∧
        ∀ b, encFields false fs ca none (env.push u) us b = encGroup k ca ms b) →
        ((f :: fs).length = (u :: us).length ∧
        ∀ b, encFields false (f :: fs) ca none env (u :: us) b = encGroup k ca (m :: ms) b) := by
      intro f fs u us hm r
      refine ⟨by simpa using r.1, fun b => ?_⟩
      rw [encFields_cons, bind_apply, hm.encoded, encGroup, bind_apply]
      rcases encInt k m.v ca (some m.fr) b with ⟨o, b1⟩
      cases o with
      | ok n => simp only [bind_apply, r.2]
      | _ => rfl
    rcases fs with _ | ⟨f, _ | ⟨g, fs⟩⟩
    · exact h.elim
    · rcases ms with _ | ⟨m', ms⟩ <;> rcases us with _ | ⟨u, _ | ⟨u', us⟩⟩ <;> try exact h.elim
      exact key f [] u [] h.1 ⟨rfl, fun b => rfl⟩
    · rcases us with _ | ⟨u, us⟩
      · exact h.elim
      · exact key f (g :: fs) u us h.1 (ih _ _ _ h.2.2)

theorem IsGroup.decoded {inj : Nat → V} {k : IntKind} (hk : k.Valid) (hu : k.signed = false) (ca : Option CAttr)
    (o : ByteOrder) (w : Nat) (hw : w < 256 ^ k.size) (suf : List Byte) : ∀ (ms : List BitMember)
    (fs : List (Field V)) (us : List V) (env : Env V), IsGroup inj k env fs ms us → (∀ m ∈ ms, m.Good k ca o) →
    (∀ m ∈ ms, (w &&& m.mask) / 2 ^ m.t = m.v) →
    Reads (decFields false fs ca none env) us (toBytes o k.size w) suf := by
  intro ms
  induction ms with
  | nil => intro fs us env h; rcases fs with _ | ⟨f, _ | ⟨g, fs⟩⟩ <;> exact h.elim
  | cons m ms ih =>
    intro fs us env h hg hv pre hp
    have e := decInt_member k hk hu ca o m (hg m (by simp)) w hw suf pre hp
    rw [hv m (by simp)] at e
    rcases fs with _ | ⟨f, _ | ⟨g, fs⟩⟩
    · exact h.elim
    · rcases ms with _ | ⟨m', ms⟩ <;> rcases us with _ | ⟨u, _ | ⟨u', us⟩⟩ <;> try exact h.elim
      have d := h.1.decoded ca _ _ e
      rw [h.2] at d
      rw [decFields_cons, bind_apply, d]
      rfl
    · rcases us with _ | ⟨u, us⟩
      · exact h.elim
      · have d := h.1.decoded ca _ _ e
        rw [h.2.1] at d
        have r := ih (g :: fs) us _ h.2.2 (fun x hx => hg x (by simp [hx])) (fun x hx => hv x (by simp [hx])) pre hp
        rw [decFields_cons, bind_apply, d]
        simp only [if_true, cacheVars, h.1.variableName]
        rw [bind_apply, r]
        rfl

/-- C43 (bit-field group): consecutive members with pairwise disjoint masks and fitting values are a segment: they
share one word, that holds each of them at its mask and nothing outside the masks.  A member may have `value_encode`,
`value_decode` and a check. -/
theorem C43_group_segment (inj : Nat → V) (k : IntKind) (hk : k.Valid) (h8 : k.size ≤ 8) (hu : k.signed = false)
    (ce cd : Option CAttr) (o : ByteOrder) (env ed : Env V) (fs : List (Field V)) (m : BitMember) (ms : List BitMember)
    (us : List V) (hfs : IsGroup inj k env fs (m :: ms) us) (hfd : IsGroup inj k ed fs (m :: ms) us)
    (hg : ∀ x ∈ m :: ms, x.Good k ce o ∧ x.Good k cd o) (hf : ∀ x ∈ m :: ms, x.Fits)
    (hstart : m.fr.bitsStart = true) (hrest : ∀ x ∈ ms, x.fr.bitsStart = false)
    (hd : (m :: ms).Pairwise (fun a b => a.mask &&& b.mask = 0)) (suf : List Byte) :
    ∃ w, w < 256 ^ k.size ∧ (∀ x ∈ m :: ms, w &&& x.mask = x.v * 2 ^ x.t) ∧
      (∀ other, (∀ x ∈ m :: ms, other &&& x.mask = 0) → w &&& other = 0) ∧
      SegRT fs ce cd env ed us (toBytes o k.size w) suf := by
  obtain ⟨w, hw, hm, hz, he, -⟩ := C24_group_roundtrip k hk h8 hu ce o m ms (fun x hx => (hg x hx).1) hf hstart hrest hd
  obtain ⟨hl, hen⟩ := hfs.encoded ce
  refine ⟨w, hw, hm, hz, hl, ?_, ?_⟩
  · intro pre hp
    rw [toBytes_length] at hp ⊢
    exact ⟨_, by rw [hen, he pre hp]⟩
  · refine hfd.decoded hk hu cd o w hw suf _ _ _ _ (fun x hx => (hg x hx).2) (fun x hx => ?_)
    rw [hm x hx]
    exact Nat.mul_div_cancel _ (Nat.pow_pos (by omega))

/-! ## A struct that round trips, for all its values -/

/-- `n: u8; #[offset = 2, full = 0xEE, length = "n"] s: Vec<u8>; #[bits = 0xF0, bits_start, untake] hi: u8;
#[bits = 0x0F] lo: u8; #[skip] z: u8; #[byteorder = "LE", value_encode/decode = "+ 1"/"- 1"] x: u16`. -/
def packet : StructDef Val :=
  { fields := [
      u8Field {},
      bytesField { isUse := true, offset := some fun _ => 2, full := 0xEE, length := some fun env => env.num 0 },
      u8Field { isUse := true, bits := some fun _ => 0xF0, bitsStart := true, untake := true },
      u8Field { isUse := true, bits := some fun _ => 0x0F },
      u8Field { isUse := true, skip := true },
      u16Field { isUse := true, byteorder := some (.lit .le)
                 valueEncode := some fun _ v => match v with | .num n => .num (n + 1) | v => v
                 valueDecode := some fun _ v => match v with | .num n => .num (n - 1) | v => v }] }

theorem Reads.mapped {α β : Type} {d : M α} {a : α} {w suf : List Byte} (h : Reads d a w suf) (f : α → β) :
    Reads (mapM' f d) (f a) w suf := by
  intro pre hp
  rw [mapM'_apply, h pre hp]

theorem int_writes (k : IntKind) (hk : k.Valid) (n : Nat) (ca : Option CAttr) (fa : Option FAttr)
    (hb : fa.bind (·.bits) = none) (hl : fa.bind (·.length) = none) :
    Writes (encInt k n ca fa) (toBytes (effectiveOrder ca fa) k.size n) := by
  have e := (((C19_byteorder ca fa _ rfl).1 k n hb hl)).2
  rw [e, ← scalar_size hk]
  exact (Appends.scalar _ _ _).writes

theorem int_reads (k : IntKind) (hk : k.Valid) (n : Nat) (ca : Option CAttr) (fa : Option FAttr) (suf : List Byte)
    (hb : fa.bind (·.bits) = none) (hl : fa.bind (·.length) = none) (hn : n < 256 ^ k.size) :
    Reads (decInt k ca fa) n (toBytes (effectiveOrder ca fa) k.size n) suf := by
  have e := (((C19_byteorder ca fa _ rfl).1 k n hb hl)).1
  rw [e, ← scalar_size hk]
  exact Reads.scalar _ _ _ _ (by rw [scalar_size hk]; exact hn)

/-- The hypotheses of `C43_struct_roundtrip` are met by every value of `packet` within its ranges. -/
theorem packet_segments (s : List Byte) (hi lo x : Nat) (hs : s.length < 256) (hhi : hi < 16) (hlo : lo < 16)
    (hx : x + 1 < 65536) (suf : List Byte) :
    ∃ w, Segments none packet.fields none { vars := localVars [] none } { vars := localVars [] none }
      [.num s.length, .bytes s, .num hi, .num lo, .num 0, .num x] w suf := by
  obtain ⟨wx, hwx⟩ : ∃ w, w = toBytes .le 2 (x + 1) := ⟨_, rfl⟩
  have c6 : SegRT [packet.fields[5]] none none
      ⟨localVars [] none, [.num s.length, .bytes s, .num hi, .num lo, .num 0]⟩ ⟨localVars [] none, [.num s.length, .bytes s, .num hi, .num lo, .num 0]⟩ [.num x] wx suf := by
    refine C43_field_segment (w := wx) ?_
    rw [hwx]
    have := C43_field_plain packet.fields[5] none none
      ⟨localVars [] none, [.num s.length, .bytes s, .num hi, .num lo, .num 0]⟩ ⟨localVars [] none, [.num s.length, .bytes s, .num hi, .num lo, .num 0]⟩ (.num x) (toBytes .le 2 (x + 1)) suf
      ⟨rfl, rfl, rfl, rfl, rfl, rfl⟩ rfl (by intro e h; cases h) (by intro e h; cases h) rfl
      (int_writes ⟨2, false⟩ (.mk _ _ (by decide)) (x + 1) none (some { byteorder := some .le }) rfl rfl)
      (fun _ => (int_reads ⟨2, false⟩ (.mk _ _ (by decide)) (x + 1) none (some { byteorder := some .le }) suf rfl rfl
        (by simpa using hx)).mapped Val.num)
      (by intro c h; cases h) rfl (by intro c h; cases h)
    exact this
  have c5 : SegRT [packet.fields[4]] none none
      ⟨localVars [] none, [.num s.length, .bytes s, .num hi, .num lo]⟩ ⟨localVars [] none, [.num s.length, .bytes s, .num hi, .num lo]⟩ [.num 0] [] (wx ++ suf) :=
    C43_field_segment (C43_field_skip packet.fields[4] none none _ _ _ (by intro e h; cases h) (by intro e h; cases h) rfl rfl rfl rfl)
  have fits : ∀ (t v : Nat) (ht : t = 4 ∧ v < 16 ∨ t = 0 ∧ v < 16) (fr : FAttr), (⟨fr, t, 7, v⟩ : BitMember).Fits := by
    intro t v ht fr
    show v * 2 ^ t &&& 2 ^ t * (2 * 7 + 1) = v * 2 ^ t
    have : ∀ v : Fin 16, v.val * 2 ^ 4 &&& 2 ^ 4 * (2 * 7 + 1) = v.val * 2 ^ 4 ∧
      v.val * 2 ^ 0 &&& 2 ^ 0 * (2 * 7 + 1) = v.val * 2 ^ 0 := by decide +kernel
    rcases ht with ⟨rfl, h⟩ | ⟨rfl, h⟩
    · exact (this ⟨v, h⟩).1
    · exact (this ⟨v, h⟩).2
  obtain ⟨w4, -, -, -, c4⟩ := C43_group_segment Val.num ⟨1, false⟩ (.mk _ _ (by decide)) (by decide) rfl none none .be
    ⟨localVars [] none, [.num s.length, .bytes s]⟩ ⟨localVars [] none, [.num s.length, .bytes s]⟩ [packet.fields[2], packet.fields[3]]
    ⟨{ bits := some 0xF0, bitsStart := true }, 4, 7, hi⟩ [⟨{ bits := some 0x0F }, 0, 7, lo⟩] [.num hi, .num lo]
    ⟨⟨fun _ _ => rfl, fun _ _ _ => rfl, ⟨rfl, rfl, rfl, rfl, rfl, rfl⟩, (by intro e h; cases h), rfl, rfl, rfl, rfl, rfl, rfl, (by intro c h; cases h), rfl⟩,
      rfl, ⟨fun _ _ => rfl, fun _ _ _ => rfl, ⟨rfl, rfl, rfl, rfl, rfl, rfl⟩, (by intro e h; cases h), rfl, rfl, rfl, rfl, rfl, rfl, (by intro c h; cases h), rfl⟩, rfl⟩
    ⟨⟨fun _ _ => rfl, fun _ _ _ => rfl, ⟨rfl, rfl, rfl, rfl, rfl, rfl⟩, (by intro e h; cases h), rfl, rfl, rfl, rfl, rfl, rfl, (by intro c h; cases h), rfl⟩,
      rfl, ⟨fun _ _ => rfl, fun _ _ _ => rfl, ⟨rfl, rfl, rfl, rfl, rfl, rfl⟩, (by intro e h; cases h), rfl, rfl, rfl, rfl, rfl, rfl, (by intro c h; cases h), rfl⟩, rfl⟩
    (by intro y hy
        simp only [List.mem_cons, List.not_mem_nil, or_false] at hy
        rcases hy with rfl | rfl <;> exact ⟨⟨rfl, rfl, rfl, by simp [BitMember.mask]⟩, ⟨rfl, rfl, rfl, by simp [BitMember.mask]⟩⟩)
    (by intro y hy
        simp only [List.mem_cons, List.not_mem_nil, or_false] at hy
        rcases hy with rfl | rfl
        · exact fits 4 hi (.inl ⟨rfl, hhi⟩) _
        · exact fits 0 lo (.inr ⟨rfl, hlo⟩) _)
    rfl (by intro y hy; simp only [List.mem_cons, List.not_mem_nil, or_false] at hy; rw [hy])
    (by simp [BitMember.mask]) ([] ++ (wx ++ suf))
  obtain ⟨w3, he, hd, -⟩ := C26_framing_roundtrip s (toBytes .be 1 w4 ++ ([] ++ (wx ++ suf))) none
    (some { length := some s.length }) (by exact rfl)
  have c2 : SegRT [packet.fields[1]] none none ⟨localVars [] none, [.num s.length]⟩ ⟨localVars [] none, [.num s.length]⟩ [.bytes s]
      (List.replicate 2 0xEE ++ w3) (toBytes .be 1 w4 ++ ([] ++ (wx ++ suf))) := by
    refine C43_field_segment ?_
    exact C43_field_plain packet.fields[1] none none ⟨localVars [] none, [.num s.length]⟩ ⟨localVars [] none, [.num s.length]⟩ (.bytes s) w3 _
      ⟨rfl, rfl, rfl, rfl, rfl, rfl⟩ rfl (by intro e h; cases h) (by intro e h; cases h) rfl he.writes (fun _ => hd.mapped Val.bytes)
      (by intro c h; cases h) rfl (by intro c h; cases h)
  have c1 : ∀ suf, SegRT [packet.fields[0]] none none ⟨localVars [] none, []⟩ ⟨localVars [] none, []⟩ [.num s.length]
      (toBytes .be 1 s.length) suf := fun suf => C43_field_segment
    (C43_field_plain packet.fields[0] none none ⟨localVars [] none, []⟩ ⟨localVars [] none, []⟩ (.num s.length) (toBytes .be 1 s.length) suf
      ⟨rfl, rfl, rfl, rfl, rfl, rfl⟩ rfl (by intro e h; cases h) (by intro e h; cases h) rfl
      (int_writes ⟨1, false⟩ (.mk _ _ (by decide)) s.length none none rfl rfl)
      (fun _ => (int_reads ⟨1, false⟩ (.mk _ _ (by decide)) s.length none none suf rfl rfl (by simpa using hs)).mapped Val.num)
      (by intro c h; cases h) rfl (by intro c h; cases h))
  refine ⟨toBytes .be 1 s.length ++ ((List.replicate 2 0xEE ++ w3) ++ (toBytes .be 1 w4 ++ ([] ++ (wx ++ [])))), ?_⟩
  refine Segments.cons (fs := [packet.fields[0]]) (vs := [.num s.length]) (c1 _) ?_
  refine Segments.cons (fs := [packet.fields[1]]) (vs := [.bytes s]) (by simp only [List.append_nil] at c2 ⊢; exact c2) ?_
  refine Segments.cons (fs := [packet.fields[2], packet.fields[3]]) (vs := [.num hi, .num lo]) (by simp only [List.append_nil] at c4 ⊢; exact c4) ?_
  refine Segments.cons (fs := [packet.fields[4]]) (vs := [.num 0]) (by simp only [List.append_nil] at c5 ⊢; exact c5) ?_
  refine Segments.cons (fs := [packet.fields[5]]) (vs := [.num x]) (by exact c6) ?_
  exact Segments.nil _ _ _ _

/-- Every value of `packet` within its ranges round trips, whatever follows. -/
example (s : List Byte) (hi lo x : Nat) (hs : s.length < 256) (hhi : hi < 16) (hlo : lo < 16) (hx : x + 1 < 65536)
    (suf : List Byte) : ∃ w, Writes (encStruct packet [.num s.length, .bytes s, .num hi, .num lo, .num 0, .num x] none none) w ∧
      Reads (decStruct packet none none) [.num s.length, .bytes s, .num hi, .num lo, .num 0, .num x] w suf := by
  obtain ⟨w, h⟩ := packet_segments s hi lo x hs hhi hlo hx suf
  exact ⟨w, C43_struct_roundtrip packet rfl rfl (by intro h; cases h) none none none none _ w suf h⟩

example : (encStruct packet [.num 2, .bytes [65, 66], .num 10, .num 5, .num 0, .num 258] none none ⟨[], 0⟩).2
    = ⟨[2, 0xEE, 0xEE, 65, 66, 0xA5, 3, 1], 8⟩ := by decide +kernel

/-! ## Fields that do not round trip -/

/-- What a struct's encoder writes into an empty buffer, and what its decoder makes of it (and the final position). -/
def backAndForth (S : StructDef V) (vs : List V) : List Byte × Out (List V) × Nat :=
  let b := (encStruct S vs none none ⟨[], 0⟩).2
  let r := decStruct S none none ⟨b.data, 0⟩
  (b.data, r.1, r.2.pos)

/-- `#[with_encode, with_decode, offset = 1] x: u8`, the functions being the usual ones. -/
def customField : Field Val := u8Field { isUse := true, offset := some fun _ => 1
                                         withDecode := some fun _ => numDec ⟨1, false⟩
                                         withEncode := some fun _ => numEnc ⟨1, false⟩ }

/-- Fields that do not meet the condition of C43: a `from_str` field is written twice (as text, then as the field); `skip` and `untake` fields
with an `offset` are written without the filler that the decoder skips, and so are fields with custom functions. -/
theorem C43_excluded_modifiers :
    -- `#[from_str] x: u8` and `y: u8`, values 7 and 9; the text of 7 has the default one-byte length prefix
    backAndForth { fields := [u8Field { isUse := true, fromStr := some ((fun t => if t = [55] then some (.num 7) else none), fun _ => [55]) },
        u8Field {}] } [.num 7, .num 9] = ([1, 55, 7, 9], .ok [.num 7, .num 7], 3) ∧
    -- `#[skip, offset = 1] x: u8` and `y: u8`
    backAndForth { fields := [u8Field { isUse := true, skip := true, offset := some (fun _ => 1) }, u8Field {}, u8Field {}] }
      [.num 0, .num 9, .num 8] = ([9, 8], .err ⟨2, .invalidByteLength⟩, 2) ∧
    -- `#[untake, offset = 1] x: u8` and `y: u8`, `z: u8`
    backAndForth { fields := [u8Field { isUse := true, untake := true, offset := some (fun _ => 1) }, u8Field {}, u8Field {}] }
      [.num 8, .num 9, .num 8] = ([9, 8], .err ⟨2, .invalidByteLength⟩, 2) ∧
    -- `#[with, offset = 1] x: u8`
    backAndForth { fields := [customField, u8Field {}] }
      [.num 8, .num 9] = ([8, 9], .err ⟨2, .invalidByteLength⟩, 2) := by decide +kernel

end JBytes
