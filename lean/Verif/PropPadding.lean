import Verif.PropDerive
/-!
# What the reported byte count leaves out: C47, exactly

The bytes pushed for `offset` are not added to the count (derive/src/jbytes/encode.rs:7-18).  They are all that is
missing from it.
-/

namespace JBytes
open M

variable {V : Type}

/-- The filler bytes asked for by the `offset` written on a field or variant. -/
def fillers (a : FieldAttrs V) (env : Env V) : Nat := (a.offset.map (· env)).getD 0

/-- The field is written: it is not skipped, and not merely peeked at when decoding. -/
def IsWritten (a : FieldAttrs V) : Bool := !(a.skip || a.skipEncode) && (a.bits.isSome || !a.untake)

/-- The filler bytes in front of all written fields, each counted where its field stands. -/
def totalFillers (fs : List (Field V)) (env : Env V) (vs : List V) : Nat :=
  ((List.range fs.length).map fun i => match fs[i]? with
    | some f => if IsWritten f.attrs then fillers f.attrs (env.extend (vs.take i)) else 0
    | none => 0).sum

theorem totalFillers_cons (f : Field V) (fs : List (Field V)) (env : Env V) (v : V) (vs : List V) :
    totalFillers (f :: fs) env (v :: vs)
      = (if IsWritten f.attrs then fillers f.attrs env else 0) + totalFillers fs (env.push v) vs := by
  unfold totalFillers
  rw [List.length_cons, List.range_succ_eq_map]
  simp only [List.map_cons, List.map_map, List.sum_cons, List.getElem?_cons_zero, List.take_zero, Env.extend_nil]
  congr 2
  apply List.map_congr_left
  intro i _
  simp only [Function.comp_apply, List.getElem?_cons_succ, List.take_succ_cons, Env.push_extend]

theorem emits_fillers (a : FieldAttrs V) (env : Env V) :
    Emits (fun _ k => k = fillers a env) (padOffset a env) := by
  unfold padOffset fillers
  cases a.offset with
  | none => exact Emits.pure _ rfl
  | some e => exact Emits.padLoop _ _

theorem emits_fieldFillers {f : Field V} {env : Env V} {v : V} {ca : Option CAttr} {fa : Option FAttr}
    (ha : EncOk false f.attrs) (h : ∀ v, Emits (Cnt true) (f.enc v ca fa)) :
    Emits (fun n k => k = n + if IsWritten f.attrs then fillers f.attrs env else 0)
      (encField f env v ca fa) := by
  unfold JBytes.encField
  rw [ha.custom]
  simp only
  by_cases hs : (f.attrs.skip || f.attrs.skipEncode) = true
  · rw [if_pos hs]
    exact Emits.pure _ (by simp [IsWritten, hs])
  · rw [if_neg hs]
    have ht : Emits (Cnt true) (encText f.attrs v ca fa) := by
      unfold encText
      split
      · exact Emits.encBytes _ ca fa
      · exact Emits.zero
    have hp : Emits (fun n k => k = n + fillers f.attrs env) (encPlain f env v ca fa) := by
      unfold encPlain
      refine (emits_fillers f.attrs env).bind fun _ k hk => ?_
      have hs : ∀ v, Emits (fun b l => k + l = b + fillers f.attrs env) (f.enc v ca fa) := fun v =>
        (h v).mono fun b l hb => by rw [hb rfl, hk]; omega
      split
      · exact hs _
      · exact hs _
    refine ht.bind fun n k hn => ?_
    have hn := hn rfl
    by_cases hw : (f.attrs.bits.isSome || !f.attrs.untake) = true
    · rw [if_pos hw]
      refine hp.bind fun m l hm => Emits.pure _ ?_
      have : IsWritten f.attrs = true := by simp [IsWritten, hs, hw]
      rw [if_pos this]
      omega
    · rw [if_neg hw]
      refine Emits.pure _ ?_
      have : ¬ IsWritten f.attrs = true := by simp [IsWritten, hw]
      rw [if_neg this]
      omega

theorem emits_fieldsFillers (keep : Bool) : ∀ (fs : List (Field V)) (ca : Option CAttr) (old : Option FAttr)
    (env : Env V) (vs : List V), StartsWord old → fs.length = vs.length →
    (∀ f ∈ fs, EncOk false f.attrs ∧ ∀ v ca fa, StartsWord fa → Emits (Cnt true) (f.enc v ca fa)) →
    Emits (fun n k => k = n + totalFillers fs env vs) (encFields keep fs ca old env vs) := by
  intro fs
  induction fs with
  | nil => intro ca old env vs _ _ _; rw [JBytes.encFields.eq_def]; exact Emits.pure _ rfl
  | cons f fs ih =>
    intro ca old env vs ho hl hf
    cases vs with
    | nil => simp at hl
    | cons v vs =>
      rw [JBytes.encFields.eq_def]
      simp only
      have hstart : Emits (fun fa k => k = 0 ∧ StartsWord fa)
          (if (keep && !f.attrs.isUse) = true then (Pure.pure old : M _) else f.attrs.toCode env) := by
        split
        · exact Emits.pure _ ⟨rfl, ho⟩
        · exact Emits.toCode (hf f (by simp)).1 env
      refine hstart.bind fun fa k hk => ?_
      obtain ⟨rfl, hfa⟩ := hk
      simp only [Nat.zero_add]
      refine (emits_fieldFillers (env := env) (v := v) (hf f (by simp)).1
        fun v => (hf f (by simp)).2 v ca fa hfa).bind fun n k hn => ?_
      refine (ih ca fa (env.push v) vs hfa (by simpa using hl)
        fun g hg => hf g (List.mem_cons_of_mem _ hg)).bind fun m l hm => Emits.pure _ ?_
      rw [totalFillers_cons]
      omega

/-- C47 for structs, exactly: when the codecs of the fields report what they write, the buffer grows by the reported
count and the filler bytes of `offset`, which nobody counts. -/
theorem C47_struct_exact (S : StructDef V) (hw : S.withEncode = none) (ha : ∀ f ∈ S.fields, EncOk false f.attrs)
    (he : ∀ f ∈ S.fields, Encodable true V f.enc) (vs : List V) (hl : S.fields.length = vs.length)
    (ca : Option CAttr) (fa : Option FAttr) (pre : List Byte) (hp : pre.length ≤ isizeMax) (n : Nat) (b' : Buf)
    (h : encStruct S vs ca fa ⟨pre, pre.length⟩ = (.ok n, b')) :
    b'.data.length = pre.length + n + totalFillers S.fields { vars := localVars S.getVars ca } vs := by
  unfold encStruct at h
  rw [hw] at h
  obtain ⟨w, rfl, _, hn⟩ := emits_fieldsFillers false S.fields S.container none { vars := localVars S.getVars ca } vs
    StartsWord.none hl (fun f hf => ⟨ha f hf, fun v ca fa hb => (he f hf).emits v ca fa hb⟩) pre n b' hp h
  simp only [List.length_append] at *
  omega

/-- C47 for enums, exactly: the same, with the filler bytes asked for on the variant itself. -/
theorem C47_enum_exact (E : EnumDef V) (i num : Nat) (v : Variant V) (hi : (E.variants.zip E.numbers)[i]? = some (v, num))
    (hv : EncOk false v.attrs) (ha : ∀ f ∈ v.fields, EncOk false f.attrs)
    (he : ∀ f ∈ v.fields, Encodable true V f.enc) (vs : List V) (hl : v.fields.length = vs.length)
    (ca : Option CAttr) (fa : Option FAttr) (pre : List Byte) (hp : pre.length ≤ isizeMax) (n : Nat) (b' : Buf)
    (h : encEnum E (i, vs) ca fa ⟨pre, pre.length⟩ = (.ok n, b')) :
    b'.data.length = pre.length + n + (fillers v.attrs { vars := localVars E.getVars ca }
      + totalFillers v.fields { vars := localVars E.getVars ca } vs) := by
  unfold encEnum at h
  simp only [hi] at h
  have key : Emits (fun n k => k = n + (fillers v.attrs { vars := localVars E.getVars ca }
      + totalFillers v.fields { vars := localVars E.getVars ca } vs)) (encVariant E v num vs ca fa) := by
    unfold encVariant
    simp only
    refine (Emits.toCode hv _).bind fun old k hk => ?_
    obtain ⟨rfl, hold⟩ := hk
    simp only [Nat.zero_add]
    refine (Emits.encTagMode (c := true) E v num ca fa).bind fun n k1 hn => ?_
    refine (emits_fillers v.attrs _).bind fun _ k2 h2 => ?_
    refine (emits_fieldsFillers true v.fields E.container old { vars := localVars E.getVars ca } vs hold hl
      (fun f hf => ⟨ha f hf, fun v ca fa hb => (he f hf).emits v ca fa hb⟩)).bind fun m k3 hm => Emits.pure _ ?_
    have hn := hn rfl
    omega
  obtain ⟨w, rfl, _, hn⟩ := key pre n b' hp h
  simp only [List.length_append] at *
  omega

/-- C47 for structs, exactly when it holds: the reported count is the number of bytes written precisely when no
filler byte is asked for. -/
theorem C47_struct_iff (S : StructDef V) (hw : S.withEncode = none) (ha : ∀ f ∈ S.fields, EncOk false f.attrs)
    (he : ∀ f ∈ S.fields, Encodable true V f.enc) (vs : List V) (hl : S.fields.length = vs.length)
    (ca : Option CAttr) (fa : Option FAttr) (pre : List Byte) (hp : pre.length ≤ isizeMax) (n : Nat) (b' : Buf)
    (h : encStruct S vs ca fa ⟨pre, pre.length⟩ = (.ok n, b')) :
    pre.length + n = b'.data.length ↔ ∀ i (_ : i < S.fields.length), IsWritten S.fields[i].attrs = true →
      fillers S.fields[i].attrs { vars := localVars S.getVars ca, fields := vs.take i } = 0 := by
  have := C47_struct_exact S hw ha he vs hl ca fa pre hp n b' h
  have h0 : pre.length + n = b'.data.length ↔ totalFillers S.fields { vars := localVars S.getVars ca } vs = 0 := by
    omega
  rw [h0]
  unfold totalFillers
  rw [List.sum_eq_zero_iff_forall_eq_nat]
  simp only [List.mem_map, List.mem_range]
  constructor
  · intro h i hi hwr
    have := h _ ⟨i, hi, rfl⟩
    rw [List.getElem?_eq_getElem hi] at this
    simp only [hwr, if_true] at this
    simpa [Env.extend] using this
  · rintro h _ ⟨i, hi, rfl⟩
    rw [List.getElem?_eq_getElem hi]
    simp only
    split
    · rename_i hwr
      have := h i hi hwr
      simpa [Env.extend] using this
    · rfl

/-- Two filler bytes in front of one of two fields: 4 bytes are written, 2 are reported. -/
example : encStruct { fields := [u8Field { isUse := true, offset := some fun _ => 2 }, u8Field {}] }
      [.num 5, .num 6] none none ⟨[9], 1⟩ = (.ok 2, ⟨[9, 0, 0, 5, 6], 5⟩) ∧
    totalFillers [u8Field { isUse := true, offset := some fun _ => 2 }, u8Field {}] {} [.num 5, .num 6] = 2 ∧
    EncOk false (u8Field { isUse := true, offset := some fun _ => 2 }).attrs := by
  refine ⟨by decide +kernel, by decide +kernel, ⟨rfl, .inl rfl, fun h => (by cases h)⟩⟩

end JBytes
