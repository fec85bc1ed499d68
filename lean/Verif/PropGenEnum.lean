import Verif.GenEnum
import Verif.PropGenEncode
import Verif.PropEnumText
/-!
# Generated decoders and encoders of enums do what the model of derive says (C83), and when they are accepted (C84)
-/

namespace JBytes
open M

variable {V : Type} {U : UsizeIn V}

/-! ## The variants in both models -/

theorem toVariant_restart (v : GenVariant V) : v.toVariant.restart = v.tag.restart := rfl

theorem toVariant_numbers : ∀ (n : Nat) (vs : List (GenVariant V)),
    variantNumbers n (vs.map (·.toVariant)) = variantNumbers n (vs.map (·.tag))
  | _, [] => rfl
  | n, v :: vs => by
    show v.toVariant.restart.getD n :: variantNumbers (v.toVariant.restart.getD n + 1) (vs.map (·.toVariant)) = _
    rw [toVariant_numbers _ vs]
    rfl

theorem toDef_numbers (E : GenEnum V) : E.toDef.numbers = E.numbers := toVariant_numbers 0 E.variants

/-- The struct with the fields of a variant. -/
def GenVariant.asStruct (E : GenEnum V) (v : GenVariant V) : GenStruct V :=
  { container := E.container, getVars := E.getVars, shape := v.shape, fields := v.fields }

/-- Names in an enum: those of the fields as for structs, and variables are not called like a helper that is made for the
tag. -/
structure GenEnum.Hygienic (E : GenEnum V) : Prop where
  vars : ∀ s ∈ E.getVars, Clear s.toList ∧ s.toList ≠ nCattr ∧ s.toList ≠ nCr ∧ s.toList ≠ nValue
  tag : ∀ s ∈ E.getVars, s.toList ≠ nFattr ∧ s.toList ≠ nData ∧ s.toList ≠ nByteCount
  variants : ∀ v ∈ E.variants, (v.asStruct E).Hygienic

theorem tagLocals_sees {vs : List String} {L : Locals V} {ca : Option CAttr} {env : Env V} (m : TagMode)
    (hv : ∀ s ∈ vs, s.toList ≠ nData ∧ s.toList ≠ nByteCount ∧ s.toList ≠ nValue) (h : Sees U vs [] L ca env) :
    Sees U vs [] (tagLocals m L) ca env := by
  unfold tagLocals
  cases m with
  | startsWith u => exact h.push _ (by simp) (fun s hs => (hv s hs).1) (by decide) (by decide)
  | takeBytes n => exact h.push _ (by simp) (fun s hs => (hv s hs).2.2) (by decide) (by decide)
  | uint =>
    exact (h.push _ (by simp) (fun s hs => (hv s hs).2.2) (by decide) (by decide)).push _ (by simp) (fun s hs => (hv s hs).2.1)
      (by decide) (by decide)

theorem variant_run {E : GenEnum V} {v : GenVariant V} (hh : (v.asStruct E).Hygienic) {L : Locals V} {ca : Option CAttr} {env : Env V}
    (h : Sees U E.getVars [] L ca env) (he : env.fields = []) (i : Nat) :
    v.runDecode U E.getVars L i = decVariant ca env i v.toVariant := by
  have hvc : ∀ s ∈ E.getVars, Clear s.toList := fun s hs => (hh.vars s hs).1
  show (runAll U E.getVars (Stmt.modifiers [] v.tag.attrs :: (emitOffset [] v.tag.attrs ++ emitFields (v.shape == .tuple) []
    (withLocals v.shape 0 v.fields))) L >>= _) = (v.tag.attrs.toCode env >>= fun fa => skipOffset v.tag.attrs env >>= fun _ =>
      decFields (v.shape == .tuple) (v.fields.map (·.field)) ca fa env >>= fun vs => Pure.pure (i, vs))
  have e0 : ∀ {β : Type} (K : Locals V → M β), (runAll U E.getVars (Stmt.modifiers [] v.tag.attrs :: (emitOffset [] v.tag.attrs ++
      emitFields (v.shape == .tuple) [] (withLocals v.shape 0 v.fields))) L >>= K) =
      (v.tag.attrs.toCode env >>= fun fa => runAll U E.getVars (emitOffset [] v.tag.attrs ++ emitFields (v.shape == .tuple) []
        (withLocals v.shape 0 v.fields)) ((nFattrNew, LocalVal.fattr fa) :: L) >>= K) := by
    intro β K
    show (((v.tag.attrs.toCode (envAt U E.getVars [] L) >>= fun fa => Pure.pure ((nFattrNew, LocalVal.fattr fa) :: L)) >>= _) >>= K) = _
    rw [h.envAt, m_bind_assoc, m_bind_assoc]
    rfl
  rw [e0]
  refine m_bind_congr fun fa => ?_
  have h1 : Sees U E.getVars [] ((nFattrNew, LocalVal.fattr fa) :: L) ca env :=
    h.push _ (by simp) (fun s hs => (hvc s hs).2.2.2.1) (by decide) (by decide)
  rw [runAll_append, m_bind_assoc, emitOffset_run h1]
  refine m_bind_congr fun _ => ?_
  have ef : v.fields.map (·.field) = (withLocals v.shape 0 v.fields).map (·.2.field) := by
    conv => lhs; rw [← withLocals_fields v.shape 0 v.fields, List.map_map]
    rfl
  rw [ef]
  refine emitFields_run (v.shape == .tuple) hvc (withLocals v.shape 0 v.fields) [] _ ca fa env true h1
    (fun _ => by unfold fattrAt; rw [lookup_here]) (fun _ => ?_) hh.clear (fun y hy => by cases hy)
    (withLocals_nodup _ _ _ hh.distinct) hh.away fun ws L' hL => ?_
  · have : ∀ fs : List (Field V), Prepared true fs := by
      intro fs
      induction fs with
      | nil => trivial
      | cons f fs ih => exact ⟨fun _ => by simp, by simpa using ih⟩
    exact this _
  · rw [he] at hL
    unfold construct
    rw [List.nil_append, List.nil_append] at hL
    rw [hL]
    rfl

theorem chain_run {E : GenEnum V} (hh : ∀ v ∈ E.variants, (v.asStruct E).Hygienic) {L : Locals V} {ca : Option CAttr}
    {env : Env V} (h : Sees U E.getVars [] L ca env) (he : env.fields = []) (untake : Bool) (data : List Byte) :
    ∀ (vs : List (GenVariant V)) (i : Nat), (∀ v ∈ vs, v ∈ E.variants) →
      runChain U E.getVars untake L data i vs = (match findWord data i (vs.map (·.toVariant)) with
        | some (i, v) =>
          if untake || v.branchDefault then decVariant ca env i v
          else do
            advance v.word.length
            decVariant ca env i v
        | none => fail .fail)
  | [], i, _ => rfl
  | v :: vs, i, hm => by
    have ev := variant_run (hh v (hm v (by simp))) h he i
    show (if v.tag.branchDefault = true then v.runDecode U E.getVars L i
      else if v.tag.word.isPrefixOf data = true then
        (onInput L (if untake = true then Pure.pure () else M.advance v.tag.word.length) >>= fun _ => v.runDecode U E.getVars L i)
      else runChain U E.getVars untake L data (i + 1) vs) = (match (if (v.tag.branchDefault || v.tag.word.isPrefixOf data) = true then
        some (i, v.toVariant) else findWord data (i + 1) (vs.map (·.toVariant))) with
        | some (i, v) =>
          if untake || v.branchDefault then decVariant ca env i v
          else do
            advance v.word.length
            decVariant ca env i v
        | none => fail .fail)
    rw [ev, chain_run hh h he untake data vs (i + 1) fun w hw => hm w (by simp [hw])]
    cases hd : v.tag.branchDefault with
    | true =>
      rw [if_pos rfl]
      show _ = (if (untake || v.tag.branchDefault) = true then decVariant ca env i v.toVariant else _)
      rw [hd, Bool.or_true, if_pos rfl]
    | false =>
      rw [if_neg (by simp)]
      by_cases hw : v.tag.word.isPrefixOf data = true
      · rw [if_pos hw, hw]
        show _ = (if (untake || v.tag.branchDefault) = true then decVariant ca env i v.toVariant
          else (advance v.tag.word.length >>= fun _ => decVariant ca env i v.toVariant))
        rw [hd, Bool.or_false]
        unfold onInput
        rw [if_pos h.reader]
        cases untake with
        | true => rfl
        | false => rfl
      · rw [if_neg hw]
        have : v.tag.word.isPrefixOf data = false := Bool.eq_false_iff.mpr hw
        rw [this]
        rfl

theorem match_run {E : GenEnum V} (hh : ∀ v ∈ E.variants, (v.asStruct E).Hygienic) {L : Locals V} {ca : Option CAttr}
    {env : Env V} (h : Sees U E.getVars [] L ca env) (he : env.fields = []) (t : Tag) :
    ∀ (vs : List (GenVariant V)) (ns : List Nat) (i : Nat), (∀ v ∈ vs, v ∈ E.variants) →
      runMatch U E.getVars L t i (vs.zip ns) = (match findArm t i ((vs.map (·.toVariant)).zip ns) with
        | some (i, v) => decVariant ca env i v
        | none => fail .invalidByteLength)
  | [], ns, i, _ => by cases ns <;> rfl
  | v :: vs, [], i, _ => rfl
  | v :: vs, n :: ns, i, hm => by
    have ev := variant_run (hh v (hm v (by simp))) h he i
    show (if (v.tag.pat n).test t = true then v.runDecode U E.getVars L i else runMatch U E.getVars L t (i + 1) (vs.zip ns)) =
      (match (if (v.tag.pat n).test t = true then some (i, v.toVariant) else findArm t (i + 1) ((vs.map (·.toVariant)).zip ns)) with
        | some (i, v) => decVariant ca env i v
        | none => fail .invalidByteLength)
    rw [ev, match_run hh h he t vs ns (i + 1) fun w hw => hm w (by simp [hw])]
    by_cases ht : (v.tag.pat n).test t = true
    · rw [if_pos ht, if_pos ht]
    · rw [if_neg ht, if_neg ht]

/-- **C83** (decoders of enums): with hygienic names the generated decoder of an enum does what `decEnum` says, whatever the
names are. -/
theorem C83_enum_partial (U : UsizeIn V) (E : GenEnum V) (h : E.Hygienic) (ca : Option CAttr) (fa : Option FAttr) :
    E.runDecode U ca fa = decEnum E.toDef ca fa := by
  unfold GenEnum.runDecode decEnum
  cases hw : E.withDecode with
  | some g =>
    have : E.toDef.withDecode = some g := hw
    rw [this]
  | none =>
    have : E.toDef.withDecode = none := hw
    rw [this]
    show (runAll U E.getVars E.decodeHead (decodeParams ca fa) >>= _) = _
    have e0 : runAll U E.getVars E.decodeHead (decodeParams ca fa) = runAll U E.getVars (E.getVars.map Stmt.getVar)
        ((nCattrNew, LocalVal.cattr E.container) :: decodeParams ca fa) := rfl
    rw [e0]
    refine getVars_run ca [] E.getVars _ (fun s hs => ⟨(h.vars s hs).1, (h.vars s hs).2.1⟩) rfl E.container rfl rfl
      (fun s hs => by cases hs) _ fun L hr hc hv hl => ?_
    have hs : Sees U E.getVars [] L E.container { vars := localVars E.getVars ca } := by
      refine ⟨hr, hc, rfl, ?_⟩
      unfold localVars
      refine List.map_congr_left fun s hs => ?_
      rw [hv s (by simpa using hs)]
      rfl
    have hs' := tagLocals_sees E.mode (fun s hs => ⟨(h.tag s hs).2.1, (h.tag s hs).2.2, (h.vars s hs).2.2.2⟩) hs
    have hca : cattrAt L nCattr = some ca := by
      unfold cattrAt
      rw [hl nCattr fun s hs => Ne.symm (h.vars s hs).2.1]
      rfl
    have hfa : fattrAt L nFattr = some fa := by
      unfold fattrAt
      rw [hl nFattr fun s hs => Ne.symm (h.tag s hs).1]
      rfl
    have hz : ∀ t, runMatch U E.getVars (tagLocals E.mode L) t 0 (E.variants.zip E.numbers) =
        decArm E.toDef { vars := localVars E.getVars ca } t := by
      intro t
      rw [match_run h.variants hs' rfl t E.variants E.numbers 0 (fun v hv => hv), ← toDef_numbers]
      rfl
    have em : E.toDef.mode = E.mode := rfl
    simp only [em]
    cases hm : E.mode with
    | startsWith u =>
      rw [hm] at hs'
      show (onInput L remaining >>= _) = (remaining >>= _)
      unfold onInput
      rw [if_pos hr]
      refine m_bind_congr fun data => ?_
      exact chain_run h.variants hs' rfl u data E.variants 0 fun v hv => hv
    | takeBytes n =>
      rw [hm] at hz
      show (onInput L (takeBytes n) >>= _) = (takeBytes n >>= _)
      unfold onInput
      rw [if_pos hr]
      exact m_bind_congr fun x => hz _
    | uint =>
      rw [hm] at hz
      show (readTag L >>= _) = (decTag E.container ca fa >>= _)
      unfold readTag
      rw [hr, hc, hca, hfa]
      exact m_bind_congr fun x => hz _

/-! ## When decoders are accepted -/

/-- The marks of the variants suit the way the tag is read. -/
structure GenEnum.TagsFit (E : GenEnum V) : Prop where
  nonempty : E.variants ≠ []
  /-- Numbers are not compared with byte strings. -/
  numbers : E.mode = .uint → ∀ v ∈ E.variants, v.tag.branchDefault = true ∨ v.tag.branchBits.isSome = true ∨
    ∀ w, v.tag.branchValue ≠ some (.bytes w)
  /-- Byte strings are compared with byte strings only. -/
  strings : ∀ n, E.mode = .takeBytes n → ∀ v ∈ E.variants, v.tag.branchDefault = true ∨
    (v.tag.branchBits = none ∧ ∃ w, v.tag.branchValue = some (.bytes w))
  /-- The branches of a chain: the first one, and no other, is numbered 0 and has a byte string; a default comes last. -/
  chain : ∀ u, E.mode = .startsWith u →
    (∃ v w, E.variants[0]? = some v ∧ v.tag.branchDefault = false ∧ v.tag.branchValue = some (.bytes w) ∧ E.numbers[0]? = some 0) ∧
    (∀ (i : Nat) v, E.variants[i]? = some v → 0 < i → v.tag.branchValue.isSome = true → E.numbers[i]? = some 0 → v.tag.branchDefault = true) ∧
    (∀ (i : Nat) v, E.variants[i]? = some v → v.tag.branchDefault = true → i + 1 = E.variants.length) ∧
    (∀ v ∈ E.variants, ∀ n, v.tag.branchValue ≠ some (.num n))

theorem zip_map_get {α β γ : Type} (g : α → β → γ) : ∀ (as : List α) (bs : List β) (i : Nat),
    ((as.zip bs).map fun x => g x.1 x.2)[i]? = (as[i]?).bind fun a => bs[i]?.map (g a)
  | [], bs, i => by simp
  | a :: as, [], i => by simp
  | a :: as, b :: bs, 0 => rfl
  | a :: as, b :: bs, i + 1 => zip_map_get g as bs i

theorem branchHead_if (v : Variant V) (n : Nat) : branchHead v n = .if ↔
    v.branchDefault = false ∧ v.branchValue.isSome = true ∧ n = 0 := by
  unfold branchHead
  cases v.branchDefault with
  | true => simp
  | false =>
    by_cases h : v.branchValue.isSome = true ∧ n = 0
    · simp [h]
    · rw [if_neg (by simp), if_neg h]
      exact ⟨fun h' => (by cases h'), fun h' => absurd h'.2 h⟩

theorem branchHead_else (v : Variant V) (n : Nat) : branchHead v n = .else ↔ v.branchDefault = true := by
  unfold branchHead
  cases v.branchDefault with
  | true => simp
  | false =>
    rw [if_neg (by simp)]
    refine ⟨fun h => ?_, fun h => (by cases h)⟩
    by_cases h' : v.branchValue.isSome = true ∧ n = 0
    · rw [if_pos h'] at h; cases h
    · rw [if_neg h'] at h; cases h

theorem tagsFit_iff (E : GenEnum V) : E.toDef.accepted = true ↔ E.TagsFit := by
  have eh : (E.toDef.variants.zip E.toDef.numbers).map (fun x => branchHead x.1 x.2) =
      (E.variants.zip E.numbers).map fun x => branchHead x.1.tag x.2 := by
    rw [toDef_numbers]
    show ((E.variants.map (·.toVariant)).zip E.numbers).map _ = _
    rw [List.zip_map_left, List.map_map]
    rfl
  have hl : E.numbers.length = E.variants.length := by
    unfold GenEnum.numbers; rw [variantNumbers_length, List.length_map]
  have hget := zip_map_get (fun (v : GenVariant V) n => branchHead v.tag n) E.variants E.numbers
  have hnum : ∀ (i : Nat) v, E.variants[i]? = some v → ∃ n, E.numbers[i]? = some n := by
    intro i v hv
    have : i < E.numbers.length := by rw [hl]; exact (List.getElem?_eq_some_iff.1 hv).1
    exact ⟨_, List.getElem?_eq_getElem this⟩
  have hall : ∀ p : Variant V → Bool, (E.toDef.variants.all p) = E.variants.all fun v => p v.toVariant := by
    intro p
    show (E.variants.map (·.toVariant)).all p = _
    rw [List.all_map]
    rfl
  have hne : (!E.toDef.variants.isEmpty) = true ↔ E.variants ≠ [] := by
    show (!(E.variants.map (·.toVariant)).isEmpty) = true ↔ _
    cases E.variants <;> simp
  have em : E.toDef.mode = E.mode := rfl
  unfold EnumDef.accepted
  rw [Bool.and_eq_true, hne]
  cases hm : E.mode with
  | uint =>
    simp only [em, hm, hall]
    rw [List.all_eq_true]
    constructor
    · rintro ⟨h0, h⟩
      refine ⟨h0, fun _ v hv => ?_, fun n hn => ?_, fun u hu => ?_⟩
      · have := h v hv
        rw [Bool.or_eq_true, Bool.or_eq_true] at this
        rcases this with (h' | h') | h'
        · exact .inl h'
        · exact .inr (.inl h')
        · refine .inr (.inr fun w hw => ?_)
          rw [show v.toVariant.branchValue = v.tag.branchValue from rfl, hw] at h'
          cases h'
      · rw [hm] at hn; cases hn
      · rw [hm] at hu; cases hu
    · intro h
      refine ⟨h.nonempty, fun v hv => ?_⟩
      rw [Bool.or_eq_true, Bool.or_eq_true]
      rcases h.numbers hm v hv with h' | h' | h'
      · exact .inl (.inl h')
      · exact .inl (.inr h')
      · refine .inr ?_
        rw [show v.toVariant.branchValue = v.tag.branchValue from rfl]
        rcases hv : v.tag.branchValue with _ | ⟨n⟩ | ⟨w⟩
        · rfl
        · rfl
        · exact absurd hv (h' w)
  | takeBytes k =>
    simp only [em, hm, hall]
    rw [List.all_eq_true]
    constructor
    · rintro ⟨h0, h⟩
      refine ⟨h0, fun hn => ?_, fun n hn v hv => ?_, fun u hu => ?_⟩
      · rw [hm] at hn; cases hn
      · have := h v hv
        rw [Bool.or_eq_true, Bool.and_eq_true] at this
        rcases this with h' | ⟨h', h''⟩
        · exact .inl h'
        · refine .inr ⟨Option.isNone_iff_eq_none.1 h', ?_⟩
          rw [show v.toVariant.branchValue = v.tag.branchValue from rfl] at h''
          rcases hv : v.tag.branchValue with _ | ⟨n⟩ | ⟨w⟩
          · rw [hv] at h''; cases h''
          · rw [hv] at h''; cases h''
          · exact ⟨w, rfl⟩
      · rw [hm] at hu; cases hu
    · intro h
      refine ⟨h.nonempty, fun v hv => ?_⟩
      rw [Bool.or_eq_true, Bool.and_eq_true]
      rcases h.strings k hm v hv with h' | ⟨h', w, hw⟩
      · exact .inl h'
      · refine .inr ⟨?_, ?_⟩
        · show v.tag.branchBits.isNone = true
          rw [h']; rfl
        · rw [show v.toVariant.branchValue = v.tag.branchValue from rfl, hw]
  | startsWith u =>
    simp only [em, hm, hall]
    rw [Bool.and_eq_true, List.all_eq_true, eh, headsAccepted_iff]
    have hlen : ((E.variants.zip E.numbers).map fun x => branchHead x.1.tag x.2).length = E.variants.length := by
      rw [List.length_map, List.length_zip, hl, Nat.min_self]
    simp only [hlen]
    have hval : ∀ v : GenVariant V, (match v.toVariant.branchValue with
        | some (.num _) => false
        | _ => true) = true ↔ ∀ n, v.tag.branchValue ≠ some (.num n) := by
      intro v
      rw [show v.toVariant.branchValue = v.tag.branchValue from rfl]
      rcases v.tag.branchValue with _ | ⟨n⟩ | ⟨w⟩ <;> simp
    have hif : ∀ i : Nat, ((E.variants.zip E.numbers).map fun x => branchHead x.1.tag x.2)[i]? = some .if ↔
        ∃ v, E.variants[i]? = some v ∧ v.tag.branchDefault = false ∧ v.tag.branchValue.isSome = true ∧ E.numbers[i]? = some 0 := by
      intro i
      rw [hget]
      cases hv : E.variants[i]? with
      | none => simp
      | some v =>
        obtain ⟨n, hn⟩ := hnum i v hv
        rw [hn]
        simp only [Option.bind_some, Option.map_some, Option.some.injEq]
        rw [branchHead_if]
        constructor
        · rintro ⟨h1, h2, h3⟩; exact ⟨v, rfl, h1, h2, h3⟩
        · rintro ⟨_, rfl, h1, h2, h3⟩; exact ⟨h1, h2, h3⟩
    have helse : ∀ i : Nat, ((E.variants.zip E.numbers).map fun x => branchHead x.1.tag x.2)[i]? = some .else ↔
        ∃ v, E.variants[i]? = some v ∧ v.tag.branchDefault = true := by
      intro i
      rw [hget]
      cases hv : E.variants[i]? with
      | none => simp
      | some v =>
        obtain ⟨n, hn⟩ := hnum i v hv
        rw [hn]
        simp only [Option.bind_some, Option.map_some, Option.some.injEq]
        rw [branchHead_else]
        constructor
        · intro h1; exact ⟨v, rfl, h1⟩
        · rintro ⟨_, rfl, h1⟩; exact h1
    constructor
    · rintro ⟨h0, ⟨h1, h2, h3⟩, h4⟩
      refine ⟨h0, fun hn => ?_, fun n hn => ?_, fun u hu => ⟨?_, fun i v hv hi hs hn => ?_, fun i v hv hd => ?_, fun v hv => ?_⟩⟩
      · rw [hm] at hn; cases hn
      · rw [hm] at hn; cases hn
      · obtain ⟨v, hv, hd, hs, hn⟩ := (hif 0).1 h1
        have := (hval v).1 (h4 v (List.mem_of_getElem? hv))
        rcases hb : v.tag.branchValue with _ | ⟨n⟩ | ⟨w⟩
        · rw [hb] at hs; cases hs
        · exact absurd hb (this n)
        · exact ⟨v, w, hv, hd, hb, hn⟩
      · cases hd : v.tag.branchDefault with
        | true => rfl
        | false => exact absurd ((hif i).2 ⟨v, hv, hd, hs, hn⟩) (h2 i hi)
      · exact h3 i ((helse i).2 ⟨v, hv, hd⟩)
      · exact (hval v).1 (h4 v hv)
    · intro h
      obtain ⟨⟨v, w, hv, hd, hb, hn⟩, h2, h3, h4⟩ := h.chain u hm
      refine ⟨h.nonempty, ⟨(hif 0).2 ⟨v, hv, hd, by rw [hb]; rfl, hn⟩, fun i hi he => ?_, fun i he => ?_⟩, fun v hv => (hval v).2 (h4 v hv)⟩
      · obtain ⟨v, hv, hd, hs, hn⟩ := (hif i).1 he
        rw [h2 i v hv hi hs hn] at hd; cases hd
      · obtain ⟨v, hv, hd⟩ := (helse i).1 he
        exact h3 i v hv hd

theorem getVars_lookup : ∀ (vs : List String) (T T' : LTypes), typesAfter (vs.map (Stmt.getVar (V := V))) T = some T' →
    ∀ y, (∀ s ∈ vs, y ≠ s.toList) → typeAt T' y = typeAt T y
  | [], T, T', e, y, _ => by cases e; rfl
  | s :: vs, T, T', e, y, hy => by
    have e' : ((if typeAt ((s.toList, .usize, true) :: T) nCattr = some .cattr ∧ s.toList ≠ nCr ∧ s.toList ≠ nValue then
      some ((s.toList, .usize, true) :: T) else none : Option LTypes).bind
        (typesAfter (vs.map (Stmt.getVar (V := V))))) = some T' := e
    split at e'
    · rw [getVars_lookup vs _ T' e' y fun t ht => hy t (by simp [ht]), typeAt_past (hy s (by simp))]
    · cases e'

theorem variant_accepted {E : GenEnum V} {v : GenVariant V} (hh : (v.asStruct E).Hygienic) {T : LTypes} {mt st : Bool}
    (h : Typed (V := V) T mt st []) : v.decodeAccepted T = true ↔
      ∀ f ∈ v.fields, f.TypeFits ∧ (f.field.attrs.variableName.isSome = true → mt = true) := by
  have h1 : Typed (V := V) ((nFattrNew, .fattr, false) :: T) mt true [] := h.pushFattr fun p hp => by cases hp
  obtain ⟨T2, e2, h2⟩ := emitFields_types (V := V) (v.shape == .tuple) _ (withLocals v.shape 0 v.fields) [] [] _ true h1
    (fun p hp => by cases hp) hh.clear (withLocals_nodup _ _ _ hh.distinct)
  have e : typesAfter v.decodeBody T = (if fieldsFit (v.shape == .tuple) mt true v.fields then some T2 else none) := by
    show typesAfter (emitOffset [] v.tag.attrs ++ emitFields (v.shape == .tuple) [] (withLocals v.shape 0 v.fields))
      ((nFattrNew, .fattr, false) :: T) = _
    rw [withLocals_fields] at e2
    rw [typesAfter_append]
    have : typesAfter (emitOffset [] v.tag.attrs) ((nFattrNew, .fattr, false) :: T) = some ((nFattrNew, .fattr, false) :: T) := by
      unfold emitOffset
      cases v.tag.attrs.offset with
      | none => rfl
      | some o =>
        rw [typesAfter_one]
        show (if typeAt ((nFattrNew, .fattr, false) :: T) nInput = some .reader then some _ else none) = _
        rw [if_pos h1.reader]
    rw [this]
    exact e2
  unfold GenVariant.decodeAccepted
  rw [e]
  have hfit := fieldsFit_iff (v.shape == .tuple) mt v.fields true
  by_cases hf : fieldsFit (v.shape == .tuple) mt true v.fields = true
  · rw [if_pos hf]
    refine ⟨fun _ => (hfit.1 hf).1, fun _ => ?_⟩
    show ((withLocals v.shape 0 v.fields).all fun p => typeAt T2 p.1 == some (fieldTy p.2.ty)) = true
    rw [List.all_eq_true]
    intro p hp
    rw [beq_iff_eq]
    exact h2 p hp
  · rw [if_neg hf]
    exact ⟨fun h' => (by cases h'), fun h' => absurd (hfit.2 ⟨h', fun _ _ _ _ => .inl rfl⟩) hf⟩

/-- **C84** (decoders of enums): exactly when rustc accepts the generated decoder, for hygienic names: the enum has a decoder
of its own, or its tags suit the way they are read, the types of all fields can stand where the macro puts them, and variables
are cached only in enums without modifiers of their own. -/
theorem C84_enum_iff (E : GenEnum V) (h : E.Hygienic) : E.decodeAccepted = true ↔
    E.withDecode.isSome = true ∨ (E.TagsFit ∧ (∀ v ∈ E.variants, ∀ f ∈ v.fields, f.TypeFits) ∧
      ∀ v ∈ E.variants, ∀ f ∈ v.fields, f.field.attrs.variableName.isSome = true → E.container = none) := by
  have h0 : Typed (V := V) ((nCattrNew, .cattr, E.container.isNone) :: decodeParamTypes) E.container.isNone false [] :=
    ⟨by rw [typeAt_past (by decide)]; rfl, by rw [lookup_here], by rw [typeAt_past (by decide)]; rfl,
      fun p hp => by cases hp⟩
  obtain ⟨T1, e1, h1⟩ := getVars_types (V := V) _ E.getVars _ h.vars (by rw [typeAt_past (by decide)]; rfl) h0
  have hlook := getVars_lookup _ _ _ e1
  have e : typesAfter E.decodeHead decodeParamTypes = some T1 := e1
  unfold GenEnum.decodeAccepted
  rw [Bool.or_eq_true, e]
  have ht : tagTyped E.mode T1 = true := by
    unfold tagTyped
    have hc : typeAt T1 nCattrNew = some .cattr := by unfold typeAt; rw [h1.cattr]; rfl
    rw [h1.reader, hc, hlook nCattr fun s hs => Ne.symm (h.vars s hs).2.1, hlook nFattr fun s hs => Ne.symm (h.tag s hs).1]
    cases E.mode <;> rfl
  have h2 : Typed (V := V) (tagTypes E.mode T1) E.container.isNone false [] := by
    unfold tagTypes
    cases E.mode with
    | startsWith u => exact h1.push _ (by decide) (by decide) (by decide) fun p hp => by cases hp
    | takeBytes n => exact h1.push _ (by decide) (by decide) (by decide) fun p hp => by cases hp
    | uint =>
      exact (h1.push _ (by decide) (by decide) (by decide) fun p hp => by cases hp).push _ (by decide) (by decide) (by decide)
        fun p hp => by cases hp
  show E.withDecode.isSome = true ∨ (tagTyped E.mode T1 && E.toDef.accepted &&
    E.variants.all fun v => v.decodeAccepted (tagTypes E.mode T1)) = true ↔ _
  rw [ht, Bool.true_and, Bool.and_eq_true, tagsFit_iff, List.all_eq_true]
  refine or_congr Iff.rfl (and_congr Iff.rfl ⟨fun ha => ⟨fun v hv f hf => ?_, fun v hv f hf hn => ?_⟩, fun ha v hv => ?_⟩)
  · exact ((variant_accepted (h.variants v hv) h2).1 (ha v hv) f hf).1
  · simpa using ((variant_accepted (h.variants v hv) h2).1 (ha v hv) f hf).2 hn
  · exact (variant_accepted (h.variants v hv) h2).2 fun f hf => ⟨ha.1 v hv f hf, fun hn => by rw [ha.2 v hv f hf hn]; rfl⟩

end JBytes
