import Verif.DefaultExample
import Verif.PropDefault
import Verif.PropCommands
/-!
# C108: default values and unknown tags

`Jdefault` and the codec macros look at the same attributes.  First what this means for the variant that stands for unknown tags
and the one that is the default value; then the message of examples/default_value_example.rs.
-/

namespace JBytes
open M

variable {V U : Type}

/-! ## One declaration, two macros -/

/-- The same declarations of variants, as both macros see them. -/
def SameAttrs (vs : List (VariantSource V)) (ws : List DVariant) : Prop :=
  ws.map (·.attrs) = vs.map fun v => v.attrs.map Attribute.toDefault

theorem tagWrites_default {n : String} {ws : List (Slot × AttrVal)} (h : tagWrites n = some ws) (hm : Slot.branchDefault ∈ ws.map Prod.fst) :
    DefaultTag n := by
  unfold tagWrites at h
  split at h <;> first
    | (cases h; first | (exact .inr (.inr (.inl rfl))) | (exact .inr (.inr (.inr rfl))) | (simp at hm))
    | cases h

theorem propWrites_default {k : String} {l : Text} {ws : List (Slot × AttrVal)} (h : propWrites k l = some ws) :
    Slot.branchDefault ∉ ws.map Prod.fst := by
  unfold propWrites at h
  split at h <;> first
    | (cases h; simp)
    | cases h

theorem assignItems_default {items : List AttrItem} {g g' : Slot → Option AttrVal} (h : assignItems AttrItem.writes g items = some g')
    (hg : g .branchDefault = none) (hg' : (g' .branchDefault).isSome = true) : ∃ n, AttrItem.tag n ∈ items ∧ DefaultTag n := by
  induction items generalizing g with
  | nil => cases h; rw [hg] at hg'; cases hg'
  | cons i is ih =>
    simp only [assignItems] at h
    cases hw : i.writes with
    | none => rw [hw] at h; cases h
    | some ws =>
      rw [hw] at h
      simp only [Option.bind_some] at h
      by_cases hm : Slot.branchDefault ∈ ws.map Prod.fst
      · cases i with
        | tag n => exact ⟨n, List.mem_cons_self, tagWrites_default hw hm⟩
        | prop k l => exact absurd hm (propWrites_default hw)
      · have key : ∀ (ws : List (Slot × AttrVal)) (g : Slot → Option AttrVal), Slot.branchDefault ∉ ws.map Prod.fst →
            assign g ws .branchDefault = g .branchDefault := by
          intro ws
          induction ws with
          | nil => intro g _; rfl
          | cons w ws ih =>
            intro g h
            simp only [List.map_cons, List.mem_cons, not_or] at h
            show assign _ ws .branchDefault = _
            rw [ih _ h.2]
            simp only [if_neg h.1]
        obtain ⟨n, h1, h2⟩ := ih h (by rw [key ws g hm, hg])
        exact ⟨n, List.mem_cons_of_mem _ h1, h2⟩

/-- A mark for unknown tags is a mark for `Jdefault`. -/
theorem fieldText_default {as : List Attribute} {t : AttrRecord Slot} (h : fieldText as = some t) (hd : Attribute.default ∉ as)
    (ht : t.has .branchDefault = true) {u : DText} (hu : firstText DAttribute.field (as.map Attribute.toDefault) = some u) :
    u.defaultBool = true := by
  induction as with
  | nil => cases h; cases ht
  | cons a as ih =>
    have hd' : Attribute.default ∉ as := fun hm => hd (List.mem_cons_of_mem _ hm)
    cases a with
    | default => exact absurd List.mem_cons_self hd
    | repr items => exact ih h hd' hu
    | other => exact ih h hd' hu
    | jbytes items =>
      simp only [fieldText, getAttribute, Attribute.field, parseItems] at h
      simp only [List.map_cons, firstText, Attribute.toDefault] at hu
      cases hg : assignItems AttrItem.writes (fun _ => none) items with
      | none => rw [hg] at h; cases h
      | some g =>
        rw [hg] at h
        cases h
        have hm := assignItems_default hg rfl ht
        cases hf : (DAttribute.jbytes items).field with
        | none => rw [hf] at hu; cases hu
        | some r =>
          rw [hf] at hu
          rcases field_eq hf with ⟨h1, -⟩ | ⟨is, t', h1, rfl, -, h4⟩
          · cases h1
          · cases h1
            cases hu
            exact h4.2 hm

theorem variantOf_default {I : Interp V} {v : VariantSource V} {u : Variant V} (h : variantOf I v = some u) :
    ∃ t, fieldText v.attrs = some t ∧ u.branchDefault = t.has .branchDefault := by
  unfold variantOf at h
  simp only [Option.bind_eq_some_iff] at h
  obtain ⟨t, ht, fs, -, num, -, bits, -, bv, -, br, -, h⟩ := h
  refine ⟨t, ht, ?_⟩
  unfold assembleVariant at h
  split at h <;> cases h <;> rfl

theorem variantBodies_mark (J : DefaultInterp U) {ws : List DVariant} {i : Nat} {bodies : List (Nat × List U)}
    (h : variantBodies J i ws = some bodies) {j : Nat} {w : DVariant} (hj : ws[j]? = some w)
    (hw : ∀ t, firstText DAttribute.field w.attrs = some t → t.defaultBool = true) : ∃ x, (i + j, x) ∈ bodies := by
  induction ws generalizing i j bodies with
  | nil => simp at hj
  | cons w0 ws ih =>
    simp only [variantBodies, Option.bind_eq_some_iff, Option.map_eq_some_iff] at h
    obtain ⟨b, hb, rest, hr, rfl⟩ := h
    cases j with
    | zero =>
      simp only [List.getElem?_cons_zero, Option.some.injEq] at hj
      subst hj
      unfold variantDefault at hb
      split at hb
      · simp only [Option.bind_eq_some_iff] at hb
        obtain ⟨t, ht, hb⟩ := hb
        rw [if_pos (hw t ht)] at hb
        simp only [Option.map_eq_some_iff] at hb
        obtain ⟨x, -, rfl⟩ := hb
        exact ⟨x, List.mem_cons_self⟩
      · cases hb
    | succ j =>
      simp only [List.getElem?_cons_succ] at hj
      obtain ⟨x, hx⟩ := ih hr hj
      refine ⟨x, ?_⟩
      rw [show i + (j + 1) = i + 1 + j by omega]
      cases b with
      | none => exact hx
      | some y => exact List.mem_cons_of_mem _ hx

theorem enumOf_variants {I : Interp V} {W : TypeInterp (Nat × List V)} {as : List Attribute} {vs : List (VariantSource V)} {E : EnumDef V}
    (h : enumOf I W as vs = some E) : vs.mapM (variantOf I) = some E.variants := by
  unfold enumOf at h
  simp only [Option.bind_eq_some_iff] at h
  obtain ⟨t, -, us, hus, mode, -, h⟩ := h
  split at h
  · cases h; exact hus
  · cases h

theorem mapM_get {α β : Type} {f : α → Option β} {l : List α} {l' : List β} (h : l.mapM f = some l') {j : Nat} {y : β} (hj : l'[j]? = some y) :
    ∃ x, l[j]? = some x ∧ f x = some y := by
  induction l generalizing l' j with
  | nil => cases h; simp at hj
  | cons a l ih =>
    rw [List.mapM_cons] at h
    cases ha : f a with
    | none => rw [ha] at h; cases h
    | some b =>
      rw [ha] at h
      cases hr : l.mapM f with
      | none => rw [hr] at h; cases h
      | some bs =>
        rw [hr] at h
        cases h
        cases j with
        | zero => cases hj; exact ⟨a, rfl, ha⟩
        | succ j => exact ih hr hj

/-- C108: if both macros accept an enum, the variant for unknown tags is the default value: there is no way to choose them
separately.  (`#[default]`, which the codec macros also take as a mark, is not one for `Jdefault`.) -/
theorem C108_fallback {I : Interp V} {W : TypeInterp (Nat × List V)} {J : DefaultInterp U} {as : List Attribute} {ds : List DAttribute}
    {vs : List (VariantSource V)} {ws : List DVariant} {E : EnumDef V} {i : Nat} {x : List U}
    (same : SameAttrs vs ws) (hn : ∀ v ∈ vs, Attribute.default ∉ v.attrs) (hE : enumOf I W as vs = some E)
    (hD : enumDefault J ds ws = some (i, x)) {j : Nat} {u : Variant V} (hu : E.variants[j]? = some u) (hb : u.branchDefault = true) : j = i := by
  obtain ⟨v, hv, he⟩ := mapM_get (enumOf_variants hE) hu
  obtain ⟨t, ht, hd⟩ := variantOf_default he
  unfold enumDefault at hD
  simp only [Option.bind_eq_some_iff] at hD
  obtain ⟨-, -, bodies, hbs, hD⟩ := hD
  obtain ⟨w, hw, hs⟩ : ∃ w, ws[j]? = some w ∧ w.attrs = v.attrs.map Attribute.toDefault := by
    have := congrArg (·[j]?) same
    simp only [List.getElem?_map, hv, Option.map_some, Option.map_eq_some_iff] at this
    exact this
  obtain ⟨y, hy⟩ := variantBodies_mark J hbs hw fun t' ht' => by
    rw [hs] at ht'
    exact fieldText_default ht (hn v (List.mem_of_getElem? hv)) (by rw [← hd]; exact hb) ht'
  split at hD
  · cases hD
    simp only [List.mem_singleton, Prod.mk.injEq, Nat.zero_add] at hy
    exact hy.1
  · cases hD

/-- C108: what is received under a tag that no other variant has is a value of the variant that is the default value. -/
theorem C108_unknown {I : Interp V} {W : TypeInterp (Nat × List V)} {J : DefaultInterp U} {as : List Attribute} {ds : List DAttribute}
    {vs : List (VariantSource V)} {ws : List DVariant} {E : EnumDef V} {i : Nat} {x : List U}
    (same : SameAttrs vs ws) (hn : ∀ v ∈ vs, Attribute.default ∉ v.attrs) (hE : enumOf I W as vs = some E)
    (hD : enumDefault J ds ws = some (i, x)) (hw : E.withDecode = none) (hm : ∀ u, E.mode ≠ .startsWith u)
    {ca : Option CAttr} {fa : Option FAttr} {b b1 b' : Buf} {t : Tag} (ht : E.tagOf ca fa b = (.ok t, b1))
    (hu : ∀ j v n, E.IsVariant j v n → Accepts v n t → v.branchDefault = true) {r : Nat × List V}
    (h : decEnum E ca fa b = (.ok r, b')) : r.1 = i := by
  obtain ⟨d1, d2, -⟩ := C44_dispatch E hw hm ca fa b
  cases hf : findArm t 0 (E.variants.zip E.numbers) with
  | none =>
    have : ∀ j v n, E.IsVariant j v n → ¬ Accepts v n t := by
      intro j v n h1 h2
      have hb := hu j v n h1 h2
      obtain ⟨k, hk⟩ : ∃ k, findArm t 0 (E.variants.zip E.numbers) = some k := by
        have key : ∀ (l : List (Variant V × Nat)) (s : Nat), (∃ p ∈ l, (p.1.pat p.2).test t = true) → ∃ k, findArm t s l = some k := by
          intro l
          induction l with
          | nil => rintro s ⟨_, h, _⟩; cases h
          | cons p l ih =>
            rintro s ⟨q, hq, h⟩
            obtain ⟨v, n⟩ := p
            simp only [findArm]
            split
            · exact ⟨_, rfl⟩
            · rcases List.mem_cons.1 hq with rfl | hq
              · exact absurd h (by assumption)
              · exact ih _ ⟨q, hq, h⟩
        exact key _ 0 ⟨(v, n), List.mem_of_getElem? ((zip_get E j v n).2 h1), (pat_test_iff v n t).2 h2⟩
      rw [hf] at hk
      cases hk
    rw [d2 t b1 ht this] at h
    cases h
  | some k =>
    obtain ⟨j, v⟩ := k
    have hs := (findArm_selects E t j v).1 hf
    obtain ⟨⟨n, h1, h2⟩, -⟩ := id hs
    have hj := C108_fallback same hn hE hD h1.1 (hu j v n h1 h2)
    rw [d1 t b1 j v ht hs, mapM'_apply] at h
    rcases hv : variantFields E ca v b1 with ⟨o, b2⟩
    rw [hv] at h
    cases o <;> cases h
    exact hj

/-! ## examples/default_value_example.rs -/

/-- The bodies of the example. -/
inductive PresetBody where
  | read (address : Byte)
  | write (address v1 v2 v3 : Byte)
  | unknown (value : Byte)
  deriving DecidableEq

def PresetBody.wire : PresetBody → List Byte
  | .read a => [a]
  | .write a x y z => [a, x, y, z]
  | .unknown v => [v]

/-- The tags of the body: the one written at the variant, the next one, all others. -/
def PresetBody.Fits (t : Byte) : PresetBody → Prop
  | .read _ => t = 1
  | .write _ _ _ _ => t = 2
  | .unknown _ => t ≠ 1 ∧ t ≠ 2

/-- The tag that the encoder writes. -/
def PresetBody.tag : PresetBody → Byte
  | .read _ => 1
  | .write _ _ _ _ => 2
  | .unknown _ => 3

def PresetBody.value : PresetBody → Pkt
  | .read a => .variant 0 [.num a.toNat]
  | .write a x y z => .variant 1 [.num a.toNat, .bytes [x, y, z]]
  | .unknown v => .variant 2 [.num v.toNat]

structure Preset where
  text : List Byte
  body : PresetBody

def Preset.value (m : Preset) : List Pkt := [.bytes m.text, m.body.value]

/-- The layout with the tag `t`. -/
def Preset.wireAs (m : Preset) (t : Byte) : List Byte := UInt8.ofNat m.text.length :: (m.text ++ t :: m.body.wire)

def Preset.wire (m : Preset) : List Byte := m.wireAs m.body.tag

/-- The texts and tags with which a message is read. -/
structure Preset.Fits (m : Preset) (t : Byte) : Prop where
  text : utf8Valid m.text = true
  length : m.text.length < 256
  body : m.body.Fits t

/-- `byte_count=1`. -/
def byteCountOne : Option FAttr := some { byteCount := some 1 }

theorem uint1_reads (o : ByteOrder) (t : Byte) (suf : List Byte) : Reads (takeUint 1 o) t.toNat [t] suf := by
  have := Reads.uint o 1 t.toNat suf (by decide) (by simpa using t.toNat_lt)
  rw [show toBytes o 1 t.toNat = [t] from byte_wire o t] at this
  exact this

theorem uint1_covers (o : ByteOrder) : Covers (takeUint 1 o) fun n w => ∃ t : Byte, n = t.toNat ∧ w = [t] := by
  refine Covers.fixed (takeUint_needs 1 (by decide) o) fun x hx => ?_
  obtain ⟨t, y, rfl, hy⟩ := list_succ hx
  obtain rfl := List.length_eq_zero_iff.mp hy
  exact ⟨t.toNat, ⟨t, rfl, rfl⟩, fun suf => uint1_reads o t suf⟩

theorem uint1_writes (o : ByteOrder) (t : Byte) : Writes (pushUint t.toNat 1 o) [t] := by
  have := (Appends.uint t.toNat 1 o (by decide)).writes
  rw [show toBytes o 1 t.toNat = [t] from byte_wire o t] at this
  exact this

/-- The field of `Unknown`. -/
def presetByte : Field Pkt := Pkt.int ⟨1, false⟩ { isUse := true }

theorem presetByte_step (env : Env Pkt) (b : Buf) : fieldStep presetByte none env b = mapM' Pkt.num (decInt ⟨1, false⟩ none (some {})) b :=
  fieldStep_plain presetByte ⟨rfl, rfl, rfl, rfl, rfl, rfl⟩ rfl rfl rfl rfl rfl rfl none env b

theorem presetByte_reads (env : Env Pkt) (x : Byte) (suf : List Byte) : Reads (decFields false [presetByte] none none env) [.num x.toNat] [x] suf := by
  have := (((byte_reads (some {}) rfl rfl x suf).mapped Pkt.num).mapped fun v => [v])
  refine this.congr fun b _ => ?_
  rw [decFields_one, bind_apply, presetByte_step, mapM'_apply]
  rcases mapM' Pkt.num (decInt ⟨1, false⟩ none (some {})) b with ⟨o, b'⟩
  cases o <;> rfl

theorem presetByte_covers (env : Env Pkt) : Covers (decFields false [presetByte] none none env) fun vs w => ∃ x : Byte, vs = [.num x.toNat] ∧ w = [x] := by
  refine Covers.mono ((((byte_covers (some {}) rfl rfl).map Pkt.num).map fun v => [v]).congr fun b => ?_) ?_
  · rw [decFields_one, bind_apply, presetByte_step, mapM'_apply]
    rcases mapM' Pkt.num (decInt ⟨1, false⟩ none (some {})) b with ⟨o, b'⟩
    cases o <;> rfl
  · rintro v w ⟨_, rfl, _, rfl, x, rfl, rfl⟩
    exact ⟨x, rfl, rfl⟩

theorem presetByte_writes (env : Env Pkt) (x : Byte) : Writes (fieldEnc presetByte none env (.num x.toNat)) [x] := by
  refine fieldEnc_plain presetByte ⟨rfl, rfl, rfl, rfl, rfl, rfl⟩ rfl rfl rfl rfl none env _ _ ?_
  have := int_writes ⟨1, false⟩ valid1 x.toNat none (some {}) rfl rfl
  rw [byte_wire] at this
  exact this

theorem preset_match (env : Env Pkt) (n : Nat) (b : Buf) : decArm presetBody env (.num n) b =
    if n = 1 then mapM' (fun vs => (0, vs)) (decFields false [Pkt.u8] none none env) b
    else if n = 2 then mapM' (fun vs => (1, vs)) (decFields false [Pkt.u8, Pkt.array 3 {}] none none env) b
    else mapM' (fun vs => (2, vs)) (decFields false [presetByte] none none env) b := by
  have e : ∀ x : Nat, (Tag.num x == Tag.num n) = decide (n = x) := fun x => by
    by_cases h : n = x
    · subst h; simp
    · simp [h, show ¬ x = n from fun k => h k.symm]
  have h : findArm (.num n) 0 (presetBody.variants.zip presetBody.numbers) =
      if n = 1 then some (0, presetBody.variants[0]) else if n = 2 then some (1, presetBody.variants[1])
      else some (2, presetBody.variants[2]) := by
    show (if (Tag.num 1 == Tag.num n) then some (0, presetBody.variants[0])
      else if (Tag.num 2 == Tag.num n) then some (1, presetBody.variants[1])
      else some (2, presetBody.variants[2])) = _
    simp only [e, decide_eq_true_eq]
  unfold decArm
  rw [h]
  by_cases h1 : n = 1
  · simp only [if_pos h1]; exact used_arm env 0 _ (.inr rfl) rfl b
  by_cases h2 : n = 2
  · simp only [if_neg h1, if_pos h2]; exact used_arm env 1 _ (.inl rfl) rfl b
  · simp only [if_neg h1, if_neg h2]; exact used_arm env 2 _ (.inr rfl) rfl b

theorem byte_one {t : Byte} : t.toNat = 1 ↔ t = 1 := ⟨fun h => UInt8.toNat_inj.mp h, by rintro rfl; rfl⟩
theorem byte_two {t : Byte} : t.toNat = 2 ↔ t = 2 := ⟨fun h => UInt8.toNat_inj.mp h, by rintro rfl; rfl⟩

theorem preset_arm_reads (t : Byte) (x : PresetBody) (hx : x.Fits t) (suf : List Byte) :
    Reads (mapM' (fun x => Pkt.variant x.1 x.2) (decArm presetBody { vars := [] } (.num t.toNat))) x.value x.wire suf := by
  have key : ∀ (i : Nat) (vs : List Pkt) (w : List Byte), Reads (decArm presetBody { vars := [] } (.num t.toNat)) (i, vs) w suf →
      Reads (mapM' (fun x => Pkt.variant x.1 x.2) (decArm presetBody { vars := [] } (.num t.toNat))) (.variant i vs) w suf :=
    fun i vs w h => h.mapped fun x => Pkt.variant x.1 x.2
  cases x with
  | read a =>
    exact key 0 _ _ (((u8_seg { vars := [] } { vars := [] } a suf).reads.mapped fun vs => (0, vs)).congr fun b _ => by
      rw [preset_match, if_pos (byte_one.2 hx)])
  | write a x y z =>
    have := Segments.one (w1 := [x, y, z]) (w2 := []) (f := Pkt.array 3 {}) (fun suf => seg_codec (Pkt.array 3 {}) rfl
      (({ vars := [] } : Env Pkt).extend [Pkt.num a.toNat]) (({ vars := [] } : Env Pkt).extend [Pkt.num a.toNat]) _ _ suf (array_writes {} [x, y, z])
      (array_reads {} x y z suf)) rfl (.nil none _ _ suf)
    have s := Segments.one (w1 := [a]) (u8_seg { vars := [] } { vars := [] } a) rfl this
    refine key 1 _ _ ((s.roundtrip.reads.mapped fun vs => (1, vs)).congr fun b _ => ?_)
    have hx : t.toNat = 2 := byte_two.2 hx
    rw [preset_match, if_neg (by omega), if_pos hx]
  | unknown v =>
    exact key 2 _ _ (((presetByte_reads { vars := [] } v suf).mapped fun vs => (2, vs)).congr fun b _ => by
      rw [preset_match, if_neg fun h => hx.1 (byte_one.1 h), if_neg fun h => hx.2 (byte_two.1 h)])

theorem preset_arm_covers (t : Byte) : Covers (mapM' (fun x => Pkt.variant x.1 x.2) (decArm presetBody { vars := [] } (.num t.toNat))) fun v w =>
    ∃ x : PresetBody, x.Fits t ∧ v = x.value ∧ w = x.wire := by
  refine Covers.mono (Covers.map (W := fun (v : Nat × List Pkt) w => ∃ x : PresetBody, x.Fits t ∧ .variant v.1 v.2 = x.value ∧ w = x.wire)
    ?_ fun x : Nat × List Pkt => Pkt.variant x.1 x.2) ?_
  · by_cases h1 : t.toNat = 1
    · refine Covers.mono (((u8_covers { vars := [] }).map fun vs => (0, vs)).congr fun b => by rw [preset_match, if_pos h1]) ?_
      rintro v w ⟨vs, rfl, a, rfl, rfl⟩
      exact ⟨.read a, byte_one.1 h1, rfl, rfl⟩
    by_cases h2 : t.toNat = 2
    · have c := (Covers.fields (fs := [Pkt.u8]) (gs := [Pkt.array 3 {}]) (u8_covers { vars := [] }) (by rintro _ _ ⟨_, rfl, _⟩; rfl) fun v _ _ =>
        Covers.last (env := ({ vars := [] } : Env Pkt).extend v) ⟨rfl, rfl, rfl, rfl, rfl, rfl⟩ rfl rfl rfl rfl rfl rfl (array_covers {}))
      refine Covers.mono ((c.map fun vs => (1, vs)).congr fun b => by
        rw [preset_match, if_neg h1, if_pos h2]; rfl) ?_
      rintro v w ⟨vs, rfl, v, u, w1, w2, rfl, rfl, ⟨a, rfl, rfl⟩, p, rfl, x, y, z, rfl, rfl⟩
      exact ⟨.write a x y z, byte_two.1 h2, rfl, rfl⟩
    · refine Covers.mono (((presetByte_covers { vars := [] }).map fun vs => (2, vs)).congr fun b => by rw [preset_match, if_neg h1, if_neg h2]) ?_
      rintro v w ⟨vs, rfl, a, rfl, rfl⟩
      exact ⟨.unknown a, ⟨fun h => h1 (byte_one.2 h), fun h => h2 (byte_two.2 h)⟩, rfl, rfl⟩
  · rintro v w ⟨x, rfl, y, hy, h1, h2⟩
    exact ⟨y, hy, h1, h2⟩

theorem preset_fields_write (x : PresetBody) : ∃ (v : Variant Pkt) (i : Nat) (vs : List Pkt),
    x.value = .variant i vs ∧ (presetBody.variants.zip presetBody.numbers)[i]? = some (v, x.tag.toNat) ∧
    (v.attrs = {} ∨ v.attrs = { isUse := true }) ∧ NoLeak none v.fields ∧
    Writes (encFields false v.fields none none { vars := [] } vs) x.wire := by
  cases x with
  | read a =>
    refine ⟨presetBody.variants[0], 0, _, rfl, rfl, .inr rfl, ⟨by simp [presetBody, Pkt.u8, Pkt.int], .inl rfl⟩, ?_⟩
    exact encFields_cons_writes (w := [a]) (u8_writes { vars := [] } a) (encFields_nil_writes none _)
  | write a x y z =>
    refine ⟨presetBody.variants[1], 1, _, rfl, rfl, .inl rfl, ⟨by simp [presetBody, Pkt.u8, Pkt.int, Pkt.array], .inl rfl⟩, ?_⟩
    exact encFields_cons_writes (w := [a]) (u8_writes { vars := [] } a) (encFields_cons_writes (w := [x, y, z])
      (fieldEnc_plain (Pkt.array 3 {}) ⟨rfl, rfl, rfl, rfl, rfl, rfl⟩ rfl rfl rfl rfl none _ _ _ (array_writes {} [x, y, z]))
      (encFields_nil_writes none _))
  | unknown v =>
    refine ⟨presetBody.variants[2], 2, _, rfl, rfl, .inr rfl, ⟨by simp [presetBody, Pkt.u8, Pkt.int], .inl rfl⟩, ?_⟩
    exact encFields_cons_writes (w := [v]) (presetByte_writes { vars := [] } v) (encFields_nil_writes none _)

theorem preset_body_dec (a : FieldAttrs Pkt) (b : Buf) : (Pkt.enum presetBody a).dec none byteCountOne b =
    (takeUint 1 .be >>= fun n => mapM' (fun x => Pkt.variant x.1 x.2) (decArm presetBody { vars := [] } (.num n))) b := by
  show mapM' (fun x => Pkt.variant x.1 x.2) (takeUint 1 .be >>= fun n => decArm presetBody { vars := localVars [] none } (.num n)) b = _
  rw [mapM'_apply, bind_apply, bind_apply]
  rcases takeUint 1 .be b with ⟨o, b'⟩
  cases o with
  | ok t => simp only [mapM'_apply]; rfl
  | _ => rfl

theorem preset_body_reads (a : FieldAttrs Pkt) (t : Byte) (x : PresetBody) (hx : x.Fits t) (suf : List Byte) :
    Reads ((Pkt.enum presetBody a).dec none byteCountOne) x.value (t :: x.wire) suf :=
  ((uint1_reads .be t (x.wire ++ suf)).bind (preset_arm_reads t x hx suf)).congr fun b _ => preset_body_dec a b

theorem preset_body_covers (a : FieldAttrs Pkt) : Covers ((Pkt.enum presetBody a).dec none byteCountOne) fun v w =>
    ∃ (t : Byte) (x : PresetBody), x.Fits t ∧ v = x.value ∧ w = t :: x.wire := by
  refine Covers.mono (((uint1_covers .be).bindWith (W' := fun n _ v w => ∃ (t : Byte) (x : PresetBody), n = t.toNat ∧ x.Fits t ∧ v = x.value ∧ w = x.wire)
    fun n _ h => by
      obtain ⟨t, rfl, -⟩ := h
      exact (preset_arm_covers t).mono fun v w ⟨x, h⟩ => ⟨t, x, rfl, h⟩).congr (preset_body_dec a)) ?_
  rintro v w ⟨n, w1, w2, rfl, ⟨t, rfl, rfl⟩, t', x, e, hx, rfl, rfl⟩
  obtain rfl := UInt8.toNat_inj.mp e
  exact ⟨t, x, hx, rfl, rfl⟩

theorem preset_body_writes (a : FieldAttrs Pkt) (x : PresetBody) : Writes ((Pkt.enum presetBody a).enc x.value none byteCountOne) (x.tag :: x.wire) := by
  obtain ⟨v, i, vs, e, h1, h3, h4, h5⟩ := preset_fields_write x
  rw [e]
  refine ((uint1_writes .be x.tag).seq h5).congr fun b => ?_
  show encEnum presetBody (i, vs) none byteCountOne b = _
  simp only [encEnum, h1]
  have e : encVariant presetBody v x.tag.toNat vs none byteCountOne b = (pushUint x.tag.toNat 1 .be >>= fun n =>
      encFields true v.fields none none { vars := [] } vs >>= fun m => (Pure.pure (n + m) : M Nat)) b := by
    obtain ⟨a, nm, d, bd, bb, bv, br, tt, fs⟩ := v
    simp only at h3
    rcases h3 with rfl | rfl <;> rfl
  rw [e, bind_apply, bind_apply]
  rcases pushUint x.tag.toNat 1 .be b with ⟨o, b'⟩
  cases o with
  | ok n =>
    simp only
    rw [bind_apply, encFields_noLeak _ _ _ _ _ _ h4, bind_apply]
  | _ => rfl

theorem preset_text_wire (s : List Byte) : bytesWire none byteCountOne s = UInt8.ofNat s.length :: s := by
  show toBytes .be 1 s.length ++ s = _
  rw [oct1_eq]
  rfl

theorem preset_text_writes (a : FieldAttrs Pkt) (s : List Byte) : Writes ((Pkt.string a).enc (.bytes s) none byteCountOne) (UInt8.ofNat s.length :: s) := by
  have := (encBytes_appends s none byteCountOne (by intro k h; cases h; decide)).writes
  rw [preset_text_wire] at this
  exact this

theorem preset_text_reads (a : FieldAttrs Pkt) (s suf : List Byte) (h1 : utf8Valid s = true) (h2 : s.length < 256) :
    Reads ((Pkt.string a).dec none byteCountOne) (.bytes s) (UInt8.ofNat s.length :: s) suf := by
  refine string_reads ?_ h1 a
  have := decBytes_reads s suf none byteCountOne ⟨by decide, by simpa using h2⟩
  rw [preset_text_wire] at this
  exact this

theorem preset_text_settles (a : FieldAttrs Pkt) : Settles ((Pkt.string a).dec none byteCountOne) fun v w =>
    ∃ s, v = .bytes s ∧ utf8Valid s = true ∧ s.length < 256 ∧ w = UInt8.ofNat s.length :: s := by
  have h : Covers (decBytes none byteCountOne) fun v w => v.length < 256 ∧ w = UInt8.ofNat v.length :: v := by
    refine Covers.mono (((uint1_covers .be).bindWith (W' := fun n _ v w => w.length = n ∧ v = w) fun n _ _ => ?_).congr fun b => rfl) ?_
    · refine Covers.fixed (takeBytes_needs _) fun x hx => ⟨x, ⟨hx, rfl⟩, fun suf => ?_⟩
      rw [← hx]
      exact Reads.bytes x suf
    · rintro v w ⟨n, w1, w2, rfl, ⟨t, rfl, rfl⟩, h, rfl⟩
      refine ⟨by rw [h]; exact t.toNat_lt, ?_⟩
      rw [h, UInt8.ofNat_toNat]
      rfl
  exact string_settles h a

/-- The two fields. -/
def presetText : Field Pkt := Pkt.string { isUse := true, byteCount := some fun _ => 1 }
def presetEnum : Field Pkt := Pkt.enum presetBody { isUse := true, byteCount := some fun _ => 1 }

theorem preset_writes (m : Preset) (ca : Option CAttr) (fa : Option FAttr) : Writes (encStruct preset m.value ca fa) m.wire := by
  have := encFields_cons_writes (env := { vars := localVars [] ca }) (w := UInt8.ofNat m.text.length :: m.text) (f := presetText)
      (fieldEnc_plain _ ⟨rfl, rfl, rfl, rfl, rfl, rfl⟩ rfl rfl rfl rfl none _ _ _ (preset_text_writes _ m.text))
    (encFields_cons_writes (fs := []) (vs := []) (f := presetEnum)
      (fieldEnc_plain _ ⟨rfl, rfl, rfl, rfl, rfl, rfl⟩ rfl rfl rfl rfl none _ _ _ (preset_body_writes _ m.body)) (encFields_nil_writes none _))
  rw [List.append_nil] at this
  exact this

theorem preset_reads (m : Preset) (t : Byte) (hm : m.Fits t) (ca : Option CAttr) (fa : Option FAttr) (suf : List Byte) :
    Reads (decStruct preset ca fa) m.value (m.wireAs t) suf := by
  have r1 := preset_text_reads presetText.attrs m.text (t :: m.body.wire ++ suf) hm.text hm.length
  have r2 := (preset_body_reads presetEnum.attrs t m.body hm.body suf).mapped fun v => [Pkt.bytes m.text, v]
  refine (r1.bind (f := fun v => mapM' (fun u => [v, u]) ((Pkt.enum presetBody presetEnum.attrs).dec none byteCountOne)) r2).congr fun b _ => ?_
  show decFields false [presetText, presetEnum] none none { vars := localVars [] ca } b = _
  rw [decFields_cons, bind_apply, bind_apply,
    fieldStep_plain presetText ⟨rfl, rfl, rfl, rfl, rfl, rfl⟩ rfl rfl rfl rfl rfl rfl none _ b]
  have e : (Pkt.string presetText.attrs).dec none byteCountOne b = presetText.dec none (ownModifiers presetText.attrs { vars := localVars [] ca }) b := rfl
  rw [e]
  rcases presetText.dec none (ownModifiers presetText.attrs { vars := localVars [] ca }) b with ⟨o, b'⟩
  cases o with
  | ok v =>
    simp only
    have e2 : cacheVars presetText.attrs none (({ vars := localVars [] ca } : Env Pkt).push v) = none := rfl
    rw [e2, bind_apply, decFields_one, bind_apply, mapM'_apply,
      fieldStep_plain presetEnum ⟨rfl, rfl, rfl, rfl, rfl, rfl⟩ rfl rfl rfl rfl rfl rfl none _ b']
    have e3 : (Pkt.enum presetBody presetEnum.attrs).dec none byteCountOne b' =
      presetEnum.dec none (ownModifiers presetEnum.attrs (({ vars := localVars [] ca } : Env Pkt).push v)) b' := rfl
    rw [e3]
    rcases presetEnum.dec none (ownModifiers presetEnum.attrs (({ vars := localVars [] ca } : Env Pkt).push v)) b' with ⟨o, b2⟩
    cases o <;> rfl
  | _ => rfl

theorem preset_settles (ca : Option CAttr) (fa : Option FAttr) : Settles (decStruct preset ca fa) fun v w =>
    ∃ (m : Preset) (t : Byte), m.Fits t ∧ v = m.value ∧ w = m.wireAs t := by
  have c := Settles.fields (fs := [presetText]) (gs := [presetEnum]) (env := ({ vars := localVars [] ca } : Env Pkt))
      (Settles.last ⟨rfl, rfl, rfl, rfl, rfl, rfl⟩ rfl rfl rfl rfl rfl rfl (preset_text_settles presetText.attrs)) (by rintro _ _ ⟨_, rfl, _⟩; rfl) fun t _ _ =>
    (Covers.last (f := presetEnum) (env := ({ vars := localVars [] ca } : Env Pkt).extend t)
      ⟨rfl, rfl, rfl, rfl, rfl, rfl⟩ rfl rfl rfl rfl rfl rfl (preset_body_covers presetEnum.attrs)).settles
  refine Settles.mono c ?_
  rintro vs w ⟨v2, u2, w3, w4, rfl, rfl, ⟨q, rfl, s, rfl, h1, h2, rfl⟩, z, rfl, t, x, hx, rfl, rfl⟩
  exact ⟨⟨s, x⟩, t, ⟨h1, h2, hx⟩, rfl, rfl⟩

/-- C108: the default of the example is what its attributes say: the text "123", and the variant for unknown tags with 10. -/
theorem C108_default : presetBodyDefault = some (2, [.num 10]) ∧ presetDefault = some (⟨[49, 50, 51], .unknown 10⟩ : Preset).value := by
  constructor <;> with_unfolding_all rfl

/-- C108: what is written for a message of the example, and which inputs are read as which message.  The tag of `Unknown` may be
anything but those of the others. -/
theorem C108_messages (ca : Option CAttr) (fa : Option FAttr) :
    (∀ m : Preset, Writes (encStruct preset m.value ca fa) m.wire) ∧
    ∀ pre r : List Byte, pre.length + r.length ≤ isizeMax →
      (∃ (m : Preset) (t : Byte) (suf : List Byte), m.Fits t ∧ r = m.wireAs t ++ suf ∧
        decStruct preset ca fa ⟨pre ++ r, pre.length⟩ = (.ok m.value, ⟨pre ++ r, pre.length + (m.wireAs t).length⟩)) ∨
      (¬∃ (m : Preset) (t : Byte) (suf : List Byte), m.Fits t ∧ r = m.wireAs t ++ suf) ∧
        ∃ e b', decStruct preset ca fa ⟨pre ++ r, pre.length⟩ = (.err e, b') := by
  refine ⟨fun m => preset_writes m ca fa, fun pre r hp => ?_⟩
  rcases preset_settles ca fa pre r hp with ⟨v, w, suf, k1, ⟨m, t, hm, rfl, rfl⟩, k3⟩ | ⟨e, b', k⟩
  · exact .inl ⟨m, t, suf, hm, k1, k3⟩
  · refine .inr ⟨?_, e, b', k⟩
    rintro ⟨m, t, suf, hm, rfl⟩
    have := preset_reads m t hm ca fa suf pre (by simpa [Nat.add_assoc] using hp)
    rw [this] at k
    cases k

theorem PresetBody.fits_tag (x : PresetBody) : x.Fits x.tag := by
  cases x <;> first | rfl | exact (⟨by decide, by decide⟩ : (3 : Byte) ≠ 1 ∧ (3 : Byte) ≠ 2)

theorem preset_encodeTop (m : Preset) (h : m.wire.length ≤ isizeMax) : encodeTop (encStruct preset) m.value = .ok ⟨m.wire, m.wire.length⟩ := by
  obtain ⟨n, e⟩ := preset_writes m none none [] (by simpa using h)
  simp only [List.nil_append, List.length_nil, Nat.zero_add] at e
  simp only [encodeTop, Buf.new]
  rw [e]

theorem preset_decodeTop (m : Preset) (t : Byte) (hm : m.Fits t) (h : (m.wireAs t).length ≤ isizeMax) :
    decodeTop (decStruct preset) (m.wireAs t) = .ok m.value := by
  have r := preset_reads m t hm none none [] [] (by simpa using h)
  simp only [List.nil_append, List.append_nil, List.length_nil] at r
  simp only [decodeTop, Buf.ofBytes, r]

/-- C108: a message of which the text is UTF-8 of at most 255 bytes is read back from what is written for it. -/
theorem C108_roundtrip (m : Preset) (h1 : utf8Valid m.text = true) (h2 : m.text.length < 256) :
    encodeTop (encStruct preset) m.value = .ok ⟨m.wire, m.wire.length⟩ ∧ decodeTop (decStruct preset) m.wire = .ok m.value := by
  have hl : m.wire.length ≤ isizeMax := by
    have : m.body.wire.length ≤ 4 := by cases m.body <;> simp [PresetBody.wire]
    have := isize_small
    simp only [Preset.wire, Preset.wireAs, List.length_cons, List.length_append]
    omega
  exact ⟨preset_encodeTop m hl, preset_decodeTop m m.body.tag ⟨h1, h2, m.body.fits_tag⟩ hl⟩

/-- C108: the default value is sent as the bytes of the example, and these are read as the default value. -/
theorem C108_default_sent : ∃ v, presetDefault = some v ∧ encodeTop (encStruct preset) v = .ok ⟨[3, 49, 50, 51, 3, 10], 6⟩ ∧
    decodeTop (decStruct preset) [3, 49, 50, 51, 3, 10] = .ok v :=
  ⟨_, C108_default.2, C108_roundtrip ⟨[49, 50, 51], .unknown 10⟩ (by decide) (by decide)⟩

/-- C108: what was read from an input without a rest is written again as the same bytes exactly if the tag is the one of the
encoder: always for `Read` and `Write`, and for `Unknown` if it is 3. -/
theorem C108_again_partial (m : Preset) (t : Byte) (hm : m.Fits t) (h : (m.wireAs t).length ≤ isizeMax) :
    ∃ v, decodeTop (decStruct preset) (m.wireAs t) = .ok v ∧
      ((∃ b, encodeTop (encStruct preset) v = .ok b ∧ b.data = m.wireAs t) ↔ (∃ x, m.body = .unknown x) → t = 3) := by
  refine ⟨m.value, preset_decodeTop m t hm h, ?_⟩
  have hl : m.wire.length = (m.wireAs t).length := by simp [Preset.wire, Preset.wireAs]
  rw [preset_encodeTop m (by rw [hl]; exact h)]
  have w : m.wire = m.wireAs t ↔ t = m.body.tag := by
    constructor
    · intro h
      simp only [Preset.wire, Preset.wireAs, List.cons.injEq, List.append_cancel_left_eq, true_and] at h
      exact h.1.symm
    · rintro rfl
      rfl
  have k : t = m.body.tag ↔ ((∃ x, m.body = .unknown x) → t = 3) := by
    have hb := hm.body
    cases hx : m.body <;> rw [hx] at hb
    · exact ⟨fun _ ⟨_, h⟩ => (by cases h), fun _ => hb⟩
    · exact ⟨fun _ ⟨_, h⟩ => (by cases h), fun _ => hb⟩
    · exact ⟨fun h _ => h, fun h => h ⟨_, rfl⟩⟩
  rw [← k, ← w]
  constructor
  · rintro ⟨b, h1, h2⟩
    cases h1
    exact h2
  · intro h
    exact ⟨_, rfl, h⟩

example : (⟨[49], .read 5⟩ : Preset).Fits 1 ∧ (⟨[49], .read 5⟩ : Preset).wire = [1, 49, 1, 5] := ⟨⟨by decide, by decide, rfl⟩, rfl⟩

/-- The declaration of the example meets the hypotheses of `C108_fallback` and `C108_unknown`. -/
example : SameAttrs presetBodySource (presetBodySource.zipWith VariantSource.toDefault presetBodyTypes) ∧
    (∀ v ∈ presetBodySource, Attribute.default ∉ v.attrs) ∧ enumOf pktInterp (pktTypes _) [] presetBodySource = some presetBody ∧
    enumDefault presetBodyInterp [] (presetBodySource.zipWith VariantSource.toDefault presetBodyTypes) = some (2, [.num 10]) ∧
    presetBody.tagOf none none ⟨[9, 7], 0⟩ = (.ok (.num 9), ⟨[9, 7], 1⟩) :=
  ⟨rfl, by simp [presetBodySource], C108_body_text, C108_default.1, by with_unfolding_all rfl⟩

/-- C108 is violated: a value received under an unknown tag is sent under another one. -/
theorem C108_violated : decodeTop (decStruct preset) [0, 9, 7] = .ok (⟨[], .unknown 7⟩ : Preset).value ∧
    encodeTop (encStruct preset) (⟨[], .unknown 7⟩ : Preset).value = .ok ⟨[0, 3, 7], 3⟩ := by
  have hl : 3 ≤ isizeMax := Nat.le_trans (by decide) isize_small
  exact ⟨preset_decodeTop ⟨[], .unknown 7⟩ 9 ⟨rfl, by decide, by decide, by decide⟩ hl, preset_encodeTop ⟨[], .unknown 7⟩ hl⟩

unseal usizeMod isizeMax in
/-- C108 is violated: an enum with a variant for unknown tags and another one marked as the default value is accepted by the codec
macros, but has no default value. -/
theorem C108_violated_choice : ∃ vs : List (VariantSource Pkt), (enumOf pktInterp (pktTypes _) [] vs).isSome = true ∧
    (∃ v ∈ vs, ∃ is, v.attrs = [.jbytes is] ∧ .tag "default" ∈ is) ∧
    ∀ tys, tys.length = vs.length → enumDefault presetBodyInterp [] (vs.zipWith VariantSource.toDefault tys) = none := by
  refine ⟨[{ attrs := [.jbytes [.tag "default"]], name := variantName "a" }, { attrs := [.jbytes [.tag "branch_default"]], name := variantName "b" }],
    by with_unfolding_all rfl, ⟨_, List.mem_cons_self, _, rfl, List.mem_cons_self⟩, ?_⟩
  intro tys h
  match tys, h with
  | [t1, t2], _ => cases t1 <;> cases t2 <;> with_unfolding_all rfl

end JBytes
