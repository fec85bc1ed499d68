import Verif.PropTagText
/-!
# C67: which modifiers there are, and what those of a type mean
-/

namespace JBytes

variable {V : Type}

/-- The modifiers of a field or variant without a value. -/
def fieldTags : List String :=
  ["enum_default", "branch_default", "untake", "bits_start", "skip", "skip_encode", "skip_decode", "default",
    "default_value", "from_str", "remaining"]

/-- The modifiers of a field or variant with a value. -/
def fieldProps : List String :=
  ["byteorder", "length", "offset", "count", "try_count", "full", "key", "starts_with", "split", "linend", "end_with",
    "branch", "branch_range", "branch_value", "branch_bits", "branch_bits_value", "byte_count", "byte_size",
    "byte_count_outside", "byte_size_outside", "default_value", "default", "bits", "bits_start", "value_encode",
    "encode_value", "value_decode", "decode_value", "from_str", "with_encode", "encode_with", "with_decode",
    "decode_with", "with_args", "with", "variable_name", "if_expr", "check_value", "loop_skip_starts"]

/-- The modifiers of a type without a value. -/
def typeTags : List String :=
  ["default", "default_value", "byte_count_disable", "branch_starts_with", "branch_starts_with_untake", "u8", "u16", "u32",
    "u64", "usize"]

/-- The modifiers of a type with a value. -/
def typeProps : List String :=
  ["byteorder", "byte_count", "get_variable_name", "default_value", "default", "branch_take_bytes", "with_encode",
    "encode_with", "with_decode", "decode_with", "with"]

/-- `i` is one of these modifiers. -/
def AttrItem.Among (tags props : List String) : AttrItem → Prop
  | .tag n => n ∈ tags
  | .prop k _ => k ∈ props

theorem writes_known (i : AttrItem) : i.writes = none ↔ ¬ i.Among fieldTags fieldProps := by
  cases i with
  | tag n =>
    show tagWrites n = none ↔ n ∉ fieldTags
    unfold tagWrites fieldTags
    split <;> simp_all
  | prop k lit =>
    show propWrites k lit = none ↔ k ∉ fieldProps
    unfold propWrites fieldProps
    split <;> simp_all

theorem containerWrites_known (i : AttrItem) : i.containerWrites = none ↔ ¬ i.Among typeTags typeProps := by
  cases i with
  | tag n =>
    show AttrItem.containerWrites (.tag n) = none ↔ n ∉ typeTags
    simp only [AttrItem.containerWrites, typeTags]
    split <;> simp_all
  | prop k lit =>
    show AttrItem.containerWrites (.prop k lit) = none ↔ k ∉ typeProps
    simp only [AttrItem.containerWrites, typeProps]
    split <;> simp_all

/-- C67: a list of modifiers is rejected exactly when it has one that is not in the tables above. -/
theorem C67_known (items : List AttrItem) (as : List Attribute) :
    (fieldText (.jbytes items :: as) = none ↔ ∃ i ∈ items, ¬ i.Among fieldTags fieldProps) ∧
    (containerText (.jbytes items :: as) = none ↔ ∃ i ∈ items, ¬ i.Among typeTags typeProps) ∧
    (containerText (.repr items :: as) = none ↔ ∃ i ∈ items, ¬ i.Among typeTags typeProps) := by
  have key : ∀ {σ : Type} [DecidableEq σ] (writes : AttrItem → Option (List (σ × AttrVal))) (tags props : List String),
      (∀ i, writes i = none ↔ ¬ i.Among tags props) →
      (assignItems writes (fun _ => none) items = none ↔ ∃ i ∈ items, ¬ i.Among tags props) := by
    intro σ _ writes tags props h
    constructor
    · intro hn
      refine Classical.byContradiction fun hno => ?_
      obtain ⟨f, hf, -⟩ := assignItems_some writes items (fun _ => none) fun i hi => by
        cases hw : writes i with
        | some _ => rfl
        | none => exact absurd ⟨i, hi, (h i).1 hw⟩ hno
      rw [hf] at hn
      cases hn
    · rintro ⟨i, hi, hw⟩
      exact assignItems_none writes items _ ⟨i, hi, (h i).2 hw⟩
  have kf := key AttrItem.writes fieldTags fieldProps writes_known
  have kc := key AttrItem.containerWrites typeTags typeProps containerWrites_known
  refine ⟨?_, ?_, ?_⟩
  · rw [← kf]
    cases hx : assignItems AttrItem.writes (fun _ => none) items <;>
      simp [fieldText, getAttribute, Attribute.field, parseItems, hx]
  all_goals
    rw [← kc]
    cases hx : assignItems AttrItem.containerWrites (fun _ => none) items <;>
      simp [containerText, getAttribute, Attribute.container, parseItems, hx]

example : (fieldText [.jbytes [.tag "untake", .tag "untaken"]]).isNone = true ∧
    (containerText [.jbytes [.prop "byteorder" ['L', 'E'], .prop "length" ['2']]]).isNone = true := by
  refine ⟨Option.isNone_iff_eq_none.2 ((C67_known _ _).1.2 ⟨.tag "untaken", by simp, ?_⟩),
    Option.isNone_iff_eq_none.2 ((C67_known _ _).2.1.2 ⟨.prop "length" ['2'], by simp, ?_⟩)⟩
  · show "untaken" ∉ fieldTags
    decide
  · show "length" ∉ typeProps
    decide

/-- `i` sets the byte order of a type. -/
def AttrItem.SetsOrder : AttrItem → Prop
  | .tag _ => False
  | .prop k _ => k = "byteorder"

/-- `i` sets the width of the tag of a type. -/
def AttrItem.SetsCount : AttrItem → Prop
  | .tag n => n ∈ reprSizes.map Prod.fst
  | .prop k _ => k = "byte_count"

/-- `i` sets the width to `n`. -/
inductive AttrItem.CountIs : AttrItem → Nat → Prop
  | repr {r : String} {n : Nat} : (r, n) ∈ reprSizes → CountIs (.tag r) n
  | bare {s : Text} {n : Nat} : RustNumber s n → n < usizeMod → CountIs (.prop "byte_count" s) n
  | quoted {s : Text} {n : Nat} : RustNumber s n → n < usizeMod → CountIs (.prop "byte_count" ('"' :: (s ++ ['"']))) n

theorem target_order (i : AttrItem) (h : ¬ i.SetsOrder) : CSlot.byteorder ∉ targets AttrItem.containerWrites i := by
  unfold targets
  cases i with
  | tag n => simp only [AttrItem.containerWrites]; split <;> simp
  | prop k lit =>
    replace h : k ≠ "byteorder" := h
    simp only [AttrItem.containerWrites]
    split <;> simp_all

theorem target_count (i : AttrItem) (h : ¬ i.SetsCount) : CSlot.byteCount ∉ targets AttrItem.containerWrites i := by
  unfold targets
  cases i with
  | tag n =>
    replace h : n ∉ reprSizes.map Prod.fst := h
    simp only [AttrItem.containerWrites]
    split <;> simp_all [reprSizes]
  | prop k lit =>
    replace h : k ≠ "byte_count" := h
    simp only [AttrItem.containerWrites]
    split <;> simp_all

theorem lastTo_after {σ : Type} [DecidableEq σ] {s : σ} {a b : List (σ × AttrVal)} (h : s ∉ b.map Prod.fst) :
    lastTo s (a ++ b) = lastTo s a := by
  have hb := lastTo_none h
  unfold lastTo at hb ⊢
  rw [List.filter_append, List.getLast?_append]
  cases hl : (b.filter fun w => s = w.1).getLast? with
  | none => rfl
  | some x => rw [hl] at hb; cases hb

theorem lastTo_last {σ : Type} [DecidableEq σ] {s : σ} {a : List (σ × AttrVal)} {v : AttrVal} :
    lastTo s (a ++ [(s, v)]) = some v := by
  unfold lastTo
  rw [List.filter_append, List.getLast?_append]
  simp

theorem not_targets {σ : Type} [DecidableEq σ] {writes : AttrItem → Option (List (σ × AttrVal))} {s : σ} {items : List AttrItem}
    (h : ∀ i ∈ items, s ∉ targets writes i) : s ∉ (items.flatMap fun i => (writes i).getD []).map Prod.fst := by
  intro hs
  obtain ⟨w, hw, rfl⟩ := List.mem_map.1 hs
  obtain ⟨i, hi, hw⟩ := List.mem_flatMap.1 hw
  exact h i hi (List.mem_map.2 ⟨w, hw, rfl⟩)

/-- C67: the byte order of a type is the one that its last `byteorder` names, and the width of its tag the last number
given for it; a type without modifiers says nothing. -/
theorem C67_type (attr : List AttrItem → Attribute) (ha : attr = .jbytes ∨ attr = .repr) (items : List AttrItem)
    (as : List Attribute) (t : AttrRecord CSlot) (ht : containerText (attr items :: as) = some t) :
    (items = [] → t.modifiers = none) ∧
    (items ≠ [] → ∃ c, t.modifiers = some c ∧
      ((∀ i ∈ items, ¬ i.SetsOrder) → c.byteorder = none) ∧
      (∀ before lit after o, items = before ++ .prop "byteorder" lit :: after → (∀ i ∈ after, ¬ i.SetsOrder) →
        (litText lit, o) ∈ orderNames → c.byteorder = some o) ∧
      ((∀ i ∈ items, ¬ i.SetsCount) → c.byteCount = none) ∧
      (∀ before i after n, items = before ++ i :: after → (∀ i ∈ after, ¬ i.SetsCount) → i.CountIs n →
        c.byteCount = some n)) := by
  have hk : ∀ i ∈ items, (AttrItem.containerWrites i).isSome = true := by
    intro i hi
    cases hw : i.containerWrites with
    | some _ => rfl
    | none =>
      have hn := (containerWrites_known i).1 hw
      rcases ha with rfl | rfl
      · rw [(C67_known items as).2.1.2 ⟨i, hi, hn⟩] at ht; cases ht
      · rw [(C67_known items as).2.2.2 ⟨i, hi, hn⟩] at ht; cases ht
  obtain ⟨f, h1, h2⟩ := assignItems_some AttrItem.containerWrites items (fun _ => none) hk
  have e : t = ⟨!items.isEmpty, f⟩ := by
    rcases ha with rfl | rfl <;>
    · simp only [containerText, getAttribute, Attribute.container, parseItems, h1, Option.map_some, Option.getD_some,
        Option.some.injEq] at ht
      exact ht.symm
  subst e
  have h2 : ∀ s, f s = lastTo s (items.flatMap fun i => i.containerWrites.getD []) := fun s => (h2 s).trans (by simp)
  have hlast : ∀ s before i after v, items = before ++ i :: after → (∀ j ∈ after, s ∉ targets AttrItem.containerWrites j) →
      i.containerWrites = some [(s, v)] → f s = some v := by
    intro s before i after v he hafter hw
    rw [h2, he, List.flatMap_append, List.flatMap_cons, hw, ← List.append_assoc, lastTo_after (not_targets hafter)]
    exact lastTo_last
  refine ⟨fun h => by subst h; rfl, fun h => ⟨_, by unfold AttrRecord.modifiers; rw [if_pos (by simpa using h)], ?_, ?_, ?_, ?_⟩⟩
  · intro hno
    simp only [h2, lastTo_none (not_targets fun i hi => target_order i (hno i hi)), Option.bind_none]
  · intro before lit after o he hafter ho
    have := hlast .byteorder before _ after _ he (fun j hj => target_order j (hafter j hj)) rfl
    simp only [this, Option.bind_some]
    unfold parseByteorder
    generalize litText lit = s at ho
    simp only [orderNames, List.mem_cons, List.not_mem_nil, or_false, Prod.mk.injEq] at ho
    rcases ho with ⟨rfl, rfl⟩ | ⟨rfl, rfl⟩ | ⟨rfl, rfl⟩ | ⟨rfl, rfl⟩ | ⟨rfl, rfl⟩ | ⟨rfl, rfl⟩ <;> rfl
  · intro hno
    simp only [h2, lastTo_none (not_targets fun i hi => target_count i (hno i hi)), Option.bind_none]
  · intro before i after n he hafter hc
    have hw : i.containerWrites = some [(.byteCount, .usize n)] := by
      cases hc with
      | repr hr =>
        simp only [reprSizes, List.mem_cons, List.not_mem_nil, or_false, Prod.mk.injEq] at hr
        rcases hr with ⟨rfl, rfl⟩ | ⟨rfl, rfl⟩ | ⟨rfl, rfl⟩ | ⟨rfl, rfl⟩ | ⟨rfl, rfl⟩ <;> rfl
      | bare hs hn => simp only [AttrItem.containerWrites, (C65_number _ n hs hn).1]
      | quoted hs hn => simp only [AttrItem.containerWrites, (C65_number _ n hs hn).2]
    have := hlast .byteCount before i after _ he (fun j hj => target_count j (hafter j hj)) hw
    simp only [this, Option.bind_some]

/-- `#[jbytes(byteorder = "BE", byte_count = 2, byteorder = "<")]` -/
example : ∃ t c, containerText [.jbytes [.prop "byteorder" ['"', 'B', 'E', '"'], .prop "byte_count" ['2'],
      .prop "byteorder" ['"', '<', '"']]] = some t ∧ t.modifiers = some c ∧ c.byteorder = some .le ∧ c.byteCount = some 2 := by
  refine ⟨_, _, rfl, rfl, ?_, ?_⟩
  · obtain ⟨c, h1, -, h2, -⟩ := (C67_type .jbytes (.inl rfl) [.prop "byteorder" ['"', 'B', 'E', '"'], .prop "byte_count" ['2'],
      .prop "byteorder" ['"', '<', '"']] [] _ rfl).2 (by simp)
    cases h1
    exact h2 [.prop "byteorder" ['"', 'B', 'E', '"'], .prop "byte_count" ['2']] ['"', '<', '"'] [] .le rfl (fun i h => nomatch h)
      (by decide +kernel)
  · obtain ⟨c, h1, -, -, -, h2⟩ := (C67_type .jbytes (.inl rfl) [.prop "byteorder" ['"', 'B', 'E', '"'], .prop "byte_count" ['2'],
      .prop "byteorder" ['"', '<', '"']] [] _ rfl).2 (by simp)
    cases h1
    refine h2 [.prop "byteorder" ['"', 'B', 'E', '"']] (.prop "byte_count" ['2']) [.prop "byteorder" ['"', '<', '"']] 2 rfl ?_
      (.bare (.dec (.digit (by decide +kernel))) (by rw [usizeMod_def]; decide))
    intro i hi
    rw [List.mem_singleton.1 hi]
    exact (by decide : ¬ "byteorder" = "byte_count")

end JBytes
