import Verif.PropEnumText
import Verif.PropSheet
/-!
# C81 with every modifier, on variants and on their fields

`PropEnumText` has variants that carry only what tells them apart, with fields that are laid out.  Here variants also carry
modifiers for their fields, and fields carry any modifier, as in `PropSheet`.
-/

namespace JBytes
open M

variable {V : Type}

/-! ## What the text says -/

/-- The items that tell a variant from the others. -/
def AttrItem.tells : AttrItem → Bool
  | .tag k => ["branch_default", "enum_default"].contains k
  | .prop k _ => ["branch_value", "branch_range", "branch_bits", "branch_bits_value"].contains k

/-- What the attributes of a variant say: what tells it from the others, and what it says for its fields. -/
inductive CaseSays (I : Interp V) : List Attribute → Mark → Sheet V → Prop
  | items {as : List Attribute} {is : List AttrItem} {m : Mark} {s : Sheet V} : Carries as is → MarkSays I (is.filter AttrItem.tells) m →
      SheetSays I (is.filter fun i => !i.tells) s → CaseSays I as m s
  | default {before after : List Attribute} : (∀ a ∈ before, a = .other) → CaseSays I (before ++ .default :: after) .rest {}

/-- A variant as written, and what its text says. -/
structure Case (V : Type) where
  source : VariantSource V
  disc : Option Nat
  mark : Mark
  over : Sheet V

/-- The variant, without what it says for its fields. -/
def Case.arm (c : Case V) : Arm V := ⟨c.source, c.disc, c.mark, []⟩

/-- The text of the variant says this. -/
structure Case.Said (I : Interp V) (c : Case V) : Prop where
  value : ValueSays c.source.value c.disc
  mark : CaseSays I c.source.attrs c.mark c.over
  fields : ∀ f ∈ c.source.fields, ∃ is s, Carries f.attrs is ∧ SheetSays I is s

/-- The rows are the fields of the variant with what is written on them. -/
structure Case.Has (I : Interp V) (c : Case V) (rs : List (Row V)) : Prop where
  source : rs.map Row.source = c.source.fields
  says : ∀ r ∈ rs, Carries r.source.attrs r.items ∧ SheetSays I r.items r.sheet

/-! ## From the items to the variant -/

def markSlots : List Slot := [.branchDefault, .branchValue, .branchRange, .branchBits, .branchBitsValue]

theorem assign_same {σ : Type} [DecidableEq σ] (ws : List (σ × AttrVal)) : ∀ (g g' : σ → Option AttrVal) (k : σ), g k = g' k →
    assign g ws k = assign g' ws k := by
  induction ws with
  | nil => intro g g' k h; exact h
  | cons w ws ih =>
    intro g g' k h
    refine ih _ _ k ?_
    simp only [h]

theorem assign_apart {σ : Type} [DecidableEq σ] (ws : List (σ × AttrVal)) : ∀ (g : σ → Option AttrVal) (k : σ), (∀ w ∈ ws, k ≠ w.1) →
    assign g ws k = g k := by
  induction ws with
  | nil => intro g k _; rfl
  | cons w ws ih =>
    intro g k h
    refine (ih _ k fun x hx => h x (List.mem_cons_of_mem _ hx)).trans ?_
    simp only [if_neg (h w List.mem_cons_self)]

theorem writes_tells (i : AttrItem) (ws : List (Slot × AttrVal)) (h : i.writes = some ws) :
    ∀ w ∈ ws, (w.1 ∈ markSlots ↔ i.tells = true) := by
  cases i with
  | tag k =>
    simp only [AttrItem.writes, tagWrites] at h
    split at h <;> simp_all [AttrItem.tells, markSlots] <;> subst h <;> simp
  | prop k l =>
    simp only [AttrItem.writes, propWrites] at h
    split at h <;> simp_all [AttrItem.tells, markSlots] <;> subst h <;>
      first | (simp; done) | (simp; rintro a b (⟨rfl, rfl⟩ | ⟨rfl, rfl⟩) <;> simp)

/-- Items that tell the variant and items for its fields do not meet. -/
theorem assign_merged (is : List AttrItem) : ∀ (g gm gs fm fs : Slot → Option AttrVal),
    (∀ k, g k = if k ∈ markSlots then gm k else gs k) → assignItems AttrItem.writes gm (is.filter AttrItem.tells) = some fm →
    assignItems AttrItem.writes gs (is.filter fun i => !i.tells) = some fs →
    ∃ f, assignItems AttrItem.writes g is = some f ∧ ∀ k, f k = if k ∈ markSlots then fm k else fs k := by
  induction is with
  | nil =>
    intro g gm gs fm fs h h1 h2
    cases h1
    cases h2
    exact ⟨g, rfl, h⟩
  | cons i is ih =>
    intro g gm gs fm fs h h1 h2
    cases hw : i.writes with
    | none =>
      cases ht : i.tells with
      | true => simp [ht, assignItems, hw] at h1
      | false => simp [ht, assignItems, hw] at h2
    | some ws =>
      have hws := writes_tells i ws hw
      cases ht : i.tells with
      | true =>
        simp only [List.filter_cons, ht, if_true, Bool.not_true, Bool.false_eq_true, if_false, assignItems, hw, Option.bind_some] at h1 h2
        simp only [assignItems, hw, Option.bind_some]
        refine ih _ _ _ fm fs (fun k => ?_) h1 h2
        by_cases hk : k ∈ markSlots
        · rw [if_pos hk]
          refine assign_same _ _ _ _ ?_
          rw [h, if_pos hk]
        · rw [if_neg hk, assign_apart, h, if_neg hk]
          rintro w hm rfl
          exact hk ((hws w hm).2 ht)
      | false =>
        simp only [List.filter_cons, ht, if_true, Bool.not_false, Bool.false_eq_true, if_false, assignItems, hw, Option.bind_some] at h1 h2
        simp only [assignItems, hw, Option.bind_some]
        refine ih _ _ _ fm fs (fun k => ?_) h1 h2
        by_cases hk : k ∈ markSlots
        · rw [if_pos hk, assign_apart, h, if_pos hk]
          rintro w hm rfl
          have := (hws w hm).1 hk
          rw [ht] at this
          cases this
        · rw [if_neg hk]
          refine assign_same _ _ _ _ ?_
          rw [h, if_neg hk]

/-- The places that tell the variant hold what `m` says. -/
def HoldsMark (I : Interp V) (t : AttrRecord Slot) (m : Mark) : Prop :=
  ∃ bits bv br, t.bits = some bits ∧ t.pattern I .branchValue = some bv ∧ t.pattern I .branchRange = some br ∧
    countRestart t none = some m.number? ∧ ∀ (v : VariantSource V) fs num, assembleVariant I v t fs num bits bv br =
      some ((⟨v, v.value.bind fun _ => num, m, []⟩ : Arm V).variant (t.meaning I) fs)

theorem mark_holds (I : Interp V) {is : List AttrItem} {m : Mark} (h : MarkSays I is m) :
    ∃ g, assignItems AttrItem.writes (fun _ => none) is = some g ∧
      ∀ t : AttrRecord Slot, (∀ k ∈ markSlots, t.get k = g k) → HoldsMark I t m := by
  have key : ∀ (g : Slot → Option AttrVal), assignItems AttrItem.writes (fun _ => none) is = some g →
      (∀ (t : AttrRecord Slot), t.get .branchDefault = g .branchDefault → t.get .branchValue = g .branchValue →
        t.get .branchRange = g .branchRange → t.get .branchBits = g .branchBits → t.get .branchBitsValue = g .branchBitsValue →
        HoldsMark I t m) →
      ∃ g, assignItems AttrItem.writes (fun _ => none) is = some g ∧
        ∀ t : AttrRecord Slot, (∀ k ∈ markSlots, t.get k = g k) → HoldsMark I t m := fun g h1 h2 =>
    ⟨g, h1, fun t ht => h2 t (ht _ (by decide)) (ht _ (by decide)) (ht _ (by decide)) (ht _ (by decide)) (ht _ (by decide))⟩
  cases h with
  | count =>
    refine key _ rfl fun t h1 h2 h3 h4 h5 => ⟨none, none, none, ?_⟩
    simp [AttrRecord.bits, AttrRecord.pattern, countRestart, numberSource, h1, h2, h3, h4, assembleVariant, Arm.variant,
      AttrRecord.has, Mark.number?]
  | @rest k hk =>
    simp only [List.mem_cons, List.not_mem_nil, or_false] at hk
    rcases hk with rfl | rfl <;>
    · refine key _ rfl fun t h1 h2 h3 h4 h5 => ⟨none, none, none, ?_⟩
      simp only [assign, List.foldl_cons, List.foldl_nil, reduceCtorEq, if_false, if_true] at h1 h2 h3 h4
      simp [AttrRecord.bits, AttrRecord.pattern, countRestart, numberSource, h1, h2, h3, h4, assembleVariant, Arm.variant,
        AttrRecord.has, Mark.number?]
  | @number lit n hn =>
    obtain ⟨s, ht, hr, hlt⟩ := hn
    refine key (assign (fun _ => none) [(.branchValue, .code s)]) (by rw [← ht.text]; rfl) fun t h1 h2 h3 h4 h5 =>
      ⟨none, some (.tag (.num n)), none, ?_⟩
    simp only [assign, List.foldl_cons, List.foldl_nil, reduceCtorEq, if_false, if_true] at h1 h2 h3 h4
    simp [AttrRecord.bits, AttrRecord.pattern, countRestart, numberSource, h1, h2, h3, h4, assembleVariant, Arm.variant,
      AttrRecord.has, Mark.number?, AttrVal.text, pattern_rust I hr hlt, numberOfText_rust hr hlt]
  | @word lit s ht hd =>
    obtain ⟨e1, e2⟩ := word_texts I s hd
    refine key (assign (fun _ => none) [(.branchValue, .code ('b' :: '"' :: s))]) (by rw [← ht.text]; rfl) fun t h1 h2 h3 h4 h5 =>
      ⟨none, some (.tag (.bytes (I.bytes ('b' :: '"' :: s)))), none, ?_⟩
    simp only [assign, List.foldl_cons, List.foldl_nil, reduceCtorEq, if_false, if_true] at h1 h2 h3 h4
    simp [AttrRecord.bits, AttrRecord.pattern, countRestart, numberSource, h1, h2, h3, h4, assembleVariant, Arm.variant,
      AttrRecord.has, Mark.number?, AttrVal.text, e1, e2]
  | @range lit x y incl hr =>
    obtain ⟨lo, hi, ht, hlo, hhi, hy⟩ := hr
    obtain ⟨e1, e2⟩ := range_texts I hlo hhi hy _ rfl
    generalize lo ++ ((if incl then ['.', '.', '='] else ['.', '.']) ++ hi) = s at ht e1 e2
    refine key (assign (fun _ => none) [(.branchRange, .code s)]) (by rw [← ht.text]; rfl) fun t h1 h2 h3 h4 h5 =>
      ⟨none, none, some (.range x y incl), ?_⟩
    simp only [assign, List.foldl_cons, List.foldl_nil, reduceCtorEq, if_false, if_true] at h1 h2 h3 h4
    simp [AttrRecord.bits, AttrRecord.pattern, countRestart, numberSource, h1, h2, h3, h4, assembleVariant, Arm.variant,
      AttrRecord.has, Mark.number?, AttrVal.text, e1, e2]
  | @bits lit x hn =>
    obtain ⟨s, ht, hr, hlt⟩ := hn
    refine key (assign (fun _ => none) [(.branchBits, .code s)]) (by rw [← ht.text]; rfl) fun t h1 h2 h3 h4 h5 =>
      ⟨some (x, none), none, none, ?_⟩
    simp only [assign, List.foldl_cons, List.foldl_nil, reduceCtorEq, if_false, if_true] at h1 h2 h3 h4 h5
    simp [AttrRecord.bits, AttrRecord.pattern, countRestart, numberSource, h1, h2, h3, h4, h5, assembleVariant, Arm.variant,
      AttrRecord.has, Mark.number?, AttrVal.text, literalNumber_rust hr hlt]
  | @bitsValue lit lit' x y hn hn' =>
    obtain ⟨s, ht, hr, hlt⟩ := hn
    obtain ⟨s', ht', hr', hlt'⟩ := hn'
    refine key (assign (fun _ => none) [(.branchBits, .code s), (.branchBitsValue, .code s')]) (by rw [← ht.text, ← ht'.text]; rfl)
      fun t h1 h2 h3 h4 h5 => ⟨some (x, some y), none, none, ?_⟩
    simp only [assign, List.foldl_cons, List.foldl_nil, reduceCtorEq, if_false, if_true] at h1 h2 h3 h4 h5
    simp [AttrRecord.bits, AttrRecord.pattern, countRestart, numberSource, h1, h2, h3, h4, h5, assembleVariant, Arm.variant,
      AttrRecord.has, Mark.number?, AttrVal.text, literalNumber_rust hr hlt, literalNumber_rust hr' hlt']
  | @valueBits lit lit' x y hn hn' =>
    obtain ⟨s, ht, hr, hlt⟩ := hn
    obtain ⟨s', ht', hr', hlt'⟩ := hn'
    refine key (assign (fun _ => none) [(.branchBitsValue, .code s'), (.branchBits, .code s)]) (by rw [← ht.text, ← ht'.text]; rfl)
      fun t h1 h2 h3 h4 h5 => ⟨some (x, some y), none, none, ?_⟩
    simp only [assign, List.foldl_cons, List.foldl_nil, reduceCtorEq, if_false, if_true] at h1 h2 h3 h4 h5
    simp [AttrRecord.bits, AttrRecord.pattern, countRestart, numberSource, h1, h2, h3, h4, h5, assembleVariant, Arm.variant,
      AttrRecord.has, Mark.number?, AttrVal.text, literalNumber_rust hr hlt, literalNumber_rust hr' hlt']

/-- The modifiers of the variant amount to the sheet. -/
structure Fitted (s : Sheet V) (at' : FieldAttrs V) : Prop where
  own : ∀ env b, at'.toCode env b = (.ok (s.told env), b)
  gap : ∀ env, JBytes.gap at' env = s.gap env
  fill : at'.full = s.fill

theorem case_variant (I : Interp V) (c : Case V) (hv : ValueSays c.source.value c.disc) (hm : CaseSays I c.source.attrs c.mark c.over)
    (fs : List (Field V)) (hfs : c.source.fields.mapM (fieldOf I) = some fs) :
    ∃ at', variantOf I c.source = some (c.arm.variant at' fs) ∧ Fitted c.over at' := by
  have key : ∀ (t : AttrRecord Slot), fieldText c.source.attrs = some t → HoldsMark I t c.mark → Fitted c.over (t.meaning I) →
      ∃ at', variantOf I c.source = some (c.arm.variant at' fs) ∧ Fitted c.over at' := by
    intro t ht ⟨bits, bv, br, hb, hbv, hbr, hn, hw⟩ hq
    obtain ⟨num, h1, h2⟩ := value_number hv t c.mark hn
    refine ⟨t.meaning I, ?_, hq⟩
    unfold variantOf
    simp only [ht, hfs, Option.bind_some, h1, hb, hbv, hbr, hw, h2]
    rfl
  generalize hmk : c.mark = m at hm key
  generalize has : c.source.attrs = as at hm key
  generalize hov : c.over = s at hm key
  cases hm with
  | @default before after hb =>
    refine key { get := fun s => if s = .branchDefault then some .flag else none }
      (by rw [C67_others before (fun a ha => .inl (hb a ha))]; rfl) ?_ ?_
    · refine ⟨none, none, none, ?_⟩
      simp [AttrRecord.bits, AttrRecord.pattern, countRestart, numberSource, assembleVariant, Arm.variant, AttrRecord.has, Mark.number?]
    · refine ⟨fun env b => ?_, fun env => rfl, rfl⟩
      rw [toCode_ok]
      · rfl
      · intro e he
        cases he
  | @items as is m s hc h1 h2 =>
    obtain ⟨gm, hgm, hold⟩ := mark_holds I h1
    obtain ⟨gs, hgs, ham⟩ := says_amounts I h2
    obtain ⟨g, hg, hk⟩ := assign_merged is _ _ _ _ _ (fun k => by split <;> rfl) hgm hgs
    have hme : ((⟨!is.isEmpty, g⟩ : AttrRecord Slot).meaning I : FieldAttrs V) = (⟨!is.isEmpty, gs⟩ : AttrRecord Slot).meaning I := by
      have hk' : ∀ k, k ∉ markSlots → g k = gs k := fun k h => by rw [hk, if_neg h]
      simp only [AttrRecord.meaning, AttrRecord.has, hk' .byteorder (by decide), hk' .length (by decide), hk' .offset (by decide),
        hk' .untake (by decide), hk' .full (by decide), hk' .count (by decide), hk' .tryCount (by decide), hk' .bits (by decide),
        hk' .bitsStart (by decide), hk' .byteCount (by decide), hk' .byteCountOutside (by decide), hk' .valueEncode (by decide),
        hk' .valueDecode (by decide), hk' .fromStrBool (by decide), hk' .fromStr (by decide), hk' .variableName (by decide),
        hk' .key (by decide), hk' .split (by decide), hk' .linend (by decide), hk' .remaining (by decide), hk' .branch (by decide),
        hk' .withDecode (by decide), hk' .withArgs (by decide), hk' .withBoth (by decide), hk' .withEncode (by decide),
        hk' .ifExpr (by decide), hk' .skip (by decide), hk' .skipEncode (by decide), hk' .skipDecode (by decide),
        hk' .loopSkipStarts (by decide), hk' .checkValue (by decide)]
      rfl
    refine key _ (carries_field hc hg) (hold _ fun k hm => by show g k = _; rw [hk, if_pos hm]) ?_
    have am := ham (!is.isEmpty)
    refine ⟨fun env b => ?_, fun env => ?_, ?_⟩
    · rw [hme, toCode_ok _ _ (am.order env)]
      congr 2
      cases is with
      | cons i is => exact am.own rfl env
      | nil =>
        cases hgs
        rcases am.silent with ⟨-, h2⟩ | ⟨h1, -⟩
        · rw [h2]; rfl
        · exact absurd (by exact ⟨rfl, rfl, rfl, rfl, rfl, rfl, rfl, rfl, rfl, rfl, rfl, rfl, rfl, rfl⟩) h1
    · rw [hme, am.gap]
    · rw [hme, am.fill]

/-- The variants that the macro makes. -/
inductive Made (I : Interp V) : List (Case V) → List (Variant V) → Prop
  | nil : Made I [] []
  | cons {c : Case V} {cs : List (Case V)} {at' : FieldAttrs V} {fs : List (Field V)} {us : List (Variant V)} : Fitted c.over at' →
      c.source.fields.mapM (fieldOf I) = some fs → Made I cs us → Made I (c :: cs) (c.arm.variant at' fs :: us)

theorem Made.built {I : Interp V} {cs : List (Case V)} {us : List (Variant V)} (h : Made I cs us) :
    Built I (fun _ => True) (cs.map Case.arm) us := by
  induction h with
  | nil => exact .nil
  | cons _ hf _ ih => exact .cons trivial hf ih

theorem Made.get {I : Interp V} {cs : List (Case V)} {us : List (Variant V)} (h : Made I cs us) {i : Nat} {c : Case V}
    (hc : cs[i]? = some c) : ∃ at' fs, us[i]? = some (c.arm.variant at' fs) ∧ Fitted c.over at' ∧
      c.source.fields.mapM (fieldOf I) = some fs := by
  induction h generalizing i with
  | nil => cases hc
  | @cons c' cs at' fs us hq hfs _ ih =>
    cases i with
    | zero => cases hc; exact ⟨_, _, rfl, hq, hfs⟩
    | succ i => exact ih hc

theorem sheets_mapM (I : Interp V) (fs : List (FieldSource V)) (h : ∀ f ∈ fs, ∃ is s, Carries f.attrs is ∧ SheetSays I is s) :
    ∃ us, fs.mapM (fieldOf I) = some us := by
  induction fs with
  | nil => exact ⟨[], rfl⟩
  | cons f fs ih =>
    obtain ⟨us, hu⟩ := ih fun x hx => h x (List.mem_cons_of_mem _ hx)
    obtain ⟨is, s, hc, hs⟩ := h f List.mem_cons_self
    obtain ⟨g, hg, -⟩ := says_sheet I hc hs
    refine ⟨⟨(⟨!is.isEmpty, g⟩ : AttrRecord Slot).meaning I, f.dec, f.enc, f.dflt, f.noneV⟩ :: us, ?_⟩
    simp only [List.mapM_cons, fieldOf, hg, Option.map_some, hu]
    rfl

theorem made_of (I : Interp V) (cs : List (Case V)) (h : ∀ c ∈ cs, c.Said I) :
    ∃ us, (cs.map Case.source).mapM (variantOf I) = some us ∧ Made I cs us := by
  induction cs with
  | nil => exact ⟨[], rfl, .nil⟩
  | cons c cs ih =>
    obtain ⟨us, h1, h2⟩ := ih fun x hx => h x (List.mem_cons_of_mem _ hx)
    have hc := h c List.mem_cons_self
    obtain ⟨fs, hfs⟩ := sheets_mapM I _ hc.fields
    obtain ⟨at', hv, hq⟩ := case_variant I c hc.value hc.mark fs hfs
    refine ⟨_, ?_, .cons hq hfs h2⟩
    rw [List.map_cons, List.mapM_cons, hv, h1]
    rfl

theorem enumOf_cases (I : Interp V) (W : TypeInterp (Nat × List V)) {as : List Attribute} {reach : Option CAttr} {h : Header}
    {cs : List (Case V)} (hh : HeaderSays as reach h) (hs : ∀ c ∈ cs, c.Said I) :
    ∃ E : EnumDef V, enumOf I W as (cs.map Case.source) = (if E.accepted then some E else none) ∧ E.container = reach ∧
      E.getVars = h.vars ∧ E.mode = h.mode ∧ E.byteCountDisable = h.bare ∧ E.withDecode = none ∧ Made I cs E.variants := by
  obtain ⟨t, ht, h1, h2, h3, h4, h5⟩ := header_container hh W
  obtain ⟨us, hu, hb⟩ := made_of I cs hs
  refine ⟨⟨reach, h.vars, h.mode, h.bare, us, none⟩, ?_, rfl, rfl, rfl, rfl, rfl, hb⟩
  simp only [enumOf, ht, hu, h1, h2, h3, h4, h5, Option.bind_some, Option.isSome_none, Bool.false_or]

theorem enumOf_made (I : Interp V) (W : TypeInterp (Nat × List V)) {as : List Attribute} {reach : Option CAttr} {h : Header}
    {cs : List (Case V)} (hh : HeaderSays as reach h) (hs : ∀ c ∈ cs, c.Said I) {E : EnumDef V}
    (hE : enumOf I W as (cs.map Case.source) = some E) : E.container = reach ∧
      E.getVars = h.vars ∧ E.mode = h.mode ∧ E.byteCountDisable = h.bare ∧ E.withDecode = none ∧ Made I cs E.variants := by
  obtain ⟨E', h1, h2⟩ := enumOf_cases I W hh hs
  rw [hE] at h1
  by_cases ha : E'.accepted = true
  · rw [if_pos ha] at h1
    cases h1
    exact h2
  · rw [if_neg ha] at h1
    cases h1

theorem case_reads (I : Interp V) {E : EnumDef V} {c : Case V} {at' : FieldAttrs V} {fs : List (Field V)} (hq : Fitted c.over at')
    (hf : c.source.fields.mapM (fieldOf I) = some fs) {rs : List (Row V)} (hr : c.Has I rs) {ca : Option CAttr}
    {gap w suf : List Byte} (hg : gap.length = c.over.gap { vars := localVars E.getVars ca })
    (h : RowsRead I c.source.tuple E.container (c.over.told { vars := localVars E.getVars ca }) { vars := localVars E.getVars ca } rs w suf) :
    Reads (variantFields E ca (c.arm.variant at' fs)) (rs.map Row.v) (gap ++ w) suf := by
  obtain ⟨fs', e1, e2⟩ := rows_fields I hr.says
  rw [hr.source, hf] at e1
  cases e1
  have r1 := e2 _ _ _ _ _ _ h
  intro pre hp
  simp only [List.length_append] at hp
  have r := r1 (pre ++ gap) (by simp only [List.length_append]; omega)
  simp only [List.length_append, List.append_assoc] at r
  have := isizeMax_lt
  rw [variantFields, bind_apply, show (c.arm.variant at' fs).attrs = at' from rfl, hq.own]
  simp only
  rw [bind_apply, skipOffset_run _ _ _ (by rw [hq.gap, ← hg]; simp only; omega), hq.gap, ← hg]
  simp only [List.append_assoc, List.length_append]
  rw [show (c.arm.variant at' fs).tuple = c.source.tuple from rfl, show (c.arm.variant at' fs).fields = fs from rfl, r, Nat.add_assoc]

/-! ## The theorems -/

/-- C81, every modifier (what can be derived): there is a codec exactly when the variants go with the way tags are written. -/
theorem C81_sheet_derivable (I : Interp V) (W : TypeInterp (Nat × List V)) (as : List Attribute) (reach : Option CAttr) (h : Header)
    (cs : List (Case V)) (hh : HeaderSays as reach h) (hs : ∀ c ∈ cs, c.Said I) :
    (enumOf I W as (cs.map Case.source)).isSome ↔ Suits h.mode (cs.map Case.arm) := by
  obtain ⟨E, h1, -, -, hm, -, -, hb⟩ := enumOf_cases I W hh hs
  rw [h1, ← hm, ← suits_accepted E hb.built]
  cases E.accepted <;> simp

/-- C81, every modifier (encoding): a value is the tag of its variant, the gap that is written on the variant, and its fields as
their text says; a field without modifiers has those of the field before, the first those of the variant. -/
theorem C81_sheet_encode (I : Interp V) (W : TypeInterp (Nat × List V)) (as : List Attribute) (reach : Option CAttr) (h : Header)
    (cs : List (Case V)) (hh : HeaderSays as reach h) (hs : ∀ c ∈ cs, c.Said I) (E : EnumDef V)
    (hE : enumOf I W as (cs.map Case.source) = some E) (i : Nat) (c : Case V) (num : Nat) (hc : cs[i]? = some c)
    (hn : (rustDiscs 0 (cs.map (·.arm.number?)))[i]? = some num) (rs : List (Row V)) (hr : c.Has I rs) (ca : Option CAttr)
    (fa : Option FAttr) (env : Env V) (he : env = { vars := localVars h.vars ca }) (tw w : List Byte)
    (ht : TagWritten reach h c.arm num ca fa tw) (hw : RowsWritten I reach true (c.over.told env) env rs w) :
    Writes (encEnum E (i, rs.map Row.v) ca fa) (tw ++ (List.replicate (c.over.gap env) c.over.fill ++ w)) := by
  obtain ⟨rfl, hv, hm, hd, -, hb⟩ := enumOf_made I W hh hs hE
  subst he
  obtain ⟨at', fs, hu, hq, hf⟩ := hb.get hc
  have hiv : E.IsVariant i (c.arm.variant at' fs) num := by
    refine ⟨hu, ?_⟩
    rw [← C44_numbers, EnumDef.numbers, hb.built.numbers, List.map_map]
    exact hn
  obtain ⟨fs', e1, e2⟩ := rows_written I hw hr.says
  rw [hr.source, hf] at e1
  cases e1
  rw [← hv] at e2 ⊢
  have hbody : Writes (do
      padOffset at' { vars := localVars E.getVars ca }
      encFields true fs E.container (c.over.told { vars := localVars E.getVars ca }) { vars := localVars E.getVars ca } (rs.map Row.v))
      (List.replicate (c.over.gap { vars := localVars E.getVars ca }) c.over.fill ++ w) := by
    intro pre hp
    simp only [List.length_append, List.length_replicate] at hp
    obtain ⟨n, e⟩ := e2 (pre ++ List.replicate (c.over.gap { vars := localVars E.getVars ca }) c.over.fill)
      (by simp only [List.length_append, List.length_replicate]; omega)
    simp only [List.length_append, List.length_replicate] at e
    refine ⟨n, ?_⟩
    rw [bind_apply, padOffset_end _ _ _ (by rw [hq.gap]; omega), hq.gap, hq.fill]
    simp only [e, List.append_assoc, List.length_append, List.length_replicate, Nat.add_assoc]
  refine ((ht.writes hm hd at' fs).seq hbody).congr fun b => ?_
  have e : encEnum E (i, rs.map Row.v) ca fa = encVariant E (c.arm.variant at' fs) num (rs.map Row.v) ca fa := by
    simp only [encEnum, (zip_get E i _ num).mpr hiv]
  rw [e, encVariant, bind_apply, show (c.arm.variant at' fs).attrs = at' from rfl, hq.own]
  simp only [bind_apply]
  rcases encTagMode E (c.arm.variant at' fs) num ca fa b with ⟨o, b1⟩
  cases o with
  | ok n =>
    simp only
    rcases padOffset at' { vars := localVars E.getVars ca } b1 with ⟨o2, b2⟩
    cases o2 <;> rfl
  | _ => rfl

/-- C81, every modifier (decoding): once the bytes read as the tag are known, the first variant that stands for the tag is the one
that is decoded: after the gap that is written on it, its fields as their text says.  If none stands for it, decoding fails with
`InvalidByteLength` after the tag. -/
theorem C81_sheet_decode (I : Interp V) (W : TypeInterp (Nat × List V)) (as : List Attribute) (reach : Option CAttr) (h : Header)
    (cs : List (Case V)) (hh : HeaderSays as reach h) (hs : ∀ c ∈ cs, c.Said I) (E : EnumDef V)
    (hE : enumOf I W as (cs.map Case.source) = some E) (ca : Option CAttr) (fa : Option FAttr) (env : Env V)
    (he : env = { vars := localVars h.vars ca }) (t : Tag) (tw : List Byte) (ht : TagRead reach h ca fa t tw) :
    (∀ i c rs gap w suf, FirstToTake (cs.map Case.arm) t i → cs[i]? = some c → c.Has I rs → gap.length = c.over.gap env →
      RowsRead I c.source.tuple reach (c.over.told env) env rs w suf → Reads (decEnum E ca fa) (i, rs.map Row.v) (tw ++ (gap ++ w)) suf) ∧
    ((∀ i, ¬ FirstToTake (cs.map Case.arm) t i) → ∀ pre rest : List Byte, pre.length + tw.length + rest.length ≤ isizeMax →
      decEnum E ca fa ⟨pre ++ (tw ++ rest), pre.length⟩ =
        (.err ⟨pre.length + tw.length, .invalidByteLength⟩, ⟨pre ++ (tw ++ rest), pre.length + tw.length⟩)) := by
  obtain ⟨rfl, hv, hm, hd, hw, hb⟩ := enumOf_made I W hh hs hE
  subst he
  have hmo : ∀ u, E.mode ≠ .startsWith u := by
    intro u hu
    rw [hm] at hu
    cases ht with
    | branch e | width e | byte e | bytes e => rw [hu] at e; cases e
  constructor
  · intro i c rs gap w suf hfirst hci hr hg hrows
    obtain ⟨⟨a', num, ha, htake⟩, hbefore⟩ := hfirst
    have ea : a' = c.arm := by
      have := ha.1
      rw [List.getElem?_map, hci] at this
      exact (Option.some.inj this).symm
    subst ea
    obtain ⟨at', fs, hu, hq, hf⟩ := hb.get hci
    have hiv : E.IsVariant i (c.arm.variant at' fs) num := by
      refine ⟨hu, ?_⟩
      rw [← C44_numbers, EnumDef.numbers, hb.built.numbers]
      exact ha.2
    rw [← hv] at hrows hg
    have hbody := case_reads I hq hf hr hg hrows
    have hsel : E.Selects t i (c.arm.variant at' fs) := by
      refine ⟨⟨num, hiv, (variant_accepts _ _ _ _ _).2 htake⟩, fun j v' n' hj hv' hacc => ?_⟩
      obtain ⟨b, bt, bf, hbp, rfl⟩ := hb.built.ofVariant hv'
      exact hbefore j b n' hj hbp ((variant_accepts _ _ _ _ _).1 hacc)
    intro pre hp
    simp only [List.length_append] at hp
    have r := ht.reads hm (gap ++ w ++ suf) pre (by simp only [List.length_append]; omega)
    have d := (C44_dispatch E hw hmo ca fa _).1 _ _ i _ r hsel
    have rb := hbody (pre ++ tw) (by simp only [List.length_append]; omega)
    simp only [List.append_assoc, List.length_append] at rb d ⊢
    rw [d, mapM'_apply, rb]
    simp only [Nat.add_assoc]
  · intro hnone pre rest hp
    have r := ht.reads hm rest pre hp
    refine (C44_dispatch E hw hmo ca fa _).2.1 _ _ r fun i v n hiv hacc => ?_
    have key : ∀ k i, i < k → ∀ a num, ArmAt (cs.map Case.arm) i a num → ¬ a.mark.Takes num t := by
      intro k
      induction k with
      | zero => intro i hi; omega
      | succ k ih =>
        intro i hi a num hp htk
        exact hnone i ⟨⟨a, num, hp, htk⟩, fun j b m hj => ih j (by omega) b m⟩
    obtain ⟨a, at', fs, hp, rfl⟩ := hb.built.ofVariant hiv
    exact key (i + 1) i (by omega) a n hp ((variant_accepts _ _ _ _ _).1 hacc)

/-- C81, every modifier (decoding by how the input begins). -/
theorem C81_sheet_words (I : Interp V) (W : TypeInterp (Nat × List V)) (as : List Attribute) (reach : Option CAttr) (h : Header)
    (cs : List (Case V)) (hh : HeaderSays as reach h) (hs : ∀ c ∈ cs, c.Said I) (E : EnumDef V)
    (hE : enumOf I W as (cs.map Case.source) = some E) (ca : Option CAttr) (fa : Option FAttr) (env : Env V)
    (he : env = { vars := localVars h.vars ca }) (peek : Bool) (hmode : h.mode = .startsWith peek) :
    (∀ i c rs gap tw w suf, FirstToBegin (cs.map Case.arm) (tw ++ (gap ++ w) ++ suf) i → cs[i]? = some c → c.Has I rs →
      gap.length = c.over.gap env → (tw = if peek = true ∨ c.mark = .rest then [] else c.arm.word) →
      RowsRead I c.source.tuple reach (c.over.told env) env rs w suf → Reads (decEnum E ca fa) (i, rs.map Row.v) (tw ++ (gap ++ w)) suf) ∧
    (∀ pre data : List Byte, (∀ i, ¬ FirstToBegin (cs.map Case.arm) data i) → pre.length + data.length ≤ isizeMax →
      decEnum E ca fa ⟨pre ++ data, pre.length⟩ = (.err ⟨pre.length, .fail⟩, ⟨pre ++ data, pre.length⟩)) := by
  obtain ⟨rfl, hv, hm, hd, hw, hb⟩ := enumOf_made I W hh hs hE
  subst he
  have hmo := hm.trans hmode
  have hbeg : ∀ (a : Arm V) at' fs (data : List Byte),
      ((a.variant at' fs).branchDefault = true ∨ ∃ rest, data = tagWord (a.variant at' fs) ++ rest) ↔
        (a.mark = .rest ∨ a.word <+: data) := by
    intro a at' fs data
    rw [variant_default, variant_word]
    exact or_congr_right ⟨fun ⟨r, e⟩ => ⟨r, e.symm⟩, fun ⟨r, e⟩ => ⟨r, e.symm⟩⟩
  constructor
  · intro i c rs gap tw w suf hfirst hci hr hg htw hrows
    obtain ⟨⟨a', ha, hfirst⟩, hbefore⟩ := hfirst
    have ea : a' = c.arm := by
      rw [List.getElem?_map, hci] at ha
      exact (Option.some.inj ha).symm
    subst ea
    obtain ⟨at', fs, hiv, hq, hf⟩ := hb.get hci
    rw [← hv] at hrows hg
    have hbody := case_reads I hq hf hr hg hrows
    have hsel : E.SelectsWord (tw ++ (gap ++ w) ++ suf) i (c.arm.variant at' fs) := by
      refine ⟨hiv, (hbeg _ _ _ _).2 hfirst, fun j v' hj hv' => ?_⟩
      obtain ⟨b, bt, bf, hbp, rfl, -⟩ := hb.built.get hv'
      have := not_or.2 (hbefore j b hj hbp)
      rw [← hbeg b bt bf, not_or] at this
      exact ⟨by simpa using this.1, this.2⟩
    intro pre hp
    have hok := ok_of_size hp
    have d := (C44_words E hw peek hmo ca fa _ hok).1 i _ (by simpa using hsel)
    have hskip : (if (peek || (c.arm.variant at' fs).branchDefault) = true then 0 else (tagWord (c.arm.variant at' fs)).length) = tw.length := by
      rw [htw, variant_word]
      simp only [Bool.or_eq_true, variant_default]
      show (if peek = true ∨ c.mark = .rest then 0 else _) = _
      split <;> rfl
    rw [hskip] at d
    simp only [List.length_append] at hp
    have rb := hbody (pre ++ tw) (by simp only [List.length_append]; omega)
    simp only [List.append_assoc, List.length_append] at rb d ⊢
    rw [d, mapM'_apply, rb]
    simp only [Nat.add_assoc]
  · intro pre data hnone hp
    have hok : (⟨pre ++ data, pre.length⟩ : Buf).Ok := by
      have := ok_of_size (pre := pre) (w := data) (suf := []) (by simpa using hp)
      simpa using this
    refine (C44_words E hw peek hmo ca fa _ hok).2 fun i v hsel => ?_
    simp only [List.drop_left] at hsel
    obtain ⟨h1, h2, h3⟩ := hsel
    obtain ⟨a, at', fs, ha, rfl, -⟩ := hb.built.get h1
    refine hnone i ⟨⟨a, ha, (hbeg _ _ _ _).1 h2⟩, fun j b hj hbj => ?_⟩
    obtain ⟨bt, bf, hbv, -⟩ := hb.built.ofArm hbj
    obtain ⟨h4, h5⟩ := h3 j _ hj hbv
    have := mt (hbeg b bt bf data).2 (by rw [not_or]; exact ⟨by simp [h4], h5⟩)
    exact not_or.1 this

/-- The fields of `Data(u16, #[jbytes(skip)] u8)`. -/
def overRows : List (Row Val) :=
  [⟨⟨[], numDec ⟨2, false⟩, numEnc ⟨2, false⟩, .num 0, .absent⟩, [], {}, .num 258⟩,
    ⟨⟨[.jbytes [.tag "skip"]], numDec ⟨1, false⟩, numEnc ⟨1, false⟩, .num 0, .absent⟩, [.tag "skip"], { skip := true }, .num 0⟩]

/-- `Ping, #[jbytes(byteorder = "LE", branch_value = 3, offset = 1, full = 7)] Data(u16, #[jbytes(skip)] u8)`. -/
def overCases : List (Case Val) :=
  [⟨{ attrs := [], name := [112] }, none, .count, {}⟩,
    ⟨{ attrs := [.jbytes [.prop "byteorder" ['"', 'L', 'E', '"'], .prop "branch_value" ['3'], .prop "offset" ['1'], .prop "full" ['7']]],
       name := [100], tuple := true, fields := overRows.map Row.source }, none, .number 3,
      { told := fun _ => some { byteorder := some .le }, gap := fun _ => 1, fill := 7 }⟩]

theorem over_has : ∀ r ∈ overRows, Carries r.source.attrs r.items ∧ SheetSays noInterp r.items r.sheet := by
  intro r hr
  simp only [overRows, List.mem_cons, List.not_mem_nil, or_false] at hr
  rcases hr with rfl | rfl
  · exact ⟨.none (fun a h => nomatch h), .nil⟩
  · exact ⟨.some (before := []) (fun a h => nomatch h), .tag (is := []) .nil (List.mem_cons_of_mem _ List.mem_cons_self)⟩

theorem over_said : ∀ c ∈ overCases, c.Said noInterp := by
  intro c hc
  simp only [overCases, List.mem_cons, List.not_mem_nil, or_false] at hc
  rcases hc with rfl | rfl
  · exact ⟨.none, .items (is := []) (.none fun a h => nomatch h) .count .nil, fun f hf => nomatch hf⟩
  · refine ⟨.none, .items (.some (before := []) (fun a h => nomatch h)) ?_ ?_, ?_⟩
    · exact .number ⟨['3'], .bare (by decide) (by decide +kernel), .dec (.digit (d := 3) (by decide +kernel)), by rw [usizeMod_def]; decide⟩
    · exact .full (is := [.prop "byteorder" ['"', 'L', 'E', '"'], .prop "offset" ['1']]) (.offset (is := [.prop "byteorder" ['"', 'L', 'E', '"']])
        (.order (is := []) (name := ['L', 'E']) .nil (by decide)) (.bare (.dec (.digit (by decide +kernel))) (by rw [usizeMod_def]; decide)))
        (x := 7) (.dec (.digit (by decide +kernel)))
    · intro f hf
      obtain ⟨r, hr, rfl⟩ := List.mem_map.1 hf
      exact ⟨_, _, over_has r hr⟩

theorem over_numbers : rustDiscs 0 (overCases.map (·.arm.number?)) = [0, 3] := by decide

/-- The tag, the gap that the variant asks for, and its first field in the byte order of the variant; the second field is skipped. -/
example : ∃ E, enumOf noInterp noTypes [] (overCases.map Case.source) = some E ∧
    Writes (encEnum E (1, [.num 258, .num 0]) none none) [3, 7, 2, 1] ∧
    Reads (decEnum E none none) (1, [.num 258, .num 0]) [3, 99, 2, 1] [] := by
  have hh : HeaderSays [] (reaching [] ({} : Header).mods) {} := .items (.none fun a h => nomatch h) .nil
  obtain ⟨E, hE⟩ := Option.isSome_iff_exists.1 ((C81_sheet_derivable noInterp noTypes _ _ _ _ hh over_said).2
    ⟨by simp [overCases], fun a ha s => by
      simp only [overCases, List.map_cons, List.map_nil, List.mem_cons, List.not_mem_nil, or_false] at ha
      rcases ha with rfl | rfl <;> exact nofun⟩)
  refine ⟨E, hE, ?_, ?_⟩
  · exact C81_sheet_encode noInterp noTypes _ _ _ _ hh over_said E hE 1 _ 3 rfl (by rw [over_numbers]; rfl) overRows ⟨rfl, over_has⟩ none none _ rfl
      [3] [2, 1] (.byte rfl rfl rfl rfl rfl rfl) (.cons (w := [2, 1]) (w' := []) (.plain rfl rfl rfl rfl (.inl rfl)
        (int_writes ⟨2, false⟩ (.mk _ _ (by decide)) 258 _ (some { byteorder := some .le }) rfl rfl))
        (.cons (w := []) (w' := []) (.skipped rfl (.inl rfl)) .nil))
  · exact (C81_sheet_decode noInterp noTypes _ _ _ _ hh over_said E hE none none _ rfl (.num 3) [3] (.byte (x := 3) rfl rfl rfl rfl)).1 1 _ overRows [99]
      [2, 1] [] ⟨⟨_, 3, ⟨rfl, by rw [List.map_map]; exact congrArg (·[1]?) over_numbers⟩, rfl⟩, fun j b m hj hp ht => by
        obtain rfl : j = 0 := by omega
        obtain ⟨h1, h2⟩ := hp
        rw [List.map_map] at h2
        have h2 := (congrArg (·[0]?) over_numbers).symm.trans h2
        cases h1
        cases h2
        cases ht⟩ rfl ⟨rfl, over_has⟩ rfl
      (.cons (w := [2, 1]) (w' := []) (.plain (gap := []) (x := .num 258) rfl rfl rfl rfl rfl (fun c hc => nomatch hc) rfl
        ((int_reads ⟨2, false⟩ (.mk _ _ (by decide)) 258 _ (some { byteorder := some .le }) _ rfl rfl (by decide)).mapped Val.num)
        ⟨rfl, fun c hc => nomatch hc⟩)
        (.cons (w := []) (w' := []) (.skipped rfl rfl (.inl rfl) rfl) .nil))

end JBytes
