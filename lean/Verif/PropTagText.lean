import Verif.DeriveText
import Verif.PropAttr
import Verif.PropEnum
/-!
# C76: the tags of an enum are the numbers written

From the text of an enum – `#[repr(..)]`, discriminants, ranges – to the bytes.
-/

namespace JBytes
open M

variable {V : Type}

/-! ## Numbers -/

theorem afterFirst_none (pat : Text) (c : Char) (rest : Text) (hp : pat = c :: rest) : ∀ s : Text, c ∉ s →
    afterFirst pat s = none
  | [], _ => by subst hp; rfl
  | d :: s, h => by
    subst hp
    rw [afterFirst, if_neg, afterFirst_none _ c rest rfl s fun hc => h (List.mem_cons_of_mem _ hc)]
    intro hpre
    obtain ⟨t, ht⟩ := List.isPrefixOf_iff_prefix.1 hpre
    cases ht
    exact h List.mem_cons_self

theorem afterFirst_at (pat : Text) (c : Char) (rest : Text) (hp : pat = c :: rest) (e : Text) : ∀ s : Text, c ∉ s →
    afterFirst pat (s ++ (pat ++ e)) = some e ∧ beforeFirst pat (s ++ (pat ++ e)) = s
  | [], _ => by
    subst hp
    have : (c :: rest).isPrefixOf (c :: (rest ++ e)) = true := List.isPrefixOf_iff_prefix.2 ⟨e, rfl⟩
    constructor
    · show afterFirst _ (c :: (rest ++ e)) = _
      rw [afterFirst, if_pos this]
      simp
    · show beforeFirst _ (c :: (rest ++ e)) = _
      rw [beforeFirst, if_pos this]
  | d :: s, h => by
    subst hp
    have hn : ¬ (c :: rest).isPrefixOf (d :: (s ++ (c :: rest ++ e))) = true := by
      intro hpre
      obtain ⟨t, ht⟩ := List.isPrefixOf_iff_prefix.1 hpre
      have := (List.cons.inj ht).1
      exact h (this ▸ List.mem_cons_self)
    have ih := afterFirst_at _ c rest rfl e s fun hc => h (List.mem_cons_of_mem _ hc)
    constructor
    · show afterFirst _ (d :: (s ++ _)) = _
      rw [afterFirst, if_neg hn, ih.1]
    · show beforeFirst _ (d :: (s ++ _)) = _
      rw [beforeFirst, if_neg hn, ih.2]

theorem afterFirst_mem (pat : Text) : ∀ s : Text, (afterFirst pat s).isSome = true → pat <:+: s
  | [], h => by
    rw [afterFirst] at h
    split at h
    · rename_i he; rw [List.isEmpty_iff] at he; rw [he]; exact List.infix_rfl
    · cases h
  | c :: s, h => by
    rw [afterFirst] at h
    split at h
    · rename_i hp; exact (List.isPrefixOf_iff_prefix.1 hp).isInfix
    · exact List.infix_cons (afterFirst_mem pat s h)

theorem afterFirst_absent (pat : Text) (c : Char) (s : Text) (hp : c ∈ pat) (h : c ∉ s) : afterFirst pat s = none := by
  cases hc : afterFirst pat s with
  | none => rfl
  | some e => exact absurd ((afterFirst_mem pat s (by rw [hc]; rfl)).subset hp) h

theorem containsText_quote (s : Text) (h : '"' ∉ s) : containsText ['b', '"'] s = false := by
  cases hc : containsText ['b', '"'] s with
  | false => rfl
  | true => exact absurd ((afterFirst_mem _ _ hc).subset (by simp)) h

theorem Numeral.plain {s : Text} {n : Nat} {r : Nat} (hr : r = 10 ∨ r = 16) (h : Numeral r s n) :
    '.' ∉ s ∧ '"' ∉ s ∧ 'x' ∉ s ∧ '+' ∉ s := by
  refine ⟨fun hc => h.chars hr _ hc ?_, fun hc => h.chars hr _ hc ?_, fun hc => h.chars hr _ hc ?_, fun hc => h.chars hr _ hc ?_⟩ <;>
    rcases hr with rfl | rfl <;> decide

theorem startsHex_no (s : Text) (h : 'x' ∉ s) : startsHex s = false := by
  cases hp : startsHex s with
  | false => rfl
  | true =>
    obtain ⟨t, rfl⟩ := List.isPrefixOf_iff_prefix.1 hp
    exact absurd (by simp) h

/-- **C76** (literals): which texts without dots and quotes are read as a number, and which. -/
theorem C76_number_exact (s : Text) (n : Nat) (hdot : '.' ∉ s) (hq : '"' ∉ s) :
    numberOfText s = some (some n) ↔ n < usizeMod ∧ ∃ sign digits, (sign = [] ∨ sign = ['+']) ∧
      (s = ['0', 'x'] ++ (sign ++ digits) ∧ Numeral 16 digits n ∨ s = sign ++ digits ∧ Numeral 10 digits n) := by
  have hmap : ∀ o : Option Nat, o.map some = some (some n) ↔ o = some n := by
    intro o; cases o <;> simp
  unfold numberOfText
  rw [afterFirst_none ['.', '.', '='] '.' ['.', '='] rfl s hdot, afterFirst_none ['.', '.'] '.' ['.'] rfl s hdot,
    containsText_quote s hq]
  by_cases hx : startsHex s = true
  · rw [if_pos hx, hmap, usizeFromRadix_iff 16 (.inr rfl)]
    obtain ⟨t, rfl⟩ := List.isPrefixOf_iff_prefix.1 hx
    refine and_congr_right fun _ => exists_congr fun sign => exists_congr fun digits => ?_
    constructor
    · rintro ⟨h1, h2, h3⟩
      exact ⟨h2, .inl ⟨congrArg _ h1, h3⟩⟩
    · rintro ⟨h2, ⟨h1, h3⟩ | ⟨h1, h3⟩⟩
      · exact ⟨List.append_cancel_left h1, h2, h3⟩
      · exfalso
        have : 'x' ∈ sign ++ digits := h1 ▸ (by simp)
        rcases List.mem_append.1 this with h | h
        · rcases h2 with rfl | rfl
          · cases h
          · exact absurd (List.mem_singleton.1 h) (by decide)
        · exact (h3.plain (.inl rfl)).2.2.1 h
  · rw [if_neg hx]
    show (if false = true then some none else (usizeFromRadix 10 s).map some) = _ ↔ _
    rw [if_neg (by decide), hmap, usizeFromRadix_iff 10 (.inl rfl)]
    refine and_congr_right fun _ => exists_congr fun sign => exists_congr fun digits => ?_
    constructor
    · rintro ⟨h1, h2, h3⟩
      exact ⟨h2, .inr ⟨h1, h3⟩⟩
    · rintro ⟨h2, ⟨h1, h3⟩ | ⟨h1, h3⟩⟩
      · exact absurd (List.isPrefixOf_iff_prefix.2 ⟨sign ++ digits, h1.symm⟩) hx
      · exact ⟨h1, h2, h3⟩

theorem numberOfText_rust {s : Text} {n : Nat} (h : RustNumber s n) (hn : n < usizeMod) :
    numberOfText s = some (some n) := by
  cases h with
  | dec h =>
    obtain ⟨h1, h2, -, -⟩ := h.plain (.inl rfl)
    exact (C76_number_exact s n h1 h2).2 ⟨hn, [], s, .inl rfl, .inr ⟨rfl, h⟩⟩
  | @hex s _ h =>
    obtain ⟨h1, h2, -, -⟩ := h.plain (.inr rfl)
    exact (C76_number_exact _ n (by simpa using h1) (by simpa using h2)).2 ⟨hn, [], s, .inl rfl, .inl ⟨rfl, h⟩⟩

/-! ## Enums of unit variants -/

/-- The discriminants, as the Rust reference defines them: the number written, or one more than the discriminant of the
variant before, or 0 for the first. -/
def rustDiscs : Nat → List (Option Nat) → List Nat
  | _, [] => []
  | next, d :: ds => d.getD next :: rustDiscs (d.getD next + 1) ds

/-- The unsigned types of `#[repr(..)]`, with their sizes. -/
def reprSizes : List (String × Nat) := [("u8", 1), ("u16", 2), ("u32", 4), ("u64", 8), ("usize", 8)]

/-- The variants are written with these discriminants, and without fields and attributes for this macro. -/
inductive UnitVariants : List (VariantSource V) → List (Option Nat) → Prop
  | nil : UnitVariants [] []
  | none {v : VariantSource V} {vs : List (VariantSource V)} {ds : List (Option Nat)} : v.value = none → v.fields = [] →
      (∀ a ∈ v.attrs, a = .other) → UnitVariants vs ds → UnitVariants (v :: vs) (none :: ds)
  | some {v : VariantSource V} {vs : List (VariantSource V)} {ds : List (Option Nat)} {s : Text} {n : Nat} :
      v.value = some s → RustNumber s n → v.fields = [] → (∀ a ∈ v.attrs, a = .other) → UnitVariants vs ds →
      UnitVariants (v :: vs) (some n :: ds)

theorem fieldText_other (as : List Attribute) (h : ∀ a ∈ as, a = .other) : fieldText as = some {} := by
  induction as with
  | nil => rfl
  | cons a as ih =>
    rw [h a List.mem_cons_self]
    exact ih fun b hb => h b (List.mem_cons_of_mem _ hb)

theorem variantOf_unit (I : Interp V) (v : VariantSource V) (d : Option Nat) (hf : v.fields = [])
    (ha : ∀ a ∈ v.attrs, a = .other)
    (hv : (match v.value with | none => some none | some s => numberOfText s) = some d) (hd : v.value = none → d = none) :
    variantOf I v = some { name := v.name, tuple := v.tuple, disc := d } := by
  unfold variantOf
  rw [fieldText_other _ ha, hf]
  cases hval : v.value with
  | none =>
    rw [hd hval]
    show assembleVariant I v {} [] none none none none = _
    simp only [assembleVariant, hval]
    rfl
  | some s =>
    rw [hval] at hv
    replace hv : numberOfText s = some d := hv
    show ((numberOfText s).bind fun num => _) = _
    rw [hv]
    show assembleVariant I v {} [] d none none none = _
    simp only [assembleVariant, hval]
    rfl

/-- What the macro makes of the variants. -/
def unitVariants (vs : List (VariantSource V)) (ds : List (Option Nat)) : List (Variant V) :=
  List.zipWith (fun v d => { name := v.name, tuple := v.tuple, disc := d }) vs ds

theorem unit_mapM (I : Interp V) {vs : List (VariantSource V)} {ds : List (Option Nat)} (h : UnitVariants vs ds)
    (hn : ∀ n, some n ∈ ds → n < usizeMod) : vs.mapM (variantOf I) = some (unitVariants vs ds) := by
  induction h with
  | nil => rfl
  | none h1 h2 h3 _ ih =>
    rw [List.mapM_cons, variantOf_unit I _ none h2 h3 (by rw [h1]) (fun _ => rfl),
      ih fun n hn' => hn n (List.mem_cons_of_mem _ hn')]
    rfl
  | some h1 hr h2 h3 _ ih =>
    rw [List.mapM_cons, variantOf_unit I _ _ h2 h3 (by rw [h1]; exact numberOfText_rust hr (hn _ List.mem_cons_self))
      (fun e => by rw [h1] at e; cases e), ih fun n hn' => hn n (List.mem_cons_of_mem _ hn')]
    rfl

theorem unit_numbers {vs : List (VariantSource V)} {ds : List (Option Nat)} (h : UnitVariants vs ds) (k : Nat) :
    variantNumbers k (unitVariants vs ds) = rustDiscs k ds := by
  induction h generalizing k with
  | nil => rfl
  | none _ _ _ _ ih =>
    show _ :: variantNumbers _ (unitVariants _ _) = _ :: rustDiscs _ _
    rw [ih]
    rfl
  | some _ _ _ _ _ ih =>
    show _ :: variantNumbers _ (unitVariants _ _) = _ :: rustDiscs _ _
    rw [ih]
    rfl

theorem rustDiscs_mem {n : Nat} : ∀ (ds : List (Option Nat)) (k : Nat), some n ∈ ds → n ∈ rustDiscs k ds
  | d :: ds, k, h => by
    rw [rustDiscs]
    rcases List.mem_cons.1 h with h | h
    · rw [← h]; exact List.mem_cons_self
    · exact List.mem_cons_of_mem _ (rustDiscs_mem ds _ h)

theorem rustDiscs_length : ∀ (ds : List (Option Nat)) (k : Nat), (rustDiscs k ds).length = ds.length
  | [], _ => rfl
  | _ :: ds, _ => by simp [rustDiscs, rustDiscs_length ds]

theorem UnitVariants.length {vs : List (VariantSource V)} {ds : List (Option Nat)} (h : UnitVariants vs ds) :
    vs.length = ds.length := by
  induction h with
  | nil => rfl
  | none _ _ _ _ ih => simp [ih]
  | some _ _ _ _ _ ih => simp [ih]

theorem unit_plain {vs : List (VariantSource V)} {ds : List (Option Nat)} {i : Nat} {v : Variant V}
    (h : (unitVariants vs ds)[i]? = some v) : ∃ name tuple d, v = { name := name, tuple := tuple, disc := d } := by
  unfold unitVariants at h
  rw [List.getElem?_zipWith_eq_some] at h
  obtain ⟨a, d, -, -, rfl⟩ := h
  exact ⟨_, _, _, rfl⟩

/-- **C76** (`repr`): an enum of unit variants with `#[repr(uN)]` is written as its Rust discriminant in N/8 bytes, in the
byte order that applies where it stands, is read back from them, and no other number is read. -/
theorem C76_repr_partial (I : Interp V) (W : TypeInterp (Nat × List V)) (r : String) (k : Nat) (hr : (r, k) ∈ reprSizes)
    (before after : List Attribute) (hb : ∀ a ∈ before, a = .other) (vs : List (VariantSource V)) (ds : List (Option Nat))
    (hv : UnitVariants vs ds) (hne : vs ≠ []) (hfit : ∀ d ∈ rustDiscs 0 ds, d < 256 ^ k) (hnd : (rustDiscs 0 ds).Nodup) :
    ∃ E, enumOf I W (before ++ .repr [.tag r] :: after) vs = some E ∧
      ∀ (ca : Option CAttr) (fa : Option FAttr), fa.bind (·.branch) = none → fa.bind (·.byteCount) = none →
        (∀ i d, (rustDiscs 0 ds)[i]? = some d →
          Appends (encEnum E (i, []) ca fa) (toBytes (effectiveOrder ca fa) k d) ∧
          ∀ suf, Reads (decEnum E ca fa) (i, []) (toBytes (effectiveOrder ca fa) k d) suf) ∧
        ∀ n, n < 256 ^ k → n ∉ rustDiscs 0 ds → ∀ pre suf : List Byte, pre.length + k + suf.length ≤ isizeMax →
          ∃ e b', decEnum E ca fa ⟨pre ++ (toBytes (effectiveOrder ca fa) k n ++ suf), pre.length⟩ = (.err e, b') := by
  have hk : k ≤ 8 := by
    simp only [reprSizes, List.mem_cons, List.not_mem_nil, or_false, Prod.mk.injEq] at hr
    rcases hr with h | h | h | h | h <;> omega
  have hnum : ∀ n, some n ∈ ds → n < usizeMod := fun n hn => by
    have h1 := hfit n (rustDiscs_mem ds 0 hn)
    have h2 : 256 ^ k ≤ 256 ^ 8 := Nat.pow_le_pow_right (by decide) hk
    rw [usizeMod_def]
    omega
  have hc : containerText (before ++ .repr [.tag r] :: after) = containerText [.repr [.tag r]] := by
    clear hv
    induction before with
    | nil =>
      simp only [reprSizes, List.mem_cons, List.not_mem_nil, or_false, Prod.mk.injEq] at hr
      rcases hr with ⟨rfl, rfl⟩ | ⟨rfl, rfl⟩ | ⟨rfl, rfl⟩ | ⟨rfl, rfl⟩ | ⟨rfl, rfl⟩ <;> rfl
    | cons a as ih =>
      rw [hb a List.mem_cons_self]
      exact ih fun b hm => hb b (List.mem_cons_of_mem _ hm)
  have hE : enumOf I W (before ++ .repr [.tag r] :: after) vs = some
      { container := some { byteCount := some k }, variants := unitVariants vs ds } := by
    unfold enumOf
    rw [hc, unit_mapM I hv hnum]
    have hacc : EnumDef.accepted (V := V) { container := some { byteCount := some k }, variants := unitVariants vs ds } = true := by
      unfold EnumDef.accepted
      rw [Bool.and_eq_true]
      refine ⟨?_, ?_⟩
      · cases hv <;> first | exact absurd rfl hne | rfl
      · show List.all _ _ = true
        rw [List.all_eq_true]
        intro v hm
        obtain ⟨i, hi⟩ := List.mem_iff_getElem?.1 hm
        obtain ⟨_, _, _, rfl⟩ := unit_plain hi
        rfl
    simp only [reprSizes, List.mem_cons, List.not_mem_nil, or_false, Prod.mk.injEq] at hr
    rcases hr with ⟨rfl, rfl⟩ | ⟨rfl, rfl⟩ | ⟨rfl, rfl⟩ | ⟨rfl, rfl⟩ | ⟨rfl, rfl⟩ <;> exact if_pos hacc
  refine ⟨_, hE, fun ca fa hbr hbc => ?_⟩
  generalize hEq : ({ container := some { byteCount := some k }, variants := unitVariants vs ds } : EnumDef V) = E
  have hnumbers : E.numbers = rustDiscs 0 ds := by
    rw [← hEq]
    exact unit_numbers hv 0
  have hvariant : ∀ i d, (rustDiscs 0 ds)[i]? = some d → ∃ name tuple disc,
      E.IsVariant i { name := name, tuple := tuple, disc := disc } d := by
    intro i d hi
    obtain ⟨hlt, -⟩ := List.getElem?_eq_some_iff.1 hi
    rw [rustDiscs_length] at hlt
    obtain ⟨v, hg⟩ : ∃ v, (unitVariants vs ds)[i]? = some v := by
      have : i < (unitVariants vs ds).length := by
        unfold unitVariants
        rw [List.length_zipWith, hv.length]
        omega
      exact ⟨_, List.getElem?_eq_getElem this⟩
    obtain ⟨name, tuple, disc, rfl⟩ := unit_plain hg
    refine ⟨name, tuple, disc, ?_, ?_⟩
    · rw [← hEq]; exact hg
    · rw [← C44_numbers, hnumbers]; exact hi
  have hacc : ∀ j v n, E.IsVariant j v n → ∀ t, Accepts v n t → t = .num n := by
    intro j v n hj t ht
    have hg := hj.1
    rw [← hEq] at hg
    obtain ⟨name, tuple, disc, rfl⟩ := unit_plain hg
    cases ht with
    | default h => cases h
    | bits _ h => cases h
    | value _ _ h => cases h
    | range _ _ _ h => cases h
    | position => rfl
  have hof : ∀ j v n, E.IsVariant j v n → (rustDiscs 0 ds)[j]? = some n := by
    intro j v n hj
    rw [← hnumbers, C44_numbers]
    exact hj.2
  have hmode : ∀ u, E.mode ≠ .startsWith u := by
    intro u h
    rw [← hEq] at h
    cases h
  have hwd : E.withDecode = none := by rw [← hEq]
  have htag : ∀ n suf, n < 256 ^ k → Reads (E.tagOf ca fa) (.num n) (toBytes (effectiveOrder ca fa) k n) suf := by
    intro n suf hn
    have e : E.tagOf ca fa = mapM' Tag.num (takeUint k (effectiveOrder ca fa)) := by
      have : E.tagOf ca fa = mapM' Tag.num (decTag E.container ca fa) := by rw [← hEq]; rfl
      rw [this]
      congr 1
      funext b
      exact ((C44_tag E.container ca fa b).2 hbr).1 k (by rw [hbc, ← hEq]; rfl)
    rw [e]
    exact Reads.mapped (Reads.uint _ k n suf hk hn) Tag.num
  constructor
  · intro i d hi
    obtain ⟨name, tuple, disc, hvar⟩ := hvariant i d hi
    have hd : d < 256 ^ k := hfit d (List.mem_of_getElem? hi)
    constructor
    · have he : ∀ b, encEnum E (i, []) ca fa b = pushUint d k (effectiveOrder ca fa) b := by
        intro b
        have e1 : encTagMode E { name := name, tuple := tuple, disc := disc } d ca fa = pushUint d k (effectiveOrder ca fa) := by
          rw [← getByteorder_eq]
          have : encTagMode E { name := name, tuple := tuple, disc := disc } d ca fa = encTag E.container ca fa E.byteCountDisable d := by
            rw [← hEq]; rfl
          rw [this]
          have hown : E.container.bind (·.byteCount) = some k := by rw [← hEq]; rfl
          unfold encTag
          cases fa with
          | none => simp only [hown]
          | some fr =>
            simp only [Option.bind_some] at hbr
            simp only [hbr, hown]
        have e2 : encEnum E (i, []) ca fa = encVariant E { name := name, tuple := tuple, disc := disc } d [] ca fa := by
          simp only [encEnum, (zip_get E i _ d).mpr hvar]
        have e3 : encVariant E { name := name, tuple := tuple, disc := disc } d [] ca fa b =
            (encTagMode E { name := name, tuple := tuple, disc := disc } d ca fa >>= fun n => M.pure (n + 0)) b := rfl
        rw [e2, e3, e1, bind_apply]
        rcases pushUint d k (effectiveOrder ca fa) b with ⟨o, b1⟩
        cases o <;> rfl
      intro pre hp
      rw [he]
      exact Appends.uint d k _ hk pre hp
    · intro suf pre hp
      have hs : E.Selects (.num d) i { name := name, tuple := tuple, disc := disc } := by
        refine ⟨⟨d, hvar, .position rfl rfl rfl rfl⟩, fun j v' n' hj hvj ha => ?_⟩
        have h1 := hacc j v' n' hvj _ ha
        injection h1 with h1
        subst h1
        have h2 := hof j v' d hvj
        have h3 := (List.getElem?_inj (List.getElem?_eq_some_iff.1 h2).1 hnd).1 (h2.trans hi.symm)
        omega
      have r := htag d suf hd pre hp
      rw [(C44_dispatch E hwd hmode ca fa _).1 _ _ i _ r hs]
      rfl
  · intro n hn hno pre suf hp
    have r := htag n suf hn pre (by rw [toBytes_length]; exact hp)
    refine ⟨_, _, (C44_dispatch E hwd hmode ca fa _).2.1 _ _ r fun j v' n' hj ha => ?_⟩
    have h1 := hacc j v' n' hj _ ha
    injection h1 with h1
    subst h1
    exact hno (List.mem_of_getElem? (hof j v' n hj))

/-- `enum Kind { Request = 1, Reply, Reverse = 0x8000 }`, with attributes of other macros. -/
def kindSource : List (VariantSource Val) :=
  [{ attrs := [], name := [], value := some ['1'] }, { attrs := [.other], name := [] },
    { attrs := [], name := [], value := some ['0', 'x', '8', '0', '0', '0'] }]

/-- Variables, expressions and types do not occur in the examples. -/
def noInterp : Interp Val where
  num _ _ := 0
  int _ _ := 0
  cond _ _ := false
  bytes _ := []
  conv _ _ v := v
  equal _ _ _ := false
  decoder _ _ _ _ _ := fail .invalidByteLength
  encoder _ _ _ _ _ _ := return 0
  decoderOf _ _ _ _ _ := fail .invalidByteLength
  encoderOf _ _ _ _ _ _ := return 0
  fromStr _ := (fun _ => none, fun _ => [])

/-- See `TypeInterp`. -/
def noTypes {α : Type} : TypeInterp α :=
  ⟨fun _ _ _ => fail .invalidByteLength, fun _ _ _ _ => return 0, fun _ _ _ => fail .invalidByteLength, fun _ _ _ _ => return 0⟩

example : ∃ E, enumOf noInterp noTypes [.other, .repr [.tag "u16"]] kindSource = some E ∧
    (∀ suf, Reads (decEnum E none none) (2, []) [0x80, 0] suf) ∧
    Appends (encEnum E (1, []) (some { byteorder := some .le }) none) [2, 0] := by
  have hu : UnitVariants kindSource [some 1, none, some 0x8000] :=
    .some rfl (.dec (.digit (by decide +kernel))) rfl (fun a h => nomatch h)
      (.none rfl rfl (fun a h => List.mem_singleton.1 h)
        (.some rfl (.hex (.cons (d := 8) (by decide +kernel) (.cons (d := 0) (by decide +kernel)
          (.cons (d := 0) (by decide +kernel) (.digit (d := 0) (by decide +kernel)))))) rfl (fun a h => nomatch h) .nil))
  obtain ⟨E, hE, h⟩ := C76_repr_partial noInterp noTypes "u16" 2 (by decide) [.other] [] (by simp) kindSource
    [some 1, none, some 0x8000] hu (by simp [kindSource]) (by decide) (by decide)
  refine ⟨E, hE, ?_, ?_⟩
  · exact ((h none none rfl rfl).1 2 0x8000 rfl).2
  · exact ((h (some { byteorder := some .le }) none rfl rfl).1 1 2 rfl).1

/-! ## Ranges -/

theorem numeral_radix {s : Text} {n : Nat} (h : Numeral 10 s n) (hn : n < usizeMod) :
    literalNumber s = some n ∧ usizeFromRadix 10 s = some n := by
  have e : usizeFromRadix 10 s = some n := (usizeFromRadix_iff 10 (.inl rfl) s n).2 ⟨hn, [], s, rfl, .inl rfl, h⟩
  refine ⟨?_, e⟩
  unfold literalNumber
  rw [startsHex_no s (h.plain (.inl rfl)).2.2.1, if_neg (by decide), e]

/-- **C76** (ranges): a variant with `branch_range = "a..=b"` accepts the numbers from `a` to `b` and no others, and its
own number is `b`; with `"a..b"` it accepts those below `b`, and its own number is `b` as well.  Without `a` the range
begins at 0. -/
theorem C76_range_partial (I : Interp V) (v : VariantSource V) (lit lo hi : Text) (a b : Nat) (incl : Bool)
    (hv : v.value = none) (hat : v.attrs = [.jbytes [.prop "branch_range" lit]])
    (hlit : litText lit = lo ++ ((if incl then ['.', '.', '='] else ['.', '.']) ++ hi))
    (hlo : lo = [] ∧ a = 0 ∨ Numeral 10 lo a) (hhi : Numeral 10 hi b) (ha : a < usizeMod) (hb : b < usizeMod)
    (fs : List (Field V)) (hfs : v.fields.mapM (fieldOf I) = some fs) :
    ∃ w, variantOf I v = some w ∧ w.fields = fs ∧ Explicit w b ∧
      ∀ num t, Accepts w num t ↔ ∃ n, t = .num n ∧ a ≤ n ∧ if incl then n ≤ b else n < b := by
  have hl : '.' ∉ lo ∧ '"' ∉ lo ∧ 'x' ∉ lo ∧ '=' ∉ lo := by
    rcases hlo with ⟨rfl, -⟩ | h
    · simp
    · have := h.plain (.inl rfl)
      exact ⟨this.1, this.2.1, this.2.2.1, fun hc => h.chars (.inl rfl) _ hc (by decide)⟩
  have hh := hhi.plain (.inl rfl)
  have hstart : rangeStart lo = some a := by
    unfold rangeStart
    rcases hlo with ⟨rfl, rfl⟩ | h
    · rfl
    · have hne : lo.isEmpty = false := by cases h <;> rfl
      rw [hne, if_neg (by decide)]
      exact (numeral_radix h ha).1
  generalize hs : litText lit = s at hlit
  have hq : '"' ∉ s := by
    rw [hlit]
    cases incl <;> simp [hl.2.1, hh.2.1]
  have hx : 'x' ∉ s := by
    rw [hlit]
    cases incl <;> simp [hl.2.2.1, hh.2.2.1]
  have heq : incl = false → '=' ∉ s := by
    intro h
    have h1 : '=' ∉ lo := hl.2.2.2
    have h2 : '=' ∉ hi := fun hc => hhi.chars (.inl rfl) _ hc (by decide)
    rw [hlit, h]
    simp [h1, h2]
  have hnum : numberOfText s = some (some b) := by
    unfold numberOfText
    rw [startsHex_no s hx, if_neg (by decide)]
    cases incl with
    | true =>
      have e := (afterFirst_at ['.', '.', '='] '.' ['.', '='] rfl hi lo hl.1).1
      replace hlit : s = lo ++ (['.', '.', '='] ++ hi) := hlit
      rw [← hlit] at e
      simp only [e, (numeral_radix hhi hb).2, Option.map_some]
    | false =>
      have e := (afterFirst_at ['.', '.'] '.' ['.'] rfl hi lo hl.1).1
      replace hlit : s = lo ++ (['.', '.'] ++ hi) := hlit
      rw [← hlit] at e
      simp only [afterFirst_absent ['.', '.', '='] '=' s (by decide) (heq rfl), e, (numeral_radix hhi hb).2, Option.map_some]
  have hpat : patternOf I s = some (.range a b incl) := by
    unfold patternOf
    rw [containsText_quote s hq, if_neg (by decide)]
    cases incl with
    | true =>
      have e := afterFirst_at ['.', '.', '='] '.' ['.', '='] rfl hi lo hl.1
      replace hlit : s = lo ++ (['.', '.', '='] ++ hi) := hlit
      rw [← hlit] at e
      simp only [e.1, e.2, hstart, (numeral_radix hhi hb).1, Option.map_some, Option.bind_some]
    | false =>
      have e := afterFirst_at ['.', '.'] '.' ['.'] rfl hi lo hl.1
      replace hlit : s = lo ++ (['.', '.'] ++ hi) := hlit
      rw [← hlit] at e
      simp only [afterFirst_absent ['.', '.', '='] '=' s (by decide) (heq rfl), e.1, e.2, hstart, (numeral_radix hhi hb).1,
        Option.map_some, Option.bind_some]
  have hw : ∃ at', variantOf I v = some
      { attrs := at', name := v.name, tuple := v.tuple, branchRange := some (a, b, incl), fields := fs } := by
    have hft : fieldText v.attrs = some ⟨true, assign (fun _ => none) [(.branchRange, .code s)]⟩ := by
      rw [hat, ← hs]
      rfl
    refine ⟨AttrRecord.meaning I ⟨true, assign (fun _ => none) [(.branchRange, .code s)]⟩, ?_⟩
    unfold variantOf
    rw [hft, hfs, hv]
    show (numberOfText s).bind _ = _
    rw [hnum]
    show ((patternOf I s).map some).bind _ = _
    rw [hpat]
    show assembleVariant I v _ fs _ none none (some (.range a b incl)) = _
    simp only [assembleVariant, hv]
    rfl
  obtain ⟨at', hw⟩ := hw
  refine ⟨_, hw, rfl, .range rfl rfl, fun num t => ⟨fun h => ?_, ?_⟩⟩
  · cases h with
    | default h => cases h
    | bits _ h => cases h
    | value _ _ h => cases h
    | position _ _ _ h => cases h
    | range _ _ _ h h1 h2 =>
      cases h
      refine ⟨_, rfl, h1, ?_⟩
      cases incl with
      | true => rcases h2 with h2 | ⟨-, h2⟩ <;> show _ ≤ _ <;> omega
      | false => rcases h2 with h2 | ⟨h2, -⟩; exact h2; cases h2
  · rintro ⟨n, rfl, h1, h2⟩
    refine .range rfl rfl rfl rfl h1 ?_
    cases incl with
    | true =>
      replace h2 : n ≤ b := h2
      rcases Nat.lt_or_eq_of_le h2 with h | h
      · exact .inl h
      · exact .inr ⟨rfl, h⟩
    | false => exact .inl h2
/-- `#[jbytes(branch_range = "3..=7")] Other(u8)`. -/
example : ∃ w, variantOf noInterp
      { attrs := [.jbytes [.prop "branch_range" ['"', '3', '.', '.', '=', '7', '"']]], name := [], tuple := true
        fields := [{ attrs := [], dec := (u8Field {}).dec, enc := (u8Field {}).enc, dflt := .num 0, noneV := .num 0 }] } = some w ∧
    Explicit w 7 ∧ Accepts w 7 (.num 7) ∧ Accepts w 7 (.num 3) ∧ ¬ Accepts w 7 (.num 8) := by
  obtain ⟨w, h1, -, h2, h3⟩ := C76_range_partial noInterp
    { attrs := [.jbytes [.prop "branch_range" ['"', '3', '.', '.', '=', '7', '"']]], name := [], tuple := true
      fields := [{ attrs := [], dec := (u8Field {}).dec, enc := (u8Field {}).enc, dflt := .num 0, noneV := .num 0 }] }
    ['"', '3', '.', '.', '=', '7', '"'] ['3'] ['7'] 3 7 true rfl rfl (by decide +kernel) (.inr (.digit (by decide +kernel)))
    (.digit (by decide +kernel)) (by rw [usizeMod_def]; decide) (by rw [usizeMod_def]; decide) _ rfl
  refine ⟨w, h1, h2, (h3 _ _).2 ⟨7, rfl, ?_⟩, (h3 _ _).2 ⟨3, rfl, ?_⟩, fun h => ?_⟩
  · exact ⟨by decide, by decide⟩
  · exact ⟨by decide, by decide⟩
  · obtain ⟨n, hn, -, h⟩ := (h3 _ _).1 h
    cases hn
    exact absurd h (by decide)

/-! ## Where the property fails -/

/-- C76 fails for texts that Rust accepts.  A type with `#[repr(C)]` or a signed `#[repr(i16)]` is rejected.  The macro
panics on the discriminants `0b11`, `1_000`, `3u8` and `b'a'`, and on ranges with hexadecimal numbers. -/
theorem C76_violated (I : Interp V) (W : TypeInterp (Nat × List V)) (vs : List (VariantSource V)) :
    enumOf I W [.repr [.tag "C"]] vs = none ∧ enumOf I W [.repr [.tag "i16"]] vs = none ∧
    (∀ s ∈ [['0', 'b', '1', '1'], ['1', '_', '0', '0', '0'], ['3', 'u', '8'], ['b', '\'', 'a', '\'']],
      ∀ before after name attrs cattrs, enumOf I W cattrs
        (before ++ { attrs := attrs, name := name, value := some s } :: after) = none) ∧
    (∀ before after name cattrs, enumOf I W cattrs
        (before ++ { attrs := [.jbytes [.prop "branch_range" ['"', '1', '.', '.', '=', '0', 'x', 'f', '"']]], name := name } :: after)
          = none) := by
  have key : ∀ (v : VariantSource V), variantOf I v = none → ∀ before after cattrs,
      enumOf I W cattrs (before ++ v :: after) = none := by
    intro v hv before after cattrs
    have : (before ++ v :: after).mapM (variantOf I) = none := by
      induction before with
      | nil => rw [List.nil_append, List.mapM_cons, hv]; rfl
      | cons a as ih =>
        rw [List.cons_append, List.mapM_cons, ih]
        cases variantOf I a <;> rfl
    unfold enumOf
    rw [this]
    cases containerText cattrs <;> rfl
  refine ⟨rfl, rfl, fun s hs before after name attrs cattrs => key _ ?_ _ _ _, fun before after name cattrs => key _ ?_ _ _ _⟩
  · have hn : numberOfText s = none := by
      revert s
      decide +kernel
    unfold variantOf
    cases fieldText attrs with
    | none => rfl
    | some t =>
      show (numberOfText s).bind _ = none
      rw [hn]
      rfl
  · have hn : numberOfText ['1', '.', '.', '=', '0', 'x', 'f'] = none := by decide +kernel
    have hl : litText ['"', '1', '.', '.', '=', '0', 'x', 'f', '"'] = ['1', '.', '.', '=', '0', 'x', 'f'] := by decide +kernel
    unfold variantOf
    have hft : fieldText [.jbytes [.prop "branch_range" ['"', '1', '.', '.', '=', '0', 'x', 'f', '"']]] =
        some ⟨true, assign (fun _ => none) [(.branchRange, .code ['1', '.', '.', '=', '0', 'x', 'f'])]⟩ := by
      rw [← hl]
      rfl
    simp only [hft]
    show (numberOfText ['1', '.', '.', '=', '0', 'x', 'f']).bind _ = none
    rw [hn]
    rfl

end JBytes
