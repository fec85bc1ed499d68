import Verif.PropStructText
/-!
# C81: the bytes of an enum are those its text says

From the text of an enum – the modifiers of the type, the discriminants and modifiers of the variants, and the modifiers
of their fields – to the bytes.
-/

namespace JBytes
open M

variable {V : Type}

/-! ## What the text says -/

/-- What is written on a variant to tell it from the others: nothing, a branch value (number or byte string), a range
of numbers, bits of the tag, or that it takes whatever is left. -/
inductive Mark where
  | count
  | number (n : Nat)
  | word (s : List Byte)
  | range (lo hi : Nat) (incl : Bool)
  | bits (mask : Nat) (value : Option Nat)
  | rest
  deriving DecidableEq

/-- The number the mark gives the variant: the value, or the end of the range. -/
def Mark.number? : Mark → Option Nat
  | .number n => some n
  | .range _ hi _ => some hi
  | _ => none

/-- Which tags a variant with this mark and the number `num` stands for. -/
def Mark.Takes (m : Mark) (num : Nat) (t : Tag) : Prop :=
  match m with
  | .count => t = .num num
  | .number n => t = .num n
  | .word s => t = .bytes s
  | .range lo hi incl => ∃ n, t = .num n ∧ lo ≤ n ∧ (n < hi ∨ incl = true ∧ n = hi)
  | .bits mask value => ∃ n, t = .num n ∧ n &&& mask = value.getD mask
  | .rest => True

/-- A number, bare or in quotes. -/
def NumeralSays (lit : Text) (n : Nat) : Prop := ∃ s, TextSays lit s ∧ RustNumber s n ∧ n < usizeMod

/-- A range `lo..hi` or `lo..=hi` of decimal numbers; `lo` may be missing. -/
def RangeSays (lit : Text) (a b : Nat) (incl : Bool) : Prop :=
  ∃ lo hi, TextSays lit (lo ++ ((if incl then ['.', '.', '='] else ['.', '.']) ++ hi)) ∧
    (lo = [] ∧ a = 0 ∨ Numeral 10 lo a ∧ a < usizeMod) ∧ Numeral 10 hi b ∧ b < usizeMod

/-- What the items of `#[jbytes(..)]` on a variant say. -/
inductive MarkSays (I : Interp V) : List AttrItem → Mark → Prop
  | count : MarkSays I [] .count
  | number {lit : Text} {n : Nat} : NumeralSays lit n → MarkSays I [.prop "branch_value" lit] (.number n)
  | word {lit s : Text} : TextSays lit ('b' :: '"' :: s) → ¬ ['.', '.'] <:+: 'b' :: '"' :: s →
      MarkSays I [.prop "branch_value" lit] (.word (I.bytes ('b' :: '"' :: s)))
  | range {lit : Text} {a b : Nat} {incl : Bool} : RangeSays lit a b incl →
      MarkSays I [.prop "branch_range" lit] (.range a b incl)
  | bits {lit : Text} {m : Nat} : NumeralSays lit m → MarkSays I [.prop "branch_bits" lit] (.bits m none)
  | bitsValue {lit lit' : Text} {m x : Nat} : NumeralSays lit m → NumeralSays lit' x →
      MarkSays I [.prop "branch_bits" lit, .prop "branch_bits_value" lit'] (.bits m (some x))
  | valueBits {lit lit' : Text} {m x : Nat} : NumeralSays lit m → NumeralSays lit' x →
      MarkSays I [.prop "branch_bits_value" lit', .prop "branch_bits" lit] (.bits m (some x))
  | rest {k : String} : k ∈ ["branch_default", "enum_default"] → MarkSays I [.tag k] .rest

/-- What the attributes of a variant say; `#[default]` is `branch_default`. -/
inductive Marked (I : Interp V) : List Attribute → Mark → Prop
  | items {as : List Attribute} {is : List AttrItem} {m : Mark} : Carries as is → MarkSays I is m → Marked I as m
  | default {before after : List Attribute} : (∀ a ∈ before, a = .other) → Marked I (before ++ .default :: after) .rest

/-- The discriminant written after the variant. -/
inductive ValueSays : Option Text → Option Nat → Prop
  | none : ValueSays none none
  | some {s : Text} {n : Nat} : RustNumber s n → n < usizeMod → ValueSays (some s) (some n)

/-- What is written on each field. -/
inductive FieldsSay (I : Interp V) : List (FieldSource V) → List (List AttrItem × Column V) → Prop
  | nil : FieldsSay I [] []
  | cons {f : FieldSource V} {fs : List (FieldSource V)} {is : List AttrItem} {c : Column V}
      {cs : List (List AttrItem × Column V)} : Carries f.attrs is → Says I is c → FieldsSay I fs cs →
      FieldsSay I (f :: fs) ((is, c) :: cs)

/-- A variant as written, and what its text says. -/
structure Arm (V : Type) where
  source : VariantSource V
  disc : Option Nat
  mark : Mark
  cols : List (List AttrItem × Column V)

/-- The text of the variant says this. -/
structure Arm.Said (I : Interp V) (a : Arm V) : Prop where
  value : ValueSays a.source.value a.disc
  mark : Marked I a.source.attrs a.mark
  fields : FieldsSay I a.source.fields a.cols

/-- The number a variant states. -/
def Arm.number? (a : Arm V) : Option Nat := a.disc.or a.mark.number?

/-- The bytes that stand for a variant where bytes tell variants apart: its byte string, or its name. -/
def Arm.word (a : Arm V) : List Byte :=
  match a.mark with
  | .word s => s
  | _ => a.source.name

/-- What is written on an enum: the modifiers for its fields, the variables it asks for, how the tag is written, and
whether no tag is written. -/
structure Header where
  mods : CAttr := {}
  vars : List String := []
  mode : TagMode := .uint
  bare : Bool := false

/-- What the items of `#[jbytes(..)]` on an enum say. -/
inductive HeaderItems : List AttrItem → Header → Prop
  | nil : HeaderItems [] {}
  | order {is : List AttrItem} {h : Header} {name : Text} {o : ByteOrder} : HeaderItems is h → (name, o) ∈ orderNames →
      HeaderItems (is ++ [.prop "byteorder" ('"' :: (name ++ ['"']))]) { h with mods := { h.mods with byteorder := some o } }
  | width {is : List AttrItem} {h : Header} {s : Text} {n : Nat} : HeaderItems is h → RustNumber s n → n < usizeMod →
      HeaderItems (is ++ [.prop "byte_count" s]) { h with mods := { h.mods with byteCount := some n } }
  | variables {is : List AttrItem} {h : Header} {gs : List Text} : HeaderItems is h → gs ≠ [] → (∀ g ∈ gs, IsName g) →
      HeaderItems (is ++ [.prop "get_variable_name" ('"' :: (joinComma gs ++ ['"']))]) { h with vars := gs.map String.ofList }
  | bytes {is : List AttrItem} {h : Header} {s : Text} {n : Nat} : HeaderItems is h → h.mode = .uint → RustNumber s n →
      n < usizeMod → HeaderItems (is ++ [.prop "branch_take_bytes" s]) { h with mode := .takeBytes n }
  | words {is : List AttrItem} {h : Header} : HeaderItems is h → h.mode = .uint →
      HeaderItems (is ++ [.tag "branch_starts_with"]) { h with mode := .startsWith false }
  | peeked {is : List AttrItem} {h : Header} : HeaderItems is h → h.mode = .uint →
      HeaderItems (is ++ [.tag "branch_starts_with_untake"]) { h with mode := .startsWith true }
  | bare {is : List AttrItem} {h : Header} : HeaderItems is h →
      HeaderItems (is ++ [.tag "byte_count_disable"]) { h with bare := true }

/-- What the attributes of an enum say, and which modifiers reach its fields: `#[jbytes(..)]`, or `#[repr(..)]` with an
unsigned type. -/
inductive HeaderSays : List Attribute → Option CAttr → Header → Prop
  | items {as : List Attribute} {is : List AttrItem} {h : Header} : Carries as is → HeaderItems is h →
      HeaderSays as (reaching is h.mods) h
  | repr {before after : List Attribute} {r : String} {k : Nat} : (∀ a ∈ before, a = .other) → (r, k) ∈ reprSizes →
      HeaderSays (before ++ .repr [.tag r] :: after) (some { byteCount := some k }) { mods := { byteCount := some k } }

/-- Variant `a` is at position `i` and has the number `num`: the one it states, or one more than the variant before. -/
def ArmAt (arms : List (Arm V)) (i : Nat) (a : Arm V) (num : Nat) : Prop :=
  arms[i]? = some a ∧ (rustDiscs 0 (arms.map Arm.number?))[i]? = some num

/-- Variant `i` is the first one that stands for the tag `t`. -/
def FirstToTake (arms : List (Arm V)) (t : Tag) (i : Nat) : Prop :=
  (∃ a num, ArmAt arms i a num ∧ a.mark.Takes num t) ∧
  ∀ j a num, j < i → ArmAt arms j a num → ¬ a.mark.Takes num t

/-- Variant `i` is the first one that takes the rest or whose bytes the input begins with. -/
def FirstToBegin (arms : List (Arm V)) (data : List Byte) (i : Nat) : Prop :=
  (∃ a, arms[i]? = some a ∧ (a.mark = .rest ∨ a.word <+: data)) ∧
  ∀ j a, j < i → arms[j]? = some a → a.mark ≠ .rest ∧ ¬ a.word <+: data

/-- The variants go with the way tags are written: there is one, there are no byte strings among numbers and nothing
else among byte strings; where variants are told apart by how the input begins, the first has a byte string and the
number 0, no other with a byte string has the number 0, a default comes last and no number is a branch value. -/
def Suits (mode : TagMode) (arms : List (Arm V)) : Prop :=
  match mode with
  | .uint => arms ≠ [] ∧ ∀ a ∈ arms, ∀ s, a.mark ≠ .word s
  | .takeBytes _ => arms ≠ [] ∧ ∀ a ∈ arms, a.mark = .rest ∨ ∃ s, a.mark = .word s
  | .startsWith _ => (∃ a s, ArmAt arms 0 a 0 ∧ a.mark = .word s) ∧
      (∀ i a s, 0 < i → ArmAt arms i a 0 → a.mark ≠ .word s) ∧
      (∀ i a, arms[i]? = some a → a.mark = .rest → i + 1 = arms.length) ∧ ∀ a ∈ arms, ∀ n, a.mark ≠ .number n

/-- The bytes written for the tag of variant `a` with the number `num`: none if the field tells the variant; the number
in the width given on the enum or else on the field, in the byte order where the enum stands, or in one byte, if there
are to be tags; or the bytes of the variant. -/
inductive TagWritten (reach : Option CAttr) (h : Header) (a : Arm V) (num : Nat) (ca : Option CAttr) (fa : Option FAttr) :
    List Byte → Prop
  | branch {n : Nat} : h.mode = .uint → fa.bind (·.branch) = some n → TagWritten reach h a num ca fa []
  | width {k : Nat} {w : List Byte} : h.mode = .uint → fa.bind (·.branch) = none →
      (reach.bind (·.byteCount)).or (fa.bind (·.byteCount)) = some k → k ≤ 8 → w.length = k →
      IsValueOf (effectiveOrder ca fa) w num → TagWritten reach h a num ca fa w
  | byte {x : Byte} : h.mode = .uint → fa.bind (·.branch) = none → fa.bind (·.byteCount) = none →
      reach.bind (·.byteCount) = none → h.bare = false → x.toNat = num → TagWritten reach h a num ca fa [x]
  | bare : h.mode = .uint → fa.bind (·.branch) = none → fa.bind (·.byteCount) = none →
      reach.bind (·.byteCount) = none → h.bare = true → TagWritten reach h a num ca fa []
  | bytes {n : Nat} : h.mode = .takeBytes n → TagWritten reach h a num ca fa a.word
  | word : h.mode = .startsWith false → TagWritten reach h a num ca fa a.word
  | peeked : h.mode = .startsWith true → TagWritten reach h a num ca fa []

/-- The bytes `w` are read as the tag `t`: the number that the field tells, without any bytes; a number in the width
given on the field or else on the enum, or in one byte; or the number of bytes the enum states. -/
inductive TagRead (reach : Option CAttr) (h : Header) (ca : Option CAttr) (fa : Option FAttr) : Tag → List Byte → Prop
  | branch {n : Nat} : h.mode = .uint → fa.bind (·.branch) = some n → TagRead reach h ca fa (.num n) []
  | width {k num : Nat} {w : List Byte} : h.mode = .uint → fa.bind (·.branch) = none →
      (fa.bind (·.byteCount)).or (reach.bind (·.byteCount)) = some k → k ≤ 8 → w.length = k →
      IsValueOf (effectiveOrder ca fa) w num → TagRead reach h ca fa (.num num) w
  | byte {x : Byte} : h.mode = .uint → fa.bind (·.branch) = none → fa.bind (·.byteCount) = none →
      reach.bind (·.byteCount) = none → TagRead reach h ca fa (.num x.toNat) [x]
  | bytes {w : List Byte} : h.mode = .takeBytes w.length → TagRead reach h ca fa (.bytes w) w

/-! ## Variants -/

/-- Nothing for fields is written on the variant. -/
structure Quiet (a : FieldAttrs V) : Prop where
  own : ∀ env, ownModifiers a env = none
  order : ∀ env, OrderOk a env
  gap : ∀ env, gap a env = 0

/-- What the macro makes of a variant. -/
def Arm.variant (a : Arm V) (at' : FieldAttrs V) (fs : List (Field V)) : Variant V where
  attrs := at'
  name := a.source.name
  disc := a.disc
  tuple := a.source.tuple
  fields := fs
  branchDefault := match a.mark with | .rest => true | _ => false
  branchBits := match a.mark with | .bits m x => some (m, x) | _ => none
  branchValue := match a.mark with | .number n => some (.num n) | .word s => some (.bytes s) | _ => none
  branchRange := match a.mark with | .range lo hi incl => some (lo, hi, incl) | _ => none

theorem RustNumber.plain {s : Text} {n : Nat} (h : RustNumber s n) : '.' ∉ s ∧ '"' ∉ s := by
  cases h with
  | dec h => exact ⟨(h.plain (.inl rfl)).1, (h.plain (.inl rfl)).2.1⟩
  | hex h =>
    have := h.plain (.inr rfl)
    exact ⟨by simpa using this.1, by simpa using this.2.1⟩

theorem literalNumber_rust {s : Text} {n : Nat} (h : RustNumber s n) (hn : n < usizeMod) : literalNumber s = some n := by
  cases h with
  | dec h => exact (numeral_radix h hn).1
  | @hex s _ h =>
    have : startsHex ('0' :: 'x' :: s) = true := List.isPrefixOf_iff_prefix.2 ⟨s, rfl⟩
    unfold literalNumber
    rw [if_pos this]
    exact (usizeFromRadix_iff 16 (.inr rfl) s n).2 ⟨hn, [], s, rfl, .inl rfl, h⟩

theorem pattern_rust (I : Interp V) {s : Text} {n : Nat} (h : RustNumber s n) (hn : n < usizeMod) :
    patternOf I s = some (.tag (.num n)) := by
  obtain ⟨h1, h2⟩ := h.plain
  unfold patternOf
  rw [containsText_quote s h2, if_neg (by decide)]
  simp only [afterFirst_none ['.', '.', '='] '.' ['.', '='] rfl s h1, afterFirst_none ['.', '.'] '.' ['.'] rfl s h1,
    literalNumber_rust h hn, Option.map_some]

theorem word_texts (I : Interp V) (s : Text) (h : ¬ ['.', '.'] <:+: 'b' :: '"' :: s) :
    numberOfText ('b' :: '"' :: s) = some none ∧ patternOf I ('b' :: '"' :: s) = some (.tag (.bytes (I.bytes ('b' :: '"' :: s)))) := by
  have hc : containsText ['b', '"'] ('b' :: '"' :: s) = true := by
    unfold containsText
    rw [afterFirst, if_pos (by rfl)]
    rfl
  have hx : startsHex ('b' :: '"' :: s) = false := by rfl
  have h2 : afterFirst ['.', '.'] ('b' :: '"' :: s) = none := by
    cases e : afterFirst ['.', '.'] ('b' :: '"' :: s) with
    | none => rfl
    | some _ => exact absurd (afterFirst_mem _ _ (by rw [e]; rfl)) h
  have h1 : afterFirst ['.', '.', '='] ('b' :: '"' :: s) = none := by
    cases e : afterFirst ['.', '.', '='] ('b' :: '"' :: s) with
    | none => rfl
    | some _ =>
      have := afterFirst_mem _ _ (show (afterFirst ['.', '.', '='] ('b' :: '"' :: s)).isSome = true by rw [e]; rfl)
      exact absurd ((show ['.', '.'] <:+: ['.', '.', '='] from ⟨[], ['='], rfl⟩).trans this) h
  constructor
  · unfold numberOfText
    rw [hx, if_neg (by decide), h1, h2]
    show (if containsText ['b', '"'] ('b' :: '"' :: s) = true then _ else _) = _
    rw [if_pos hc]
  · unfold patternOf
    rw [if_pos hc]

theorem range_texts (I : Interp V) {lo hi : Text} {a b : Nat} {incl : Bool}
    (hlo : lo = [] ∧ a = 0 ∨ Numeral 10 lo a ∧ a < usizeMod) (hhi : Numeral 10 hi b) (hb : b < usizeMod) (s : Text)
    (hlit : s = lo ++ ((if incl then ['.', '.', '='] else ['.', '.']) ++ hi)) :
    numberOfText s = some (some b) ∧ patternOf I s = some (.range a b incl) := by
  have hl : '.' ∉ lo ∧ '"' ∉ lo ∧ 'x' ∉ lo ∧ '=' ∉ lo := by
    rcases hlo with ⟨rfl, -⟩ | ⟨h, -⟩
    · simp
    · have := h.plain (.inl rfl)
      exact ⟨this.1, this.2.1, this.2.2.1, fun hc => h.chars (.inl rfl) _ hc (by decide)⟩
  have hh := hhi.plain (.inl rfl)
  have hheq : '=' ∉ hi := fun hc => hhi.chars (.inl rfl) _ hc (by decide)
  have hstart : rangeStart lo = some a := by
    unfold rangeStart
    rcases hlo with ⟨rfl, rfl⟩ | ⟨h, ha⟩
    · rfl
    · have hne : lo.isEmpty = false := by cases h <;> rfl
      rw [hne, if_neg (by decide)]
      exact (numeral_radix h ha).1
  have hq : '"' ∉ s := by rw [hlit]; cases incl <;> simp [hl.2.1, hh.2.1]
  have hx : 'x' ∉ s := by rw [hlit]; cases incl <;> simp [hl.2.2.1, hh.2.2.1]
  have heq : incl = false → '=' ∉ s := by
    intro h
    rw [hlit, h]
    simp [hl.2.2.2, hheq]
  constructor
  · unfold numberOfText
    rw [startsHex_no s hx, if_neg (by decide)]
    cases incl with
    | true =>
      have e := (afterFirst_at ['.', '.', '='] '.' ['.', '='] rfl hi lo hl.1).1
      replace hlit : s = lo ++ (['.', '.', '='] ++ hi) := hlit
      rw [← hlit] at e
      simp only [e, (numeral_radix hhi hb).2, Option.map_some]
    | false =>
      have e := (afterFirst_at ['.', '.'] '.' ['.'] rfl hi lo hl.1).1
      replace hlit : s = lo ++ (['.', '.'] ++ hi) := hlit
      rw [← hlit] at e
      simp only [afterFirst_absent ['.', '.', '='] '=' s (by decide) (heq rfl), e, (numeral_radix hhi hb).2, Option.map_some]
  · unfold patternOf
    rw [containsText_quote s hq, if_neg (by decide)]
    cases incl with
    | true =>
      have e := afterFirst_at ['.', '.', '='] '.' ['.', '='] rfl hi lo hl.1
      replace hlit : s = lo ++ (['.', '.', '='] ++ hi) := hlit
      rw [← hlit] at e
      simp only [e.1, e.2, hstart, (numeral_radix hhi hb).1, Option.map_some, Option.bind_some]
    | false =>
      have e := afterFirst_at ['.', '.'] '.' ['.'] rfl hi lo hl.1
      replace hlit : s = lo ++ (['.', '.'] ++ hi) := hlit
      rw [← hlit] at e
      simp only [afterFirst_absent ['.', '.', '='] '=' s (by decide) (heq rfl), e.1, e.2, hstart, (numeral_radix hhi hb).1,
        Option.map_some, Option.bind_some]

/-- The number a variant's text lets the count start at. -/
theorem value_number {value : Option Text} {d : Option Nat} (h : ValueSays value d) (t : AttrRecord Slot) (m : Mark)
    (ht : countRestart t none = some m.number?) :
    ∃ num, countRestart t value = some num ∧ (value.bind fun _ => num) = d := by
  cases h with
  | none => exact ⟨_, ht, rfl⟩
  | some h hn => exact ⟨_, numberOfText_rust h hn, rfl⟩

theorem quiet_of (a : FieldAttrs V) (h1 : a.byteorder = none) (h2 : Silent a) (h3 : a.offset = none) : Quiet a where
  own env := by
    unfold ownModifiers
    rw [if_neg]
    rintro ⟨-, h⟩
    unfold Silent at h2
    grind
  order env e he := by rw [h1] at he; cases he
  gap env := by rw [JBytes.gap, h3]; rfl

theorem said_variant (I : Interp V) (a : Arm V) (hv : ValueSays a.source.value a.disc) (hm : Marked I a.source.attrs a.mark)
    (fs : List (Field V)) (hfs : a.source.fields.mapM (fieldOf I) = some fs) :
    ∃ at', variantOf I a.source = some (a.variant at' fs) ∧ Quiet at' := by
  have key : ∀ (t : AttrRecord Slot) (bits : Option (Nat × Option Nat)) (bv br : Option TagPattern),
      fieldText a.source.attrs = some t → t.bits = some bits → t.pattern I .branchValue = some bv →
      t.pattern I .branchRange = some br → countRestart t none = some a.mark.number? → Quiet (t.meaning I) →
      (∀ num, (a.source.value.bind fun _ => num) = a.disc →
        assembleVariant I a.source t fs num bits bv br = some (a.variant (t.meaning I) fs)) →
      ∃ at', variantOf I a.source = some (a.variant at' fs) ∧ Quiet at' := by
    intro t bits bv br ht hb hbv hbr hn hq hw
    obtain ⟨num, h1, h2⟩ := value_number hv t a.mark hn
    refine ⟨t.meaning I, ?_, hq⟩
    unfold variantOf
    simp only [ht, hfs, Option.bind_some, h1, hb, hbv, hbr]
    exact hw num h2
  generalize hmk : a.mark = m at hm
  generalize has : a.source.attrs = as at hm
  rw [hmk, has] at key
  have quiet : ∀ (u : Bool) (ws : List (Slot × AttrVal)), (∀ w ∈ ws, w.1 ∈ [Slot.branchDefault, .branchValue, .branchRange,
      .branchBits, .branchBitsValue]) → Quiet ((⟨u, assign (fun _ => none) ws⟩ : AttrRecord Slot).meaning I) := by
    intro u ws hws
    have hg : ∀ s, s ∉ [Slot.branchDefault, .branchValue, .branchRange, .branchBits, .branchBitsValue] →
        assign (fun _ => none) ws s = none := by
      intro s hs
      have : ∀ (ws : List (Slot × AttrVal)) (g : Slot → Option AttrVal), (∀ w ∈ ws, w.1 ∈ [Slot.branchDefault, .branchValue, .branchRange,
          .branchBits, .branchBitsValue]) → g s = none → assign g ws s = none := by
        intro ws
        induction ws with
        | nil => intro g _ h; exact h
        | cons w ws ih =>
          intro g h1 h2
          refine ih _ (fun x hx => h1 x (List.mem_cons_of_mem _ hx)) ?_
          show (if s = w.1 then _ else g s) = none
          rw [if_neg]
          · exact h2
          · rintro rfl
            exact hs (h1 w List.mem_cons_self)
      exact this ws _ hws rfl
    refine quiet_of _ ?_ ?_ ?_
    · simp only [AttrRecord.meaning, hg .byteorder (by decide), Option.map_none]
    · simp [Silent, AttrRecord.meaning, AttrRecord.has, hg]
    · simp only [AttrRecord.meaning, hg .offset (by decide), Option.map_none]
  cases hm with
  | @default before after hb =>
    refine key { get := fun s => if s = .branchDefault then some .flag else none } none none none
      (by rw [C67_others before (fun a ha => .inl (hb a ha))]; rfl) rfl rfl rfl rfl (quiet false [(.branchDefault, .flag)] (by simp)) ?_
    intro num hnum
    simp only [assembleVariant, Arm.variant, hmk, hnum]
    rfl
  | @items as is m hc hs =>
    cases hs with
    | count =>
      refine key _ none none none (carries_field hc rfl) rfl rfl rfl rfl (quiet _ [] (by simp)) ?_
      intro num hnum
      simp only [assembleVariant, Arm.variant, hmk, hnum]
      rfl
    | @rest k hk =>
      simp only [List.mem_cons, List.not_mem_nil, or_false] at hk
      rcases hk with rfl | rfl <;>
      · refine key _ none none none (carries_field hc rfl) rfl rfl rfl rfl (quiet _ [(.branchDefault, .flag)] (by simp)) ?_
        intro num hnum
        simp only [assembleVariant, Arm.variant, hmk, hnum]
        rfl
    | @number lit n hn =>
      obtain ⟨s, ht, hr, hlt⟩ := hn
      have hf := carries_field hc (g := assign (fun _ => none) [(.branchValue, .code s)]) (by rw [← ht.text]; rfl)
      refine key _ none (some (.tag (.num n))) none hf rfl ?_ rfl ?_ (quiet _ [(.branchValue, .code s)] (by simp)) ?_
      · show (patternOf I s).map some = _
        rw [pattern_rust I hr hlt]; rfl
      · exact numberOfText_rust hr hlt
      · intro num hnum
        simp only [assembleVariant, Arm.variant, hmk, hnum]
        rfl
    | @word lit s ht hd =>
      have hf := carries_field hc (g := assign (fun _ => none) [(.branchValue, .code ('b' :: '"' :: s))]) (by rw [← ht.text]; rfl)
      obtain ⟨h1, h2⟩ := word_texts I s hd
      refine key _ none (some (.tag (.bytes (I.bytes ('b' :: '"' :: s))))) none hf rfl ?_ rfl ?_
        (quiet _ [(.branchValue, .code ('b' :: '"' :: s))] (by simp)) ?_
      · show (patternOf I ('b' :: '"' :: s)).map some = _
        rw [h2]; rfl
      · exact h1
      · intro num hnum
        simp only [assembleVariant, Arm.variant, hmk, hnum]
        rfl
    | @range lit x y incl hr =>
      obtain ⟨lo, hi, ht, hlo, hhi, hy⟩ := hr
      obtain ⟨h1, h2⟩ := range_texts I hlo hhi hy _ rfl
      generalize lo ++ ((if incl then ['.', '.', '='] else ['.', '.']) ++ hi) = s at ht h1 h2
      have hf := carries_field hc (g := assign (fun _ => none) [(.branchRange, .code s)]) (by rw [← ht.text]; rfl)
      refine key _ none none (some (.range x y incl)) hf rfl rfl ?_ ?_ (quiet _ [(.branchRange, .code s)] (by simp)) ?_
      · show (patternOf I s).map some = _
        rw [h2]; rfl
      · exact h1
      · intro num hnum
        simp only [assembleVariant, Arm.variant, hmk, hnum]
        rfl
    | @bits lit x hn =>
      obtain ⟨s, ht, hr, hlt⟩ := hn
      have hf := carries_field hc (g := assign (fun _ => none) [(.branchBits, .code s)]) (by rw [← ht.text]; rfl)
      refine key _ (some (x, none)) none none hf ?_ rfl rfl rfl (quiet _ [(.branchBits, .code s)] (by simp)) ?_
      · show (literalNumber s).bind _ = _
        rw [literalNumber_rust hr hlt]; rfl
      · intro num hnum
        simp only [assembleVariant, Arm.variant, hmk, hnum]
        rfl
    | @bitsValue lit lit' x y hn hn' =>
      obtain ⟨s, ht, hr, hlt⟩ := hn
      obtain ⟨s', ht', hr', hlt'⟩ := hn'
      have hf := carries_field hc (g := assign (fun _ => none) [(.branchBits, .code s), (.branchBitsValue, .code s')])
        (by rw [← ht.text, ← ht'.text]; rfl)
      refine key _ (some (x, some y)) none none hf ?_ rfl rfl rfl
        (quiet _ [(.branchBits, .code s), (.branchBitsValue, .code s')] (by simp)) ?_
      · show (literalNumber s).bind _ = _
        rw [literalNumber_rust hr hlt]
        show (literalNumber s').map _ = _
        rw [literalNumber_rust hr' hlt']; rfl
      · intro num hnum
        simp only [assembleVariant, Arm.variant, hmk, hnum]
        rfl
    | @valueBits lit lit' x y hn hn' =>
      obtain ⟨s, ht, hr, hlt⟩ := hn
      obtain ⟨s', ht', hr', hlt'⟩ := hn'
      have hf := carries_field hc (g := assign (fun _ => none) [(.branchBitsValue, .code s'), (.branchBits, .code s)])
        (by rw [← ht.text, ← ht'.text]; rfl)
      refine key _ (some (x, some y)) none none hf ?_ rfl rfl rfl
        (quiet _ [(.branchBitsValue, .code s'), (.branchBits, .code s)] (by simp)) ?_
      · show (literalNumber s).bind _ = _
        rw [literalNumber_rust hr hlt]
        show (literalNumber s').map _ = _
        rw [literalNumber_rust hr' hlt']; rfl
      · intro num hnum
        simp only [assembleVariant, Arm.variant, hmk, hnum]
        rfl

/-- The variants that the macro makes of these arms, with modifiers as in `Q`. -/
inductive Built (I : Interp V) (Q : FieldAttrs V → Prop) : List (Arm V) → List (Variant V) → Prop
  | nil : Built I Q [] []
  | cons {a : Arm V} {arms : List (Arm V)} {at' : FieldAttrs V} {fs : List (Field V)} {us : List (Variant V)} : Q at' →
      a.source.fields.mapM (fieldOf I) = some fs → Built I Q arms us → Built I Q (a :: arms) (a.variant at' fs :: us)

theorem fieldsSay_mapM (I : Interp V) {fs : List (FieldSource V)} {cs : List (List AttrItem × Column V)}
    (h : FieldsSay I fs cs) : ∃ us, fs.mapM (fieldOf I) = some us ∧ us.map (·.attrs.isUse) = cs.map fun c => !c.1.isEmpty := by
  induction h with
  | nil => exact ⟨[], rfl, rfl⟩
  | @cons f fs is c cs ha hs _ ih =>
    obtain ⟨us, h1, h2⟩ := ih
    obtain ⟨t, ht, hu, -⟩ := says_field I ha hs
    refine ⟨⟨t.meaning I, f.dec, f.enc, f.dflt, f.noneV⟩ :: us, ?_, ?_⟩
    · simp only [List.mapM_cons, fieldOf, ht, Option.map_some, h1]
      rfl
    · rw [List.map_cons, List.map_cons, h2, ← hu]
      rfl

theorem built_of (I : Interp V) (arms : List (Arm V)) (h : ∀ a ∈ arms, a.Said I) :
    ∃ us, (arms.map Arm.source).mapM (variantOf I) = some us ∧ Built I Quiet arms us := by
  induction arms with
  | nil => exact ⟨[], rfl, .nil⟩
  | cons a arms ih =>
    obtain ⟨us, h1, h2⟩ := ih fun x hx => h x (List.mem_cons_of_mem _ hx)
    have ha := h a List.mem_cons_self
    obtain ⟨fs, hfs, -⟩ := fieldsSay_mapM I ha.fields
    obtain ⟨at', hv, hq⟩ := said_variant I a ha.value ha.mark fs hfs
    refine ⟨_, ?_, .cons hq hfs h2⟩
    rw [List.map_cons, List.mapM_cons, hv, h1]
    rfl

theorem Built.get {I : Interp V} {Q : FieldAttrs V → Prop} {arms : List (Arm V)} {us : List (Variant V)} (h : Built I Q arms us) {i : Nat} {u : Variant V}
    (hu : us[i]? = some u) : ∃ a at' fs, arms[i]? = some a ∧ u = a.variant at' fs ∧ Q at' ∧
      a.source.fields.mapM (fieldOf I) = some fs := by
  induction h generalizing i with
  | nil => cases hu
  | @cons a arms at' fs us hq hfs _ ih =>
    cases i with
    | zero => cases hu; exact ⟨_, _, _, rfl, rfl, hq, hfs⟩
    | succ i => exact ih hu

theorem Built.length {I : Interp V} {Q : FieldAttrs V → Prop} {arms : List (Arm V)} {us : List (Variant V)} (h : Built I Q arms us) :
    arms.length = us.length := by
  induction h with
  | nil => rfl
  | cons _ _ _ ih => simp [ih]

theorem variant_restart (a : Arm V) (at' : FieldAttrs V) (fs : List (Field V)) : (a.variant at' fs).restart = a.number? := by
  unfold Variant.restart Arm.number? Arm.variant
  cases a.disc with
  | some n => rfl
  | none => cases a.mark <;> rfl

theorem Built.numbers {I : Interp V} {Q : FieldAttrs V → Prop} {arms : List (Arm V)} {us : List (Variant V)} (h : Built I Q arms us) (k : Nat) :
    variantNumbers k us = rustDiscs k (arms.map Arm.number?) := by
  induction h generalizing k with
  | nil => rfl
  | cons _ _ _ ih => rw [variantNumbers, variant_restart, ih, List.map_cons, rustDiscs]

theorem variant_accepts (a : Arm V) (at' : FieldAttrs V) (fs : List (Field V)) (num : Nat) (t : Tag) :
    Accepts (a.variant at' fs) num t ↔ a.mark.Takes num t := by
  constructor
  · intro h
    cases h with
    | default h => simp only [Arm.variant] at h; cases hm : a.mark <;> simp_all [Mark.Takes]
    | bits _ h h' => simp only [Arm.variant] at h; cases hm : a.mark <;> simp_all [Mark.Takes]
    | value _ _ h => simp only [Arm.variant] at h; cases hm : a.mark <;> simp_all [Mark.Takes]
    | range _ _ _ h h1 h2 => simp only [Arm.variant] at h; cases hm : a.mark <;> simp_all [Mark.Takes]
    | position h1 h2 h3 h4 => simp only [Arm.variant] at h1 h2 h3 h4; cases hm : a.mark <;> simp_all [Mark.Takes]
  · intro h
    cases hm : a.mark with
    | count =>
      rw [hm] at h
      rw [show t = .num num from h]
      exact .position (by simp [Arm.variant, hm]) (by simp [Arm.variant, hm]) (by simp [Arm.variant, hm]) (by simp [Arm.variant, hm])
    | number n =>
      rw [hm] at h
      rw [show t = .num n from h]
      exact .value (by simp [Arm.variant, hm]) (by simp [Arm.variant, hm]) (by simp [Arm.variant, hm])
    | word s =>
      rw [hm] at h
      rw [show t = .bytes s from h]
      exact .value (by simp [Arm.variant, hm]) (by simp [Arm.variant, hm]) (by simp [Arm.variant, hm])
    | range lo hi incl =>
      rw [hm] at h
      obtain ⟨n, rfl, h1, h2⟩ := h
      exact .range (incl := incl) (by simp [Arm.variant, hm]) (by simp [Arm.variant, hm]) (by simp [Arm.variant, hm])
        (by simp [Arm.variant, hm]) h1 h2
    | bits mask x =>
      rw [hm] at h
      obtain ⟨n, rfl, h1⟩ := h
      exact .bits (by simp [Arm.variant, hm]) (by simp only [Arm.variant, hm]) h1
    | rest => exact .default (by simp [Arm.variant, hm])

theorem variant_word (a : Arm V) (at' : FieldAttrs V) (fs : List (Field V)) : tagWord (a.variant at' fs) = a.word := by
  unfold tagWord Arm.word Arm.variant
  cases a.mark <;> rfl

theorem variant_default (a : Arm V) (at' : FieldAttrs V) (fs : List (Field V)) :
    (a.variant at' fs).branchDefault = true ↔ a.mark = .rest := by
  unfold Arm.variant
  cases a.mark <;> simp

/-! ## The head of an enum -/

theorem header_items {is : List AttrItem} {h : Header} (hi : HeaderItems is h) :
    ∃ g, assignItems AttrItem.containerWrites (fun _ => none) is = some g ∧
      (⟨true, g⟩ : AttrRecord CSlot).modifiers = some h.mods ∧ (∀ u, (⟨u, g⟩ : AttrRecord CSlot).getVars = h.vars) ∧
      (g .branchStartsWith).isSome = (h.mode == .startsWith false) ∧
      (g .branchStartsWithUntake).isSome = (h.mode == .startsWith true) ∧
      g .branchTakeBytes = (match h.mode with | .takeBytes n => some (.usize n) | _ => none) ∧
      (g .byteCountDisable).isSome = h.bare ∧ g .withDecode = none ∧ g .withBoth = none := by
  induction hi with
  | nil => exact ⟨_, rfl, rfl, fun _ => rfl, rfl, rfl, rfl, rfl, rfl, rfl⟩
  | @order is h name o _ ho ih =>
    obtain ⟨g, hg, h1, h2, h3, h4, h5, h6, h7, h8⟩ := ih
    obtain ⟨v, hv, hvo⟩ := order_parse ho
    refine ⟨_, assignItems_snoc _ _ (by simp only [AttrItem.containerWrites, hv]; rfl) _ _ _ hg, ?_⟩
    refine ⟨?_, h2, h3, h4, h5, h6, h7, h8⟩
    rw [← hvo]
    have h1' : h.mods = _ := (Option.some.inj h1).symm
    rw [h1']
    rfl
  | @width is h s n _ hs hn ih =>
    obtain ⟨g, hg, h1, h2, h3, h4, h5, h6, h7, h8⟩ := ih
    refine ⟨_, assignItems_snoc _ _ (by simp only [AttrItem.containerWrites, (C65_number _ n hs hn).1]; rfl) _ _ _ hg, ?_⟩
    refine ⟨?_, h2, h3, h4, h5, h6, h7, h8⟩
    have h1' : h.mods = _ := (Option.some.inj h1).symm
    rw [h1']
    rfl
  | @variables is h gs _ hne hgs ih =>
    obtain ⟨g, hg, h1, h2, h3, h4, h5, h6, h7, h8⟩ := ih
    refine ⟨_, assignItems_snoc _ _ (by simp only [AttrItem.containerWrites, parseList_names gs hne hgs]; rfl) _ _ _ hg, ?_⟩
    refine ⟨h1, fun u => ?_, h3, h4, h5, h6, h7, h8⟩
    show (((some (AttrVal.list (gs.map .str))).map fun v => v.pieces.map fun p => String.ofList p.text).getD []) = _
    simp [AttrVal.pieces, AttrVal.text, Function.comp_def]
  | @bytes is h s n _ hm hs hn ih =>
    obtain ⟨g, hg, h1, h2, h3, h4, h5, h6, h7, h8⟩ := ih
    rw [hm] at h3 h4
    refine ⟨_, assignItems_snoc _ _ (by simp only [AttrItem.containerWrites, (C65_number _ n hs hn).1]; rfl) _ _ _ hg, ?_⟩
    exact ⟨h1, h2, h3, h4, rfl, h6, h7, h8⟩
  | @words is h _ hm ih =>
    obtain ⟨g, hg, h1, h2, h3, h4, h5, h6, h7, h8⟩ := ih
    rw [hm] at h3 h4 h5
    refine ⟨_, assignItems_snoc _ _ rfl _ _ _ hg, ?_⟩
    exact ⟨h1, h2, rfl, h4, h5, h6, h7, h8⟩
  | @peeked is h _ hm ih =>
    obtain ⟨g, hg, h1, h2, h3, h4, h5, h6, h7, h8⟩ := ih
    rw [hm] at h3 h4 h5
    refine ⟨_, assignItems_snoc _ _ rfl _ _ _ hg, ?_⟩
    exact ⟨h1, h2, h3, rfl, h5, h6, h7, h8⟩
  | @bare is h _ ih =>
    obtain ⟨g, hg, h1, h2, h3, h4, h5, h6, h7, h8⟩ := ih
    refine ⟨_, assignItems_snoc _ _ rfl _ _ _ hg, ?_⟩
    exact ⟨h1, h2, h3, h4, h5, rfl, h7, h8⟩

theorem header_container {as : List Attribute} {reach : Option CAttr} {h : Header} (hs : HeaderSays as reach h)
    (W : TypeInterp (Nat × List V)) : ∃ t, containerText as = some t ∧ t.modifiers = reach ∧ t.getVars = h.vars ∧
      t.tagMode = some h.mode ∧ t.has .byteCountDisable = h.bare ∧ t.ownDecoder W = none := by
  cases hs with
  | @items as is h hc hi =>
    obtain ⟨g, hg, h1, h2, h3, h4, h5, h6, h7, h8⟩ := header_items hi
    refine ⟨_, carries_container hc hg, ?_, h2 _, ?_, h6, ?_⟩
    · cases is with
      | nil => rfl
      | cons i is => exact h1
    · unfold AttrRecord.tagMode AttrRecord.has
      simp only [h3, h4, h5]
      cases h.mode with
      | uint => rfl
      | takeBytes n => rfl
      | startsWith u => cases u <;> rfl
    · simp only [AttrRecord.ownDecoder, h7, h8, Option.map_none]
  | @repr before after r k hb hr =>
    have key : containerText (before ++ .repr [.tag r] :: after) = containerText [.repr [.tag r]] := by
      induction before with
      | nil =>
        simp only [reprSizes, List.mem_cons, List.not_mem_nil, or_false, Prod.mk.injEq] at hr
        rcases hr with ⟨rfl, rfl⟩ | ⟨rfl, rfl⟩ | ⟨rfl, rfl⟩ | ⟨rfl, rfl⟩ | ⟨rfl, rfl⟩ <;> rfl
      | cons a as ih =>
        rw [hb a List.mem_cons_self]
        exact ih fun b hm => hb b (List.mem_cons_of_mem _ hm)
    rw [key]
    simp only [reprSizes, List.mem_cons, List.not_mem_nil, or_false, Prod.mk.injEq] at hr
    rcases hr with ⟨rfl, rfl⟩ | ⟨rfl, rfl⟩ | ⟨rfl, rfl⟩ | ⟨rfl, rfl⟩ | ⟨rfl, rfl⟩ <;>
      exact ⟨_, rfl, rfl, rfl, rfl, rfl, rfl⟩

theorem headsFollow_iff (l : List BranchHead) : headsFollow l = true ↔
    (∀ i : Nat, l[i]? ≠ some .if) ∧ ∀ i : Nat, l[i]? = some .else → i + 1 = l.length := by
  induction l with
  | nil => simp [headsFollow]
  | cons x l ih =>
    cases x with
    | «if» =>
      refine ⟨fun h => (nomatch h), fun h => absurd rfl (h.1 0)⟩
    | «else» =>
      cases l with
      | nil =>
        refine ⟨fun _ => ⟨fun i h => ?_, fun i h => ?_⟩, fun _ => rfl⟩
        · cases i with
          | zero => cases h
          | succ i => cases h
        · cases i with
          | zero => rfl
          | succ i => cases h
      | cons y l => exact ⟨fun h => (nomatch h), fun h => absurd (h.2 0 rfl) (by simp)⟩
    | elseIf =>
      rw [show headsFollow (.elseIf :: l) = headsFollow l from rfl, ih]
      constructor
      · rintro ⟨h1, h2⟩
        refine ⟨fun i h => ?_, fun i h => ?_⟩
        · cases i with
          | zero => cases h
          | succ i => exact h1 i h
        · cases i with
          | zero => cases h
          | succ i => rw [h2 i h]; rfl
      · rintro ⟨h1, h2⟩
        exact ⟨fun i => h1 (i + 1), fun i h => by simpa using h2 (i + 1) h⟩

theorem headsAccepted_iff (l : List BranchHead) : headsAccepted l = true ↔
    l[0]? = some .if ∧ (∀ i : Nat, 0 < i → l[i]? ≠ some .if) ∧ ∀ i : Nat, l[i]? = some .else → i + 1 = l.length := by
  cases l with
  | nil => exact ⟨fun h => (nomatch h), fun h => (nomatch h.1)⟩
  | cons x l =>
    cases x with
    | «if» =>
      rw [show headsAccepted (.if :: l) = headsFollow l from rfl, headsFollow_iff]
      constructor
      · rintro ⟨h1, h2⟩
        refine ⟨rfl, fun i hi h => ?_, fun i h => ?_⟩
        · obtain ⟨i, rfl⟩ : ∃ j, i = j + 1 := ⟨i - 1, by omega⟩
          exact h1 i h
        · cases i with
          | zero => cases h
          | succ i => rw [h2 i h]; rfl
      · rintro ⟨-, h1, h2⟩
        exact ⟨fun i => h1 (i + 1) (by omega), fun i h => by simpa using h2 (i + 1) h⟩
    | «else» => exact ⟨fun h => (nomatch h), fun h => (nomatch h.1)⟩
    | elseIf => exact ⟨fun h => (nomatch h), fun h => (nomatch h.1)⟩

theorem Built.ofArm {I : Interp V} {Q : FieldAttrs V → Prop} {arms : List (Arm V)} {us : List (Variant V)} (h : Built I Q arms us) {i : Nat} {a : Arm V}
    (ha : arms[i]? = some a) : ∃ at' fs, us[i]? = some (a.variant at' fs) ∧ Q at' ∧
      a.source.fields.mapM (fieldOf I) = some fs := by
  induction h generalizing i with
  | nil => cases ha
  | @cons a' arms at' fs us hq hfs _ ih =>
    cases i with
    | zero => cases ha; exact ⟨_, _, rfl, hq, hfs⟩
    | succ i => exact ih ha

theorem suits_accepted {I : Interp V} {Q : FieldAttrs V → Prop} {arms : List (Arm V)} (E : EnumDef V) (hb : Built I Q arms E.variants) :
    E.accepted = true ↔ Suits E.mode arms := by
  have hmem : ∀ u ∈ E.variants, ∃ a at' fs, a ∈ arms ∧ u = a.variant at' fs := by
    intro u hu
    obtain ⟨i, hi⟩ := List.mem_iff_getElem?.1 hu
    obtain ⟨a, at', fs, ha, e, -⟩ := hb.get hi
    exact ⟨a, at', fs, List.mem_of_getElem? ha, e⟩
  have hmem' : ∀ a ∈ arms, ∃ at' fs, a.variant at' fs ∈ E.variants := by
    intro a ha
    obtain ⟨i, hi⟩ := List.mem_iff_getElem?.1 ha
    obtain ⟨at', fs, h, -⟩ := hb.ofArm hi
    exact ⟨at', fs, List.mem_of_getElem? h⟩
  have hall : ∀ (p : Variant V → Bool) (q : Arm V → Prop), (∀ a at' fs, p (a.variant at' fs) = true ↔ q a) →
      (E.variants.all p = true ↔ ∀ a ∈ arms, q a) := by
    intro p q hpq
    rw [List.all_eq_true]
    constructor
    · intro h a ha
      obtain ⟨at', fs, hm⟩ := hmem' a ha
      exact (hpq a at' fs).1 (h _ hm)
    · intro h u hu
      obtain ⟨a, at', fs, ha, rfl⟩ := hmem u hu
      exact (hpq a at' fs).2 (h a ha)
  have hne : (!E.variants.isEmpty) = true ↔ arms ≠ [] := by
    have := hb.length
    cases ha : arms <;> cases hv : E.variants <;> simp_all
  unfold EnumDef.accepted Suits
  rw [Bool.and_eq_true, hne]
  cases E.mode with
  | uint =>
    refine and_congr_right fun _ => hall _ (fun a => ∀ s, a.mark ≠ .word s) fun a at' fs => ?_
    unfold Arm.variant
    cases a.mark <;> simp
  | takeBytes n =>
    refine and_congr_right fun _ => hall _ (fun a => a.mark = .rest ∨ ∃ s, a.mark = .word s) fun a at' fs => ?_
    unfold Arm.variant
    cases a.mark <;> simp
  | startsWith u =>
    have hzip : ∀ i v n, (E.variants.zip E.numbers)[i]? = some (v, n) → ∃ a at' fs, ArmAt arms i a n ∧ v = a.variant at' fs := by
      intro i v n h
      rw [List.getElem?_zip_eq_some, EnumDef.numbers, hb.numbers] at h
      obtain ⟨a, at', fs, ha, e, -⟩ := hb.get h.1
      exact ⟨a, at', fs, ⟨ha, h.2⟩, e⟩
    have hzip' : ∀ i a n, ArmAt arms i a n → ∃ at' fs, (E.variants.zip E.numbers)[i]? = some (a.variant at' fs, n) := by
      intro i a n h
      obtain ⟨at', fs, hv, -⟩ := hb.ofArm h.1
      refine ⟨at', fs, ?_⟩
      rw [List.getElem?_zip_eq_some, EnumDef.numbers, hb.numbers]
      exact ⟨hv, h.2⟩
    have hhead : ∀ i x, ((E.variants.zip E.numbers).map fun x => branchHead x.1 x.2)[i]? = some x ↔
        ∃ a n at' fs, ArmAt arms i a n ∧ branchHead (Arm.variant a at' fs) n = x := by
      intro i x
      rw [List.getElem?_map, Option.map_eq_some_iff]
      constructor
      · rintro ⟨⟨v, n⟩, h, rfl⟩
        obtain ⟨a, at', fs, hn, rfl⟩ := hzip i v n h
        exact ⟨a, n, at', fs, hn, rfl⟩
      · rintro ⟨a, n, at', fs, hn, rfl⟩
        obtain ⟨at'', fs', h⟩ := hzip' i a n hn
        exact ⟨_, h, rfl⟩
    have hif : ∀ (a : Arm V) n at' fs, branchHead (a.variant at' fs) n = .if ↔
        n = 0 ∧ ((∃ s, a.mark = .word s) ∨ ∃ m, a.mark = .number m) := by
      intro a n at' fs
      unfold branchHead Arm.variant
      cases a.mark <;> by_cases hn : n = 0 <;> simp [hn]
    have helse : ∀ (a : Arm V) n at' fs, branchHead (a.variant at' fs) n = .else ↔ a.mark = .rest := by
      intro a n at' fs
      unfold branchHead Arm.variant
      cases a.mark <;> by_cases hn : n = 0 <;> simp [hn]
    have hlen : ((E.variants.zip E.numbers).map fun x => branchHead x.1 x.2).length = arms.length := by
      rw [List.length_map, List.length_zip, EnumDef.numbers, hb.numbers, ← hb.length, rustDiscs_length, List.length_map,
        Nat.min_self]
    have hnum : ∀ i a, arms[i]? = some a → ∃ n, ArmAt arms i a n := by
      intro i a h
      have : i < arms.length := (List.getElem?_eq_some_iff.1 h).1
      have hl : i < (rustDiscs 0 (arms.map Arm.number?)).length := by rw [rustDiscs_length, List.length_map]; exact this
      exact ⟨_, h, List.getElem?_eq_getElem hl⟩
    have hno := hall (fun v => match v.branchValue with | some (.num _) => false | _ => true) (fun a => ∀ n, a.mark ≠ .number n)
      (fun a at' fs => by unfold Arm.variant; cases a.mark <;> simp)
    show (arms ≠ [] ∧ (headsAccepted _ && E.variants.all (fun v => match v.branchValue with | some (.num _) => false | _ => true)) = true) ↔ _
    rw [Bool.and_eq_true, hno, headsAccepted_iff, hlen]
    constructor
    · rintro ⟨-, ⟨h1, h2, h3⟩, h4⟩
      refine ⟨?_, ?_, ?_, h4⟩
      · obtain ⟨a, n, at', fs, hn, hi⟩ := (hhead 0 .if).1 h1
        obtain ⟨rfl, hs | ⟨m, hm⟩⟩ := (hif _ _ _ _).1 hi
        · obtain ⟨s, hs⟩ := hs
          exact ⟨a, s, hn, hs⟩
        · exact absurd hm (h4 a (List.mem_of_getElem? hn.1) m)
      · intro i a s hi hn hm
        obtain ⟨at', fs, -⟩ := hb.ofArm hn.1
        exact h2 i hi ((hhead i .if).2 ⟨a, 0, at', fs, hn, (hif _ _ _ _).2 ⟨rfl, .inl ⟨s, hm⟩⟩⟩)
      · intro i a ha hm
        obtain ⟨n, hn⟩ := hnum i a ha
        obtain ⟨at', fs, -⟩ := hb.ofArm ha
        exact h3 i ((hhead i .else).2 ⟨a, n, at', fs, hn, (helse _ _ _ _).2 hm⟩)
    · rintro ⟨⟨a, s, hn, hm⟩, h2, h3, h4⟩
      refine ⟨?_, ⟨?_, ?_, ?_⟩, h4⟩
      · rintro rfl
        cases hn.1
      · obtain ⟨at', fs, -⟩ := hb.ofArm hn.1
        exact (hhead 0 .if).2 ⟨a, 0, at', fs, hn, (hif _ _ _ _).2 ⟨rfl, .inl ⟨s, hm⟩⟩⟩
      · intro i hi h
        obtain ⟨a, n, at', fs, hn, hx⟩ := (hhead i .if).1 h
        obtain ⟨rfl, ⟨s, hs⟩ | ⟨m, hm⟩⟩ := (hif _ _ _ _).1 hx
        · exact h2 i a s hi hn hs
        · exact h4 a (List.mem_of_getElem? hn.1) m hm
      · intro i h
        obtain ⟨a, n, at', fs, hn, hx⟩ := (hhead i .else).1 h
        exact h3 i a hn.1 ((helse _ _ _ _).1 hx)

/-! ## C81 -/

/-- The lines fill the fields of variant `a`: they are its fields with what is written on them, and no field without a
modifier follows one with modifiers (see C46). -/
structure Fills (a : Arm V) (ls : List (Line V)) : Prop where
  source : ls.map Line.source = a.source.fields
  text : ls.map (fun l => (l.items, l.col)) = a.cols
  apart : ls.Pairwise fun x y => x.items ≠ [] → y.items ≠ []

theorem FieldsSay.lines {I : Interp V} {ls : List (Line V)}
    (h : FieldsSay I (ls.map Line.source) (ls.map fun l => (l.items, l.col))) :
    ∀ l ∈ ls, Carries l.source.attrs l.items ∧ Says I l.items l.col := by
  induction ls with
  | nil => intro l hl; cases hl
  | cons l ls ih =>
    cases h with
    | cons ha hs ht =>
      intro x hx
      rcases List.mem_cons.1 hx with rfl | hx
      · exact ⟨ha, hs⟩
      · exact ih ht x hx

theorem enumOf_parts (I : Interp V) (W : TypeInterp (Nat × List V)) {as : List Attribute} {reach : Option CAttr} {h : Header}
    {arms : List (Arm V)} (hh : HeaderSays as reach h) (hs : ∀ a ∈ arms, a.Said I) :
    ∃ E : EnumDef V, enumOf I W as (arms.map Arm.source) = (if E.accepted then some E else none) ∧ E.container = reach ∧
      E.getVars = h.vars ∧ E.mode = h.mode ∧ E.byteCountDisable = h.bare ∧ E.withDecode = none ∧ Built I Quiet arms E.variants := by
  obtain ⟨t, ht, h1, h2, h3, h4, h5⟩ := header_container hh W
  obtain ⟨us, hu, hb⟩ := built_of I arms hs
  refine ⟨⟨reach, h.vars, h.mode, h.bare, us, none⟩, ?_, rfl, rfl, rfl, rfl, rfl, hb⟩
  simp only [enumOf, ht, hu, h1, h2, h3, h4, h5, Option.bind_some, Option.isSome_none, Bool.false_or]

theorem enumOf_built (I : Interp V) (W : TypeInterp (Nat × List V)) {as : List Attribute} {reach : Option CAttr} {h : Header}
    {arms : List (Arm V)} (hh : HeaderSays as reach h) (hs : ∀ a ∈ arms, a.Said I) {E : EnumDef V}
    (hE : enumOf I W as (arms.map Arm.source) = some E) : E.container = reach ∧
      E.getVars = h.vars ∧ E.mode = h.mode ∧ E.byteCountDisable = h.bare ∧ E.withDecode = none ∧ Built I Quiet arms E.variants := by
  obtain ⟨E', h1, h2⟩ := enumOf_parts I W hh hs
  rw [hE] at h1
  by_cases ha : E'.accepted = true
  · rw [if_pos ha] at h1
    cases h1
    exact h2
  · rw [if_neg ha] at h1
    cases h1

theorem Built.isVariant {I : Interp V} {Q : FieldAttrs V → Prop} {arms : List (Arm V)} {E : EnumDef V} (hb : Built I Q arms E.variants) {i num : Nat}
    {a : Arm V} (h : ArmAt arms i a num) : ∃ at' fs, E.IsVariant i (a.variant at' fs) num ∧ Q at' ∧
      a.source.fields.mapM (fieldOf I) = some fs := by
  obtain ⟨at', fs, hv, hq, hf⟩ := hb.ofArm h.1
  refine ⟨at', fs, ⟨hv, ?_⟩, hq, hf⟩
  rw [← C44_numbers, EnumDef.numbers, hb.numbers]
  exact h.2

theorem Built.ofVariant {I : Interp V} {Q : FieldAttrs V → Prop} {arms : List (Arm V)} {E : EnumDef V} (hb : Built I Q arms E.variants) {i num : Nat}
    {v : Variant V} (h : E.IsVariant i v num) : ∃ a at' fs, ArmAt arms i a num ∧ v = a.variant at' fs := by
  obtain ⟨a, at', fs, ha, e, -⟩ := hb.get h.1
  have := h.2
  rw [← C44_numbers, EnumDef.numbers, hb.numbers] at this
  exact ⟨a, at', fs, ⟨ha, this⟩, e⟩

theorem body_fills {I : Interp V} {E : EnumDef V} {a : Arm V} (ha : a.Said I) {at' : FieldAttrs V} {fs : List (Field V)}
    (hq : Quiet at') (hf : a.source.fields.mapM (fieldOf I) = some fs) {ls : List (Line V)} (hl : Fills a ls) {ee ed : Env V}
    {w suf : List Byte} (h : Lays E.container ls ee ed w suf) :
    BodyRT E (a.variant at' fs) ee ed (ls.map Line.v) w suf ∧ gap (a.variant at' fs).attrs ee = 0 ∧
      gap (a.variant at' fs).attrs ed = 0 := by
  have hsay := ha.fields
  rw [← hl.source, ← hl.text] at hsay
  obtain ⟨fs', e1, e2, -⟩ := lays_segments I _ h hsay.lines
  obtain ⟨fs'', e3, e4⟩ := fieldsSay_mapM I hsay
  rw [hl.source, hf] at e1 e3
  cases e1
  cases e3
  have hp : fs.Pairwise (fun f g => f.attrs.isUse = true → g.attrs.isUse = true) := by
    have : (fs.map (·.attrs.isUse)).Pairwise (fun x y => x = true → y = true) := by
      rw [e4, List.map_map, List.pairwise_map]
      refine hl.apart.imp fun {x y} hxy hx => ?_
      simp only [Function.comp_apply, Bool.not_eq_true', List.isEmpty_eq_false_iff] at hx ⊢
      exact hxy hx
    rwa [List.pairwise_map] at this
  exact ⟨⟨hq.order _, hq.order _, ⟨hp, .inl (hq.own _)⟩, ⟨hp, .inl (hq.own _)⟩, by rw [show gap (a.variant at' fs).attrs ed = 0 from hq.gap _]; exact (hq.gap _).symm, e2⟩,
    hq.gap _, hq.gap _⟩

theorem isValueOf_eq_toBytes {o : ByteOrder} {w : List Byte} {k n : Nat} (hl : w.length = k) (h : IsValueOf o w n) :
    w = toBytes o k n ∧ n < 256 ^ k := by
  have e : n = fromBytes o w := h.unique (isValueOf_fromBytes o w)
  subst e hl
  exact ⟨(toBytes_fromBytes o w).symm, fromBytes_lt o w⟩

theorem TagWritten.writes {E : EnumDef V} {h : Header} (hm : E.mode = h.mode) (hd : E.byteCountDisable = h.bare) {a : Arm V}
    {num : Nat} {ca : Option CAttr} {fa : Option FAttr} {w : List Byte} (ht : TagWritten E.container h a num ca fa w)
    (at' : FieldAttrs V) (fs : List (Field V)) : Writes (encTagMode E (a.variant at' fs) num ca fa) w := by
  cases ht with
  | branch hu hb => exact (TagWire.branch (num := num) (hm.trans hu) hb).writes
  | @width k w hu hb h2 hk hl hv =>
    obtain ⟨rfl, -⟩ := isValueOf_eq_toBytes hl hv
    have e : encTagMode E (a.variant at' fs) num ca fa = pushUint num k (effectiveOrder ca fa) := by
      rw [← getByteorder_eq]
      simp only [encTagMode, hm.trans hu, encTag]
      cases fa with
      | none =>
        simp only [Option.bind_none, Option.or_none] at h2
        simp only [h2]
      | some fr =>
        simp only [Option.bind_some] at hb h2
        simp only [hb]
        cases ho : E.container.bind (·.byteCount) with
        | some k' => rw [ho] at h2; simp only [Option.some_or, Option.some.injEq] at h2; rw [h2]
        | none => rw [ho] at h2; simp only [Option.none_or] at h2; simp only [h2]
    rw [e]
    exact (Appends.uint _ _ _ hk).writes
  | @byte x hu hb h1 h2 hbare hx =>
    have := (TagWire.byte (v := a.variant at' fs) (num := num) (ca := ca) (hm.trans hu) hb h1 h2 (hd.trans hbare)
      (by rw [← hx]; exact x.toNat_lt)).writes
    rw [← hx] at this ⊢
    rwa [UInt8.ofNat_toNat] at this
  | bare hu hb h1 h2 hbare =>
    have e : encTagMode E (a.variant at' fs) num ca fa = Pure.pure 0 := by
      simp only [encTagMode, hm.trans hu, encTag]
      cases fa with
      | none => simp [h2, encTagByte, hd.trans hbare]
      | some fr =>
        simp only [Option.bind_some] at hb h1
        simp [hb, h1, h2, encTagByte, hd.trans hbare]
    rw [e]
    exact Appends.pure0.writes
  | bytes hu =>
    simp only [encTagMode, hm.trans hu, word_eq, variant_word]
    exact (Appends.push _).writes
  | word hu =>
    simp only [encTagMode, hm.trans hu, word_eq, variant_word]
    exact (Appends.push _).writes
  | peeked hu =>
    simp only [encTagMode, hm.trans hu]
    exact Appends.pure0.writes

theorem TagRead.reads {E : EnumDef V} {h : Header} (hm : E.mode = h.mode) {ca : Option CAttr} {fa : Option FAttr} {t : Tag}
    {w : List Byte} (ht : TagRead E.container h ca fa t w) (suf : List Byte) : Reads (E.tagOf ca fa) t w suf := by
  cases ht with
  | branch hu hb =>
    intro pre _
    simp only [EnumDef.tagOf, hm.trans hu, mapM'_apply, (C44_tag E.container ca fa _).1 _ hb]
    rfl
  | @width k num w hu hb h1 hk hl hv =>
    obtain ⟨rfl, hn⟩ := isValueOf_eq_toBytes hl hv
    intro pre hp
    have r := Reads.uint (effectiveOrder ca fa) k num suf hk hn pre hp
    simp only [EnumDef.tagOf, hm.trans hu, mapM'_apply, ((C44_tag E.container ca fa _).2 hb).1 k h1, r]
  | @byte x hu hb h1 h2 =>
    intro pre hp
    have r := Reads.u8 x suf pre hp
    have e := ((C44_tag E.container ca fa ⟨pre ++ ([x] ++ suf), pre.length⟩).2 hb).2 (by rw [h1, h2]; rfl)
    simp only [EnumDef.tagOf, hm.trans hu, mapM'_apply, e, r]
  | bytes hu =>
    intro pre hp
    have r := Reads.bytes w suf pre hp
    simp only [EnumDef.tagOf, hm.trans hu, mapM'_apply, r]

/-- C81 (what can be derived): for an enum whose text says what its tags and fields are, there is a codec exactly when
the variants go with the way tags are written. -/
theorem C81_derivable (I : Interp V) (W : TypeInterp (Nat × List V)) (as : List Attribute) (reach : Option CAttr) (h : Header)
    (arms : List (Arm V)) (hh : HeaderSays as reach h) (hs : ∀ a ∈ arms, a.Said I) :
    (enumOf I W as (arms.map Arm.source)).isSome ↔ Suits h.mode arms := by
  obtain ⟨E, h1, -, -, hm, -, -, hb⟩ := enumOf_parts I W hh hs
  rw [h1, ← hm, ← suits_accepted E hb]
  cases E.accepted <;> simp

/-- C81 (encoding): a value is encoded as the tag of its variant – in the width, byte order and manner that is written on
the enum and the field it stands in – followed by the images of its fields as in C80. -/
theorem C81_encode (I : Interp V) (W : TypeInterp (Nat × List V)) (as : List Attribute) (reach : Option CAttr) (h : Header)
    (arms : List (Arm V)) (hh : HeaderSays as reach h) (hs : ∀ a ∈ arms, a.Said I) (E : EnumDef V)
    (hE : enumOf I W as (arms.map Arm.source) = some E) (i : Nat) (a : Arm V) (num : Nat) (ha : ArmAt arms i a num)
    (ls : List (Line V)) (hl : Fills a ls) (ca : Option CAttr) (fa : Option FAttr) (ed : Env V) (tw w suf : List Byte)
    (ht : TagWritten reach h a num ca fa tw) (hw : Lays reach ls { vars := localVars h.vars ca } ed w suf) :
    Writes (encEnum E (i, ls.map Line.v) ca fa) (tw ++ w) := by
  obtain ⟨rfl, hv, hm, hd, -, hb⟩ := enumOf_built I W hh hs hE
  obtain ⟨at', fs, hiv, hq, hf⟩ := hb.isVariant ha
  rw [← hv] at hw
  obtain ⟨hbody, hg, -⟩ := body_fills (hs a (List.mem_of_getElem? ha.1)) hq hf hl hw
  have := encVariant_writes hiv (ht.writes hm hd at' fs) hbody
  rwa [hg] at this

/-- C81 (decoding): once the bytes read as the tag are known, the first variant that stands for the tag is the one that
is decoded, with its fields as in C80; if none stands for it, decoding fails with `InvalidByteLength` after the tag. -/
theorem C81_decode (I : Interp V) (W : TypeInterp (Nat × List V)) (as : List Attribute) (reach : Option CAttr) (h : Header)
    (arms : List (Arm V)) (hh : HeaderSays as reach h) (hs : ∀ a ∈ arms, a.Said I) (E : EnumDef V)
    (hE : enumOf I W as (arms.map Arm.source) = some E) (ca : Option CAttr) (fa : Option FAttr) (t : Tag) (tw : List Byte)
    (ht : TagRead reach h ca fa t tw) :
    (∀ i a ls ee w suf, FirstToTake arms t i → arms[i]? = some a → Fills a ls →
      Lays reach ls ee { vars := localVars h.vars ca } w suf → Reads (decEnum E ca fa) (i, ls.map Line.v) (tw ++ w) suf) ∧
    ((∀ i, ¬ FirstToTake arms t i) → ∀ pre rest : List Byte, pre.length + tw.length + rest.length ≤ isizeMax →
      decEnum E ca fa ⟨pre ++ (tw ++ rest), pre.length⟩ =
        (.err ⟨pre.length + tw.length, .invalidByteLength⟩, ⟨pre ++ (tw ++ rest), pre.length + tw.length⟩)) := by
  obtain ⟨rfl, hv, hm, hd, hw, hb⟩ := enumOf_built I W hh hs hE
  have hmo : ∀ u, E.mode ≠ .startsWith u := by
    intro u hu
    rw [hm] at hu
    cases ht with
    | branch e | width e | byte e | bytes e => rw [hu] at e; cases e
  constructor
  · intro i a ls ee w suf hfirst hai hl hlay
    obtain ⟨⟨a', num, ha, htake⟩, hbefore⟩ := hfirst
    have ea : a' = a := Option.some.inj (ha.1.symm.trans hai)
    subst ea
    obtain ⟨at', fs, hiv, hq, hf⟩ := hb.isVariant ha
    rw [← hv] at hlay
    obtain ⟨hbody, -, hg⟩ := body_fills (hs a' (List.mem_of_getElem? hai)) hq hf hl hlay
    have hsel : E.Selects t i (a'.variant at' fs) := by
      refine ⟨⟨num, hiv, (variant_accepts _ _ _ _ _).2 htake⟩, fun j v' n' hj hv' hacc => ?_⟩
      obtain ⟨b, bt, bf, hbp, rfl⟩ := hb.ofVariant hv'
      exact hbefore j b n' hj hbp ((variant_accepts _ _ _ _ _).1 hacc)
    intro pre hp
    simp only [List.length_append] at hp
    have r := ht.reads hm (w ++ suf) pre (by simp only [List.length_append]; omega)
    have d := (C44_dispatch E hw hmo ca fa _).1 _ _ i _ r hsel
    have rb := hbody.reads
    rw [hg] at rb
    have rb := rb (pre ++ tw) (by simp only [List.length_append, List.replicate_zero, List.nil_append]; omega)
    simp only [List.append_assoc, List.length_append, List.replicate_zero, List.nil_append] at rb d ⊢
    rw [d, mapM'_apply, rb]
    simp only [Nat.add_assoc]
  · intro hnone pre rest hp
    have r := ht.reads hm rest pre hp
    refine (C44_dispatch E hw hmo ca fa _).2.1 _ _ r fun i v n hiv hacc => ?_
    have key : ∀ k i, i < k → ∀ a num, ArmAt arms i a num → ¬ a.mark.Takes num t := by
      intro k
      induction k with
      | zero => intro i hi; omega
      | succ k ih =>
        intro i hi a num hp htk
        exact hnone i ⟨⟨a, num, hp, htk⟩, fun j b m hj => ih j (by omega) b m⟩
    obtain ⟨a, at', fs, hp, rfl⟩ := hb.ofVariant hiv
    exact key (i + 1) i (by omega) a n hp ((variant_accepts _ _ _ _ _).1 hacc)

/-- C81 (decoding by how the input begins): the first variant that takes the rest or whose bytes the input begins with is
the one that is decoded, after its bytes (`branch_starts_with`) or from the same place (`branch_starts_with_untake`, or a
variant that takes the rest); if there is none, decoding fails with `Fail` where it began. -/
theorem C81_words (I : Interp V) (W : TypeInterp (Nat × List V)) (as : List Attribute) (reach : Option CAttr) (h : Header)
    (arms : List (Arm V)) (hh : HeaderSays as reach h) (hs : ∀ a ∈ arms, a.Said I) (E : EnumDef V)
    (hE : enumOf I W as (arms.map Arm.source) = some E) (ca : Option CAttr) (fa : Option FAttr) (peek : Bool)
    (hmode : h.mode = .startsWith peek) :
    (∀ i a ls ee tw w suf, FirstToBegin arms (tw ++ w ++ suf) i → arms[i]? = some a → Fills a ls →
      (tw = if peek = true ∨ a.mark = .rest then [] else a.word) →
      Lays reach ls ee { vars := localVars h.vars ca } w suf → Reads (decEnum E ca fa) (i, ls.map Line.v) (tw ++ w) suf) ∧
    (∀ pre data : List Byte, (∀ i, ¬ FirstToBegin arms data i) → pre.length + data.length ≤ isizeMax →
      decEnum E ca fa ⟨pre ++ data, pre.length⟩ = (.err ⟨pre.length, .fail⟩, ⟨pre ++ data, pre.length⟩)) := by
  obtain ⟨rfl, hv, hm, hd, hw, hb⟩ := enumOf_built I W hh hs hE
  have hmo := hm.trans hmode
  have hbeg : ∀ (a : Arm V) at' fs (data : List Byte),
      ((a.variant at' fs).branchDefault = true ∨ ∃ rest, data = tagWord (a.variant at' fs) ++ rest) ↔
        (a.mark = .rest ∨ a.word <+: data) := by
    intro a at' fs data
    rw [variant_default, variant_word]
    exact or_congr_right ⟨fun ⟨r, e⟩ => ⟨r, e.symm⟩, fun ⟨r, e⟩ => ⟨r, e.symm⟩⟩
  constructor
  · intro i a ls ee tw w suf hfirst hai hl htw hlay
    obtain ⟨⟨a', ha, hfirst⟩, hbefore⟩ := hfirst
    have ea : a' = a := Option.some.inj (ha.symm.trans hai)
    subst ea
    obtain ⟨at', fs, hiv, hq, hf⟩ := hb.ofArm hai
    rw [← hv] at hlay
    obtain ⟨hbody, -, hg⟩ := body_fills (hs a' (List.mem_of_getElem? hai)) hq hf hl hlay
    have hsel : E.SelectsWord (tw ++ w ++ suf) i (a'.variant at' fs) := by
      refine ⟨hiv, (hbeg _ _ _ _).2 hfirst, fun j v' hj hv' => ?_⟩
      obtain ⟨b, bt, bf, hbp, rfl, -⟩ := hb.get hv'
      have := not_or.2 (hbefore j b hj hbp)
      rw [← hbeg b bt bf, not_or] at this
      exact ⟨by simpa using this.1, this.2⟩
    intro pre hp
    have hok := ok_of_size hp
    have d := (C44_words E hw peek hmo ca fa _ hok).1 i _ (by simpa using hsel)
    have hskip : (if (peek || (a'.variant at' fs).branchDefault) = true then 0 else (tagWord (a'.variant at' fs)).length) = tw.length := by
      rw [htw, variant_word]
      simp only [Bool.or_eq_true, variant_default]
      split <;> rfl
    rw [hskip] at d
    simp only [List.length_append] at hp
    have rb := hbody.reads
    rw [hg] at rb
    have rb := rb (pre ++ tw) (by simp only [List.length_append, List.replicate_zero, List.nil_append]; omega)
    simp only [List.append_assoc, List.length_append, List.replicate_zero, List.nil_append] at rb d ⊢
    rw [d, mapM'_apply, rb]
    simp only [Nat.add_assoc]
  · intro pre data hnone hp
    have hok : (⟨pre ++ data, pre.length⟩ : Buf).Ok := by
      have := ok_of_size (pre := pre) (w := data) (suf := []) (by simpa using hp)
      simpa using this
    refine (C44_words E hw peek hmo ca fa _ hok).2 fun i v hsel => ?_
    simp only [List.drop_left] at hsel
    obtain ⟨h1, h2, h3⟩ := hsel
    obtain ⟨a, at', fs, ha, rfl, -⟩ := hb.get h1
    refine hnone i ⟨⟨a, ha, (hbeg _ _ _ _).1 h2⟩, fun j b hj hbj => ?_⟩
    obtain ⟨bt, bf, hbv, -⟩ := hb.ofArm hbj
    obtain ⟨h4, h5⟩ := h3 j _ hj hbv
    have := mt (hbeg b bt bf data).2 (by rw [not_or]; exact ⟨by simp [h4], h5⟩)
    exact not_or.1 this

/-- C81 (round trip), the part that holds: a value whose tag is read back as written, and whose variant is the first that
stands for it, is encoded as its tag and its fields, and this is decoded to the value.  Missing from the full statement:
texts for which no code is generated that rustc accepts (`C81_violated`), tags that do not survive (C45) and modifiers
that leak into fields without (C46). -/
theorem C81_roundtrip_partial (I : Interp V) (W : TypeInterp (Nat × List V)) (as : List Attribute) (reach : Option CAttr)
    (h : Header) (arms : List (Arm V)) (hh : HeaderSays as reach h) (hs : ∀ a ∈ arms, a.Said I) (hsuit : Suits h.mode arms) :
    ∃ E, enumOf I W as (arms.map Arm.source) = some E ∧
      ∀ i a num ls ca ca' fa t tw w suf, ArmAt arms i a num → Fills a ls → TagWritten reach h a num ca fa tw →
        TagRead reach h ca' fa t tw → FirstToTake arms t i →
        Lays reach ls { vars := localVars h.vars ca } { vars := localVars h.vars ca' } w suf →
        Writes (encEnum E (i, ls.map Line.v) ca fa) (tw ++ w) ∧ Reads (decEnum E ca' fa) (i, ls.map Line.v) (tw ++ w) suf := by
  obtain ⟨E, hE⟩ := Option.isSome_iff_exists.1 ((C81_derivable I W as reach h arms hh hs).2 hsuit)
  refine ⟨E, hE, fun i a num ls ca ca' fa t tw w suf ha hl hwr hrd hfirst hlay => ⟨?_, ?_⟩⟩
  · exact C81_encode I W as reach h arms hh hs E hE i a num ha ls hl ca fa _ tw w suf hwr hlay
  · exact (C81_decode I W as reach h arms hh hs E hE ca' fa t tw hrd).1 i a ls _ w suf hfirst ha.1 hl hlay

/-- The two fields of the second variant below: `len: u8, #[jbytes(length = "len")] data: Vec<u8>`. -/
def packetLines : List (Line Val) :=
  [⟨⟨[], numDec ⟨1, false⟩, numEnc ⟨1, false⟩, .num 0, .absent⟩, [], {}, .num 2, [2]⟩,
    ⟨⟨[.jbytes [.prop "length" ['"', 'l', 'e', 'n', '"']]], bytesDec, bytesEnc, .bytes [], .absent⟩,
      [.prop "length" ['"', 'l', 'e', 'n', '"']], { told := fun env => some { length := some (env.num 0) } }, .bytes [7, 8], [7, 8]⟩]

/-- `Ping, #[jbytes(branch_value = 0x10)] Data { .. }, #[jbytes(branch_range = "32..=40")] Ack,
#[jbytes(branch_default)] Other`. -/
def packetArms : List (Arm Val) :=
  [⟨{ attrs := [], name := [112] }, none, .count, []⟩,
    ⟨{ attrs := [.jbytes [.prop "branch_value" ['0', 'x', '1', '0']]], name := [100], fields := packetLines.map Line.source },
      none, .number 16, packetLines.map fun l => (l.items, l.col)⟩,
    ⟨{ attrs := [.other, .jbytes [.prop "branch_range" ['"', '3', '2', '.', '.', '=', '4', '0', '"']]], name := [97] }, none, .range 32 40 true, []⟩,
    ⟨{ attrs := [.jbytes [.tag "branch_default"]], name := [111] }, none, .rest, []⟩]

theorem packet_said : ∀ a ∈ packetArms, a.Said lenInterp := by
  intro a ha
  simp only [packetArms, List.mem_cons, List.not_mem_nil, or_false] at ha
  rcases ha with rfl | rfl | rfl | rfl
  · exact ⟨.none, .items (.none fun a h => nomatch h) .count, .nil⟩
  · refine ⟨.none, .items (.some (before := []) (fun a h => nomatch h)) (.number ⟨['0', 'x', '1', '0'], .bare (by decide) (by decide +kernel),
      .hex (.cons (d := 1) (by decide +kernel) (.digit (d := 0) (by decide +kernel))), by rw [usizeMod_def]; decide⟩), ?_⟩
    exact .cons (.none fun a h => nomatch h) .nil (.cons (.some (before := []) (fun a h => nomatch h))
      (.number .nil List.mem_cons_self (.expr (src := ['l', 'e', 'n']) (s := ['l', 'e', 'n'])
          (.plain (by decide) (by decide) (.plain (by decide) (by decide) (.plain (by decide) (by decide) .nil)))
          (.inr ⟨'l', by decide, by decide, by decide, no_digit (by decide +kernel)⟩))) .nil)
  · refine ⟨.none, .items (.some (before := [.other]) (fun a h => List.mem_singleton.1 h)) (.range ⟨['3', '2'], ['4', '0'], .quoted (src := ['3', '2', '.', '.', '=', '4', '0']) ?_,
      .inr ⟨.cons (d := 3) (by decide +kernel) (.digit (d := 2) (by decide +kernel)), by rw [usizeMod_def]; decide⟩,
      .cons (d := 4) (by decide +kernel) (.digit (d := 0) (by decide +kernel)), by rw [usizeMod_def]; decide⟩), .nil⟩
    exact .plain (by decide) (by decide) (.plain (by decide) (by decide) (.plain (by decide) (by decide) (.plain (by decide) (by decide)
      (.plain (by decide) (by decide) (.plain (by decide) (by decide) (.plain (by decide) (by decide) .nil))))))
  · exact ⟨.none, .items (.some (before := []) (fun a h => nomatch h)) (.rest (by simp)), .nil⟩

/-- `#[jbytes(byte_count = 2)]`. -/
theorem packet_header : HeaderSays [.jbytes [.prop "byte_count" ['2']]] (some { byteCount := some 2 }) { mods := { byteCount := some 2 } } :=
  .items (.some (before := []) (fun a h => nomatch h)) (.width .nil (.dec (.digit (by decide +kernel))) (by rw [usizeMod_def]; decide))

theorem packet_suits : Suits .uint packetArms := by
  refine ⟨by simp [packetArms], fun a ha s => ?_⟩
  simp only [packetArms, List.mem_cons, List.not_mem_nil, or_false] at ha
  rcases ha with rfl | rfl | rfl | rfl <;> exact nofun

theorem packet_lays (vars vars' : List (String × Nat)) :
    Lays (some { byteCount := some 2 }) packetLines { vars := vars } { vars := vars' } [2, 7, 8] [] := by
  refine .cons (w := [7, 8]) rfl ?_ ?_ (.cons (w := []) rfl (told_bytes 2 _ _ [] rfl).1 (told_bytes 2 _ _ _ rfl).2 .nil)
  · exact (int_writes ⟨1, false⟩ (.mk _ _ (by decide)) 2 _ none rfl rfl)
  · exact (int_reads ⟨1, false⟩ (.mk _ _ (by decide)) 2 _ none _ rfl rfl (by decide)).mapped Val.num

theorem packet_fills : Fills packetArms[1] packetLines := ⟨rfl, rfl, by simp [packetLines]⟩

theorem packet_numbers : rustDiscs 0 (packetArms.map Arm.number?) = [0, 16, 40, 41] := by decide

theorem packet_first (n i : Nat) (a : Arm Val) (num : Nat) (h : ArmAt packetArms i a num) (ht : a.mark.Takes num (.num n))
    (hb : ∀ j : Fin i, ∀ b m, packetArms[j.1]? = some b → [0, 16, 40, 41][j.1]? = some m → ¬ b.mark.Takes m (.num n)) :
    FirstToTake packetArms (.num n) i :=
  ⟨⟨a, num, h, ht⟩, fun j b m hj hp => hb ⟨j, hj⟩ b m hp.1 (by rw [← packet_numbers]; exact hp.2)⟩

/-- The second variant is written with its number in two bytes, in the order of where it stands, and read back; a number
of the range is read as the third variant and any other as the last. -/
example : ∃ E, enumOf lenInterp noTypes [.jbytes [.prop "byte_count" ['2']]] (packetArms.map Arm.source) = some E ∧
    Writes (encEnum E (1, [.num 2, .bytes [7, 8]]) (some { byteorder := some .le }) none) [16, 0, 2, 7, 8] ∧
    Reads (decEnum E none none) (1, [.num 2, .bytes [7, 8]]) [0, 16, 2, 7, 8] [] ∧
    Reads (decEnum E none none) (2, []) [0, 35] [] ∧ Reads (decEnum E none none) (3, []) [1, 16] [] := by
  obtain ⟨E, hE⟩ := Option.isSome_iff_exists.1 ((C81_derivable lenInterp noTypes _ _ _ _ packet_header packet_said).2 packet_suits)
  have hd := fun n tw ht => (C81_decode lenInterp noTypes _ _ _ _ packet_header packet_said E hE none none (.num n) tw ht).1
  refine ⟨E, hE, ?_, ?_, ?_, ?_⟩
  · exact C81_encode lenInterp noTypes _ _ _ _ packet_header packet_said E hE 1 _ 16 ⟨rfl, by rw [packet_numbers]; rfl⟩ packetLines packet_fills
      _ none _ [16, 0] [2, 7, 8] [] (.width rfl rfl rfl (by decide) rfl (isValueOf_fromBytes _ _)) (packet_lays _ [])
  · exact hd 16 [0, 16] (.width rfl rfl rfl (by decide) rfl (isValueOf_fromBytes _ _)) 1 _ packetLines _ [2, 7, 8] []
      (packet_first 16 1 _ 16 ⟨rfl, by rw [packet_numbers]; rfl⟩ rfl (by
        intro j b m h1 h2 h3
        obtain ⟨j, hj⟩ := j
        obtain rfl : j = 0 := by omega
        cases h1; cases h2; cases h3)) rfl packet_fills (packet_lays [] _)
  · exact hd 35 [0, 35] (.width rfl rfl rfl (by decide) rfl (isValueOf_fromBytes _ _)) 2 _ [] _ [] []
      (packet_first 35 2 _ 40 ⟨rfl, by rw [packet_numbers]; rfl⟩ ⟨35, rfl, by decide, .inl (by decide)⟩ (by
        intro j b m h1 h2 h3
        obtain ⟨j, hj⟩ := j
        have : j = 0 ∨ j = 1 := by omega
        rcases this with rfl | rfl <;> cases h1 <;> cases h2 <;> cases h3)) rfl ⟨rfl, rfl, .nil⟩ (.nil (ee := {}))
  · exact hd 272 [1, 16] (.width rfl rfl rfl (by decide) rfl (isValueOf_fromBytes _ _)) 3 _ [] _ [] []
      (packet_first 272 3 _ 41 ⟨rfl, by rw [packet_numbers]; rfl⟩ trivial (by
        intro j b m h1 h2 h3
        obtain ⟨j, hj⟩ := j
        have : j = 0 ∨ j = 1 ∨ j = 2 := by omega
        rcases this with rfl | rfl | rfl <;> cases h1 <;> cases h2
        · cases h3
        · cases h3
        · obtain ⟨n, hn, -, h4⟩ := h3
          cases hn
          omega)) rfl ⟨rfl, rfl, .nil⟩ (.nil (ee := {}))

/-- `#[jbytes(branch_value = b"read")] Read { address: u8 }, #[jbytes(branch_default)] Unknown`. -/
def wordArms : List (Arm Val) :=
  [⟨{ attrs := [.jbytes [.prop "branch_value" ['b', '"', 'r', 'e', 'a', 'd', '"']]], name := [114],
      fields := [⟨[], numDec ⟨1, false⟩, numEnc ⟨1, false⟩, .num 0, .absent⟩] }, none, .word [114, 101, 97, 100], [([], {})]⟩,
    ⟨{ attrs := [.default], name := [117] }, none, .rest, []⟩]

/-- Byte strings are what they say, for those used here. -/
def wordInterp : Interp Val := { noInterp with bytes := fun s => if s = ['b', '"', 'r', 'e', 'a', 'd', '"'] then [114, 101, 97, 100] else [] }

theorem word_said : ∀ a ∈ wordArms, a.Said wordInterp := by
  intro a ha
  simp only [wordArms, List.mem_cons, List.not_mem_nil, or_false] at ha
  rcases ha with rfl | rfl
  · exact ⟨.none, .items (.some (before := []) (fun a h => nomatch h)) (.word (I := wordInterp) (s := ['r', 'e', 'a', 'd', '"'])
      (.bare (by decide) (by decide +kernel)) (by decide +kernel)), .cons (.none fun a h => nomatch h) .nil .nil⟩
  · exact ⟨.none, .default (before := []) (fun a h => nomatch h), .nil⟩

theorem word_header : HeaderSays [.jbytes [.tag "branch_starts_with"]] (some {}) { mode := .startsWith false } :=
  .items (.some (before := []) (fun _ h => nomatch h)) (.words .nil rfl)

theorem word_suits : Suits (.startsWith false) wordArms := by
  refine ⟨⟨_, _, ⟨rfl, rfl⟩, rfl⟩, ?_, ?_, ?_⟩
  · intro i _ s hi h hm
    have : i = 1 ∨ 2 ≤ i := by omega
    rcases this with rfl | h2
    · cases h.2
    · have := (List.getElem?_eq_some_iff.1 h.1).1
      exact absurd this (by simp only [wordArms, List.length_cons, List.length_nil]; omega)
  · intro i a h hm
    have := (List.getElem?_eq_some_iff.1 h).1
    have : i = 0 ∨ i = 1 := by simp only [wordArms, List.length_cons, List.length_nil] at this; omega
    rcases this with rfl | rfl
    · cases h; cases hm
    · rfl
  · intro a ha n
    simp only [wordArms, List.mem_cons, List.not_mem_nil, or_false] at ha
    rcases ha with rfl | rfl <;> exact nofun

/-- `read`, then the address; anything else is the other variant, and nothing of it is taken. -/
example : ∃ E, enumOf wordInterp noTypes [.jbytes [.tag "branch_starts_with"]] (wordArms.map Arm.source) = some E ∧
    Writes (encEnum E (0, [.num 9]) none none) [114, 101, 97, 100, 9] ∧
    Reads (decEnum E none none) (0, [.num 9]) [114, 101, 97, 100, 9] [1] ∧ Reads (decEnum E none none) (1, []) [] [114, 9] := by
  obtain ⟨E, hE⟩ := Option.isSome_iff_exists.1 ((C81_derivable wordInterp noTypes _ _ _ _ word_header word_said).2 word_suits)
  have hd := (C81_words wordInterp noTypes _ _ _ _ word_header word_said E hE none none false rfl).1
  let ls : List (Line Val) := [⟨⟨[], numDec ⟨1, false⟩, numEnc ⟨1, false⟩, .num 0, .absent⟩, [], {}, .num 9, [9]⟩]
  have hl : ∀ suf vars vars', Lays (some {}) ls { vars := vars } { vars := vars' } [9] suf := fun suf vars vars' => by
    refine .cons (w := []) rfl ?_ ?_ .nil
    · exact (int_writes ⟨1, false⟩ (.mk _ _ (by decide)) 9 _ none rfl rfl)
    · exact (int_reads ⟨1, false⟩ (.mk _ _ (by decide)) 9 _ none _ rfl rfl (by decide)).mapped Val.num
  refine ⟨E, hE, ?_, ?_, ?_⟩
  · exact C81_encode wordInterp noTypes _ _ _ _ word_header word_said E hE 0 _ 0 ⟨rfl, rfl⟩ ls ⟨rfl, rfl, by simp [ls]⟩ none none _
      _ [9] [] (.word rfl) (hl _ _ [])
  · exact hd 0 _ ls _ [114, 101, 97, 100] [9] [1] ⟨⟨_, rfl, .inr ⟨[9, 1], rfl⟩⟩, fun j _ hj => by omega⟩ rfl ⟨rfl, rfl, by simp [ls]⟩ rfl (hl _ [] _)
  · refine hd 1 _ [] _ [] [] [114, 9] ⟨⟨_, rfl, .inl rfl⟩, fun j a hj ha => ?_⟩ rfl ⟨rfl, rfl, .nil⟩ rfl (.nil (ee := {}))
    obtain rfl : j = 0 := by omega
    cases ha
    exact ⟨nofun, by decide⟩

/-- C81 does not hold in general: for these texts – each says what it means – there is no code that rustc accepts: under
`branch_starts_with` an enum whose first variant goes by its name, and one whose default comes first; an enum without
variants; and the macro panics on a byte string with two dots in it (derive/src/jbytes/derive_enum.rs:163-190, 152-155,
258-261, 602-608). -/
theorem C81_violated :
    (∃ (h : Header) (reach : Option CAttr) (as : List Attribute) (arms : List (Arm Val)), HeaderSays as reach h ∧
      (∀ a ∈ arms, a.Said wordInterp ∧ a.mark = .count) ∧ arms ≠ [] ∧ h.mode = .startsWith false ∧
      enumOf wordInterp noTypes as (arms.map Arm.source) = none) ∧
    enumOf wordInterp noTypes [.jbytes [.tag "branch_starts_with"]] (wordArms.reverse.map Arm.source) = none ∧
    enumOf wordInterp noTypes [] [] = none ∧
    ∀ (V : Type) (I : Interp V) (lit : Text), lit = ['b', '"', 'a', '.', '.', 'b', '"'] →
      variantOf I { attrs := [.jbytes [.prop "branch_value" lit]], name := [97] } = none := by
  refine ⟨⟨_, _, _, [⟨{ attrs := [], name := [97] }, none, .count, []⟩], word_header, ?_, by simp, rfl, ?_⟩, ?_, ?_, ?_⟩
  · intro a ha
    rw [List.mem_singleton.1 ha]
    exact ⟨⟨.none, .items (.none fun a h => nomatch h) .count, .nil⟩, rfl⟩
  · rfl
  · rfl
  · rfl
  · rintro V I _ rfl
    rfl

end JBytes
