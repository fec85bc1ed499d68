import Verif.AttrText
/-!
# From the text of a type to its codec (derive/src/jbytes)

What `#[derive(ByteEncode, ByteDecode)]` makes of a struct or an enum whose attributes are given as text.  `none`: the
macro reports an error or panics, or rustc does not accept the result.
-/

namespace JBytes

variable {V : Type}

/-- What rustc makes of the codecs named in `with`, `with_decode` and `with_encode` on a type. -/
structure TypeInterp (α : Type) where
  decoder : Text → Dec α
  encoder : Text → Enc α
  decoderOf : Text → Dec α
  encoderOf : Text → Enc α

/-- A field as written: its attributes, the codec of its type, and the two defaults of `Field`. -/
structure FieldSource (V : Type) where
  attrs : List Attribute
  dec : Dec V
  enc : Enc V
  dflt : V
  noneV : V

/-- The attributes of one field, derive/src/jbytes/derive_struct.rs:85 and 128. -/
def fieldOf (I : Interp V) (f : FieldSource V) : Option (Field V) :=
  (fieldText f.attrs).map fun t => { attrs := t.meaning I, dec := f.dec, enc := f.enc, dflt := f.dflt, noneV := f.noneV }

/-- Which decoder stands in for the generated one, derive/src/jbytes/derive_struct.rs:165-171,
derive/src/jbytes/derive_enum.rs:86-92. -/
def AttrRecord.ownDecoder {α : Type} (W : TypeInterp α) (t : AttrRecord CSlot) : Option (Dec α) :=
  match t.get .withDecode with
  | some v => some (W.decoder v.text)
  | none => (t.get .withBoth).map fun v => W.decoderOf v.text

/-- Likewise for encoders, derive/src/jbytes/derive_struct.rs:220-225. -/
def AttrRecord.ownEncoder {α : Type} (W : TypeInterp α) (t : AttrRecord CSlot) : Option (Enc α) :=
  match t.get .withEncode with
  | some v => some (W.encoder v.text)
  | none => (t.get .withBoth).map fun v => W.encoderOf v.text

/-- A derived struct, derive/src/jbytes/derive_struct.rs:164-261. -/
def structOf (I : Interp V) (W : TypeInterp (List V)) (attrs : List Attribute) (tuple : Bool)
    (fields : List (FieldSource V)) : Option (StructDef V) :=
  (containerText attrs).bind fun t =>
    (fields.mapM (fieldOf I)).map fun fs =>
      { container := t.modifiers, getVars := t.getVars, tuple := tuple, fields := fs
        withDecode := t.ownDecoder W, withEncode := t.ownEncoder W }

/-- The text after the first occurrence of `pat`, as `find` and a slice give it. -/
def afterFirst (pat : Text) : Text → Option Text
  | [] => if pat.isEmpty then some [] else none
  | c :: s => if pat.isPrefixOf (c :: s) then some ((c :: s).drop pat.length) else afterFirst pat s

/-- The text before the first occurrence of `pat`. -/
def beforeFirst (pat : Text) : Text → Text
  | [] => []
  | c :: s => if pat.isPrefixOf (c :: s) then [] else c :: beforeFirst pat s

/-- Whether `pat` occurs. -/
def containsText (pat s : Text) : Bool := (afterFirst pat s).isSome

/-- `EnumVariantIterator::next`, derive/src/jbytes/derive_enum.rs:598-614: the number at which the text of a
discriminant, range or branch value lets the count start again.  The outer `none` is a panic, the inner one that the
count goes on. -/
def numberOfText (s : Text) : Option (Option Nat) :=
  if startsHex s then (usizeFromRadix 16 (s.drop 2)).map some
  else
    match afterFirst ['.', '.', '='] s with
    | some e => (usizeFromRadix 10 e).map some
    | none =>
      match afterFirst ['.', '.'] s with
      | some e => (usizeFromRadix 10 e).map some
      | none => if containsText ['b', '"'] s then some none else (usizeFromRadix 10 s).map some

/-- A decimal or hexadecimal literal, as rustc reads it in a pattern. -/
def literalNumber (s : Text) : Option Nat :=
  if startsHex s then usizeFromRadix 16 (s.drop 2) else usizeFromRadix 10 s

/-- The start of a range pattern; it may be missing. -/
def rangeStart (s : Text) : Option Nat := if s.isEmpty then some 0 else literalNumber s

/-- The patterns that the text of `branch_value` or `branch_range` is to rustc (derive_enum.rs:327-332): ranges, byte
strings and numbers.  Other patterns are not modelled. -/
inductive TagPattern where
  | tag (t : Tag)
  | range (lo hi : Nat) (incl : Bool)

/-- See `TagPattern`. -/
def patternOf (I : Interp V) (s : Text) : Option TagPattern :=
  if containsText ['b', '"'] s then some (.tag (.bytes (I.bytes s)))
  else
    match afterFirst ['.', '.', '='] s with
    | some e => (rangeStart (beforeFirst ['.', '.', '='] s)).bind fun lo => (literalNumber e).map fun hi => .range lo hi true
    | none =>
      match afterFirst ['.', '.'] s with
      | some e => (rangeStart (beforeFirst ['.', '.'] s)).bind fun lo => (literalNumber e).map fun hi => .range lo hi false
      | none => (literalNumber s).map fun n => .tag (.num n)

/-- A variant as written; `value` is the literal after `=`. -/
structure VariantSource (V : Type) where
  attrs : List Attribute
  name : List Byte
  value : Option Text := none
  tuple : Bool := false
  fields : List (FieldSource V) := []

/-- The text that determines where the count starts again, derive/src/jbytes/derive_enum.rs:583-596. -/
def numberSource (t : AttrRecord Slot) (value : Option Text) : Option Text :=
  match value with
  | some s => some s
  | none => ((t.get .branchRange).or (t.get .branchValue)).map (·.text)

/-- The bits a tag is tested for, derive/src/jbytes/derive_enum.rs:312-326. -/
def AttrRecord.bits (t : AttrRecord Slot) : Option (Option (Nat × Option Nat)) :=
  match t.get .branchBits with
  | none => some none
  | some m =>
    (literalNumber m.text).bind fun m =>
      match t.get .branchBitsValue with
      | none => some (some (m, none))
      | some x => (literalNumber x.text).map fun x => some (m, some x)

/-- The pattern in a modifier, if it is there. -/
def AttrRecord.pattern (I : Interp V) (t : AttrRecord Slot) (s : Slot) : Option (Option TagPattern) :=
  match t.get s with
  | none => some none
  | some v => (patternOf I v.text).map some

/-- Where the count starts again, derive/src/jbytes/derive_enum.rs:583-614; see `numberOfText`. -/
def countRestart (t : AttrRecord Slot) (value : Option Text) : Option (Option Nat) :=
  match numberSource t value with
  | none => some none
  | some s => numberOfText s

/-- A variant from its parts: `bv` is the pattern in `branch_value` and `br` the one in `branch_range`.  `branch_value`
comes before `branch_range`; the record of a variant has room for one of them. -/
def assembleVariant (I : Interp V) (v : VariantSource V) (t : AttrRecord Slot) (fs : List (Field V)) (num : Option Nat)
    (bits : Option (Nat × Option Nat)) : Option TagPattern → Option TagPattern → Option (Variant V)
  | some (.tag x), none | none, some (.tag x) =>
    some { attrs := t.meaning I, name := v.name, disc := v.value.bind fun _ => num, tuple := v.tuple
           branchDefault := t.has .branchDefault, branchBits := bits, branchValue := some x, fields := fs }
  | some (.range lo hi incl), none | none, some (.range lo hi incl) =>
    some { attrs := t.meaning I, name := v.name, disc := v.value.bind fun _ => num, tuple := v.tuple
           branchDefault := t.has .branchDefault, branchBits := bits, branchRange := some (lo, hi, incl), fields := fs }
  | none, none =>
    some { attrs := t.meaning I, name := v.name, disc := v.value.bind fun _ => num, tuple := v.tuple
           branchDefault := t.has .branchDefault, branchBits := bits, fields := fs }
  | some _, some _ => none

/-- A variant and its attributes, derive/src/jbytes/derive_enum.rs:305-345 and 583-624. -/
def variantOf (I : Interp V) (v : VariantSource V) : Option (Variant V) :=
  (fieldText v.attrs).bind fun t =>
    (v.fields.mapM (fieldOf I)).bind fun fs =>
      (countRestart t v.value).bind fun num =>
        t.bits.bind fun bits =>
          (t.pattern I .branchValue).bind fun bv =>
            (t.pattern I .branchRange).bind fun br => assembleVariant I v t fs num bits bv br

/-- How the tag is written, derive/src/jbytes/derive_enum.rs:112-117 and 263-266.  Both `branch_starts_with` and
`branch_starts_with_untake` at once are not modelled. -/
def AttrRecord.tagMode (t : AttrRecord CSlot) : Option TagMode :=
  match t.has .branchStartsWith, t.has .branchStartsWithUntake with
  | true, true => none
  | true, false => some (.startsWith false)
  | false, true => some (.startsWith true)
  | false, false =>
    match t.get .branchTakeBytes with
    | none => some .uint
    | some (.usize n) => some (.takeBytes n)
    | some _ => none

/-- The heads of the branches under `branch_starts_with`, derive/src/jbytes/derive_enum.rs:168-188: `if` only for a
variant numbered 0 that has a branch value, else `else if`, and `else` for a default variant. -/
inductive BranchHead where
  | if
  | elseIf
  | else
  deriving DecidableEq

/-- See `BranchHead`. -/
def branchHead (v : Variant V) (num : Nat) : BranchHead :=
  if v.branchDefault then .else
  else if v.branchValue.isSome ∧ num = 0 then .if
  else .elseIf

/-- Whether rustc accepts the heads after the first one. -/
def headsFollow : List BranchHead → Bool
  | [] => true
  | [.else] => true
  | .elseIf :: hs => headsFollow hs
  | _ => false

/-- A chain of branches begins with its only `if` and has `else` at most at the end. -/
def headsAccepted : List BranchHead → Bool
  | .if :: hs => headsFollow hs
  | _ => false

/-- Whether rustc accepts what is generated for the variants: `Ok(Self {{}})` without variants is no expression
(derive/src/jbytes/derive_enum.rs:152-155, 258-261), patterns have the type of the tag, and branches form a chain.
(Empty range patterns, which rustc rejects as well, are not excluded.) -/
def EnumDef.accepted (E : EnumDef V) : Bool :=
  !E.variants.isEmpty &&
  match E.mode with
  | .uint => E.variants.all fun v => v.branchDefault || v.branchBits.isSome ||
      match v.branchValue with
      | some (.bytes _) => false
      | _ => true
  | .takeBytes _ => E.variants.all fun v => v.branchDefault || v.branchBits.isNone &&
      match v.branchValue with
      | some (.bytes _) => true
      | _ => false
  | .startsWith _ => headsAccepted ((E.variants.zip E.numbers).map fun x => branchHead x.1 x.2) &&
      E.variants.all fun v =>
        match v.branchValue with
        | some (.num _) => false
        | _ => true

/-- A derived enum, derive/src/jbytes/derive_enum.rs:85-567. -/
def enumOf (I : Interp V) (W : TypeInterp (Nat × List V)) (attrs : List Attribute) (variants : List (VariantSource V)) :
    Option (EnumDef V) :=
  (containerText attrs).bind fun t =>
    (variants.mapM (variantOf I)).bind fun vs =>
      t.tagMode.bind fun mode =>
        let E : EnumDef V :=
          { container := t.modifiers, getVars := t.getVars, mode := mode, byteCountDisable := t.has .byteCountDisable
            variants := vs, withDecode := t.ownDecoder W }
        if E.withDecode.isSome || E.accepted then some E else none

end JBytes
