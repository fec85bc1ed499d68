import Verif.Derive
/-!
# The text of attributes (derive/src/jbytes/parse.rs, derive/src/jbytes/attribute.rs)

What the derive macros make of the literals and names inside `#[jbytes(...)]`.  A text is a list of characters.  The
Rust expressions inside attributes are not interpreted here: `Interp` is what rustc makes of them.  Splitting
`#[jbytes(a, b=1)]` into tags and properties is done by the `virtue` crate (`parse_tagged_attribute`) and taken as
given, as is its `get_attribute`: the first attribute for which `parse` gives a value.
-/

namespace JBytes

/-- The text of a literal token or of a piece of it. -/
abbrev Text := List Char

/-- `AttrValue`, derive/src/jbytes/parse.rs:4-12 (`Option` is never produced), and the plain texts and flags that
`FieldAttributes` also holds. -/
inductive AttrVal where
  | str (s : Text)
  | bytes (s : Text)
  | var (s : Text)
  | usize (n : Nat)
  | list (l : List AttrVal)
  | code (s : Text)
  | flag

/-- `s.replace("\\\"", "\"")`, derive/src/jbytes/parse.rs:17. -/
def unescapeQuotes : Text → Text
  | '\\' :: '"' :: s => '"' :: unescapeQuotes s
  | c :: s => c :: unescapeQuotes s
  | [] => []

/-- `parse_value_string`, derive/src/jbytes/parse.rs:16-24.  (The slice would panic on a single quote, which is not a
literal.) -/
def litText (s : Text) : Text :=
  let v := unescapeQuotes s
  if v.head? = some '"' ∧ v.getLast? = some '"' then (v.drop 1).dropLast else v

/-- `char::to_digit`. -/
def digitOf (radix : Nat) (c : Char) : Option Nat :=
  let v :=
    if '0' ≤ c ∧ c ≤ '9' then some (c.toNat - 48)
    else if 'a' ≤ c ∧ c ≤ 'z' then some (c.toNat - 97 + 10)
    else if 'A' ≤ c ∧ c ≤ 'Z' then some (c.toNat - 65 + 10)
    else none
  v.filter (· < radix)

/-- The digit loop of `usize::from_str_radix`, with its overflow check. -/
def radixDigits (radix : Nat) : Nat → Text → Option Nat
  | acc, [] => some acc
  | acc, c :: s =>
    match digitOf radix c with
    | some d => if acc * radix + d < usizeMod then radixDigits radix (acc * radix + d) s else none
    | none => none

/-- `usize::from_str_radix` of the standard library: an optional `+`, at least one digit. -/
def usizeFromRadix (radix : Nat) : Text → Option Nat
  | [] => none
  | ['+'] => none
  | '+' :: s => radixDigits radix 0 s
  | s => radixDigits radix 0 s

/-- `trim_start_matches("0x")`: removes the prefix as often as it is there. -/
def trimHex : Text → Text
  | '0' :: 'x' :: s => trimHex s
  | s => s

/-- `starts_with("0x")`. -/
def startsHex (s : Text) : Bool := ['0', 'x'].isPrefixOf s

/-- The test shared by `parse_usize` and `parse_list`, derive/src/jbytes/parse.rs:48-50 and 63-65. -/
def numberText (v : Text) : Option Nat := usizeFromRadix (if startsHex v then 16 else 10) (trimHex v)

/-- `AttrValue::parse_usize`, derive/src/jbytes/parse.rs:46-55. -/
def parseUsize (lit : Text) : AttrVal :=
  match numberText (litText lit) with
  | some n => .usize n
  | none => .var (litText lit)

/-- `value.split(',')`. -/
def splitComma : Text → List Text
  | [] => [[]]
  | c :: s =>
    if c = ',' then [] :: splitComma s
    else
      match splitComma s with
      | g :: gs => (c :: g) :: gs
      | [] => [[c]]

/-- The entries for one piece, derive/src/jbytes/parse.rs:63-69: a number is pushed twice. -/
def listEntries (v : Text) : List AttrVal :=
  match numberText v with
  | some n => [.usize n, .str v]
  | none => [.str v]

/-- `AttrValue::parse_list`, derive/src/jbytes/parse.rs:58-73. -/
def parseList (lit : Text) : AttrVal := .list ((splitComma (litText lit)).flatMap listEntries)

/-- `AttrValue::parse_byteorder`, derive/src/jbytes/parse.rs:76-83. -/
def parseByteorder (lit : Text) : AttrVal :=
  if litText lit ∈ ["BE".toList, "LE".toList, "0".toList, "1".toList, ">".toList, "<".toList] then .str (litText lit)
  else .var (litText lit)

/-- `ByteOrder::parse`, src/byteorder.rs:10-25 (derived by `jkcenum` from the names and aliases given there). -/
def orderOfName (s : Text) : Option ByteOrder :=
  if s ∈ ["BE".toList, ">".toList, "0".toList] then some .be
  else if s ∈ ["LE".toList, "<".toList, "1".toList] then some .le
  else none

/-! ## The modifiers of a field -/

/-- One item of `#[jbytes(...)]`: `tag` or `key = literal`. -/
inductive AttrItem where
  | tag (name : String)
  | prop (key : String) (lit : Text)

/-- The fields of `FieldAttributes`, derive/src/jbytes/attribute.rs:124-180, without `is_use` and
`get_variable_name`, which no item sets. -/
inductive Slot where
  | byteorder | length | offset | untake | full | count | tryCount | bits | bitsStart | byteCount | byteCountOutside
  | defaultValue | defaultBool | valueEncode | valueDecode | fromStrBool | fromStr | variableName | key | split
  | linend | remaining | branch | branchBits | branchBitsValue | branchRange | branchValue | branchDefault
  | withEncode | withDecode | withBoth | withArgs | ifExpr | skip | skipEncode | skipDecode | loopSkipStarts
  | checkValue
  deriving DecidableEq, Repr

/-- What a tag assigns, derive/src/jbytes/attribute.rs:253-267.  `none`: unknown, an error. -/
def tagWrites (name : String) : Option (List (Slot × AttrVal)) :=
  match name with
  | "enum_default" | "branch_default" => some [(.branchDefault, .flag)]
  | "untake" => some [(.untake, .flag)]
  | "bits_start" => some [(.bitsStart, .flag)]
  | "skip" => some [(.skip, .flag)]
  | "skip_encode" => some [(.skipEncode, .flag)]
  | "skip_decode" => some [(.skipDecode, .flag)]
  | "default" | "default_value" => some [(.defaultBool, .flag)]
  | "from_str" => some [(.fromStrBool, .flag)]
  | "remaining" => some [(.remaining, .flag)]
  | _ => none

/-- What a property assigns, derive/src/jbytes/attribute.rs:268-309. -/
def propWrites (key : String) (lit : Text) : Option (List (Slot × AttrVal)) :=
  match key with
  | "byteorder" => some [(.byteorder, parseByteorder lit)]
  | "length" => some [(.length, parseUsize lit)]
  | "offset" => some [(.offset, parseUsize lit)]
  | "count" => some [(.count, parseUsize lit)]
  | "try_count" => some [(.tryCount, parseUsize lit)]
  | "full" => some [(.full, parseUsize lit)]
  | "key" | "starts_with" => some [(.key, .bytes (litText lit))]
  | "split" => some [(.split, .bytes (litText lit))]
  | "linend" | "end_with" => some [(.linend, .bytes (litText lit))]
  | "branch" => some [(.branch, parseUsize lit)]
  | "branch_range" => some [(.branchRange, .code (litText lit))]
  | "branch_value" => some [(.branchValue, .code (litText lit))]
  | "branch_bits" => some [(.branchBits, .code (litText lit))]
  | "branch_bits_value" => some [(.branchBitsValue, .code (litText lit))]
  | "byte_count" | "byte_size" => some [(.byteCount, parseUsize lit)]
  | "byte_count_outside" | "byte_size_outside" => some [(.byteCountOutside, parseUsize lit)]
  | "default_value" | "default" => some [(.defaultValue, .code (litText lit))]
  | "bits" => some [(.bits, parseUsize lit)]
  | "bits_start" => some [(.bits, parseUsize lit), (.bitsStart, .flag)]
  | "value_encode" | "encode_value" => some [(.valueEncode, .code (litText lit))]
  | "value_decode" | "decode_value" => some [(.valueDecode, .code (litText lit))]
  | "from_str" => some [(.fromStr, .code (litText lit))]
  | "with_encode" | "encode_with" => some [(.withEncode, .code (litText lit))]
  | "with_decode" | "decode_with" => some [(.withDecode, .code (litText lit))]
  | "with_args" => some [(.withArgs, .code (litText lit))]
  | "with" => some [(.withBoth, .code (litText lit))]
  | "variable_name" => some [(.variableName, parseList lit)]
  | "if_expr" => some [(.ifExpr, .code (litText lit))]
  | "check_value" => some [(.checkValue, .code (litText lit))]
  | "loop_skip_starts" => some [(.loopSkipStarts, .bytes (litText lit))]
  | _ => none

/-- What an item assigns. -/
def AttrItem.writes : AttrItem → Option (List (Slot × AttrVal))
  | .tag n => tagWrites n
  | .prop k l => propWrites k l

/-- Assignments to the fields `σ` of an attribute struct, in order. -/
def assign {σ : Type} [DecidableEq σ] (g : σ → Option AttrVal) (ws : List (σ × AttrVal)) : σ → Option AttrVal :=
  ws.foldl (fun g w s => if s = w.1 then some w.2 else g s) g

/-- The loop over the items, derive/src/jbytes/attribute.rs:251-311 and 80-116.  `none`: the macro reports an error. -/
def assignItems {σ : Type} [DecidableEq σ] (writes : AttrItem → Option (List (σ × AttrVal))) :
    (σ → Option AttrVal) → List AttrItem → Option (σ → Option AttrVal)
  | g, [] => some g
  | g, i :: is => (writes i).bind fun ws => assignItems writes (assign g ws) is

/-- `FieldAttributes` or `ContainerAttributes`: `is_use` and the value of each field. -/
structure AttrRecord (σ : Type) where
  isUse : Bool := false
  get : σ → Option AttrVal := fun _ => none

/-- An attribute of a type, variant or field: `#[default]`, `#[jbytes(items)]`, `#[repr(items)]`, or another one. -/
inductive Attribute where
  | default
  | jbytes (items : List AttrItem)
  | repr (items : List AttrItem)
  | other

/-- `#[name(items)]`, derive/src/jbytes/attribute.rs:76-120 and 245-314. -/
def parseItems {σ : Type} [DecidableEq σ] (writes : AttrItem → Option (List (σ × AttrVal))) (items : List AttrItem) :
    Option (Option (AttrRecord σ)) :=
  (assignItems writes (fun _ => none) items).map fun g => some ⟨!items.isEmpty, g⟩

/-- `FieldAttributes::parse`, derive/src/jbytes/attribute.rs:228-315.  The outer `none` is an error, the inner one that
the attribute is not for this macro. -/
def Attribute.field : Attribute → Option (Option (AttrRecord Slot))
  | .default => some (some { get := fun s => if s = .branchDefault then some .flag else none })
  | .jbytes items => parseItems AttrItem.writes items
  | .repr _ | .other => some none

/-- `get_attribute`: the first attribute for which `parse` gives a value. -/
def getAttribute {σ : Type} (parse : Attribute → Option (Option (AttrRecord σ))) :
    List Attribute → Option (Option (AttrRecord σ))
  | [] => some none
  | a :: as =>
    match parse a with
    | none => none
    | some (some t) => some (some t)
    | some none => getAttribute parse as

/-- `attributes.get_attribute::<FieldAttributes>()?.unwrap_or_default()`, derive/src/jbytes/derive_struct.rs:85. -/
def fieldText (as : List Attribute) : Option (AttrRecord Slot) := (getAttribute Attribute.field as).map (·.getD {})

/-- The fields of `ContainerAttributes`, derive/src/jbytes/attribute.rs:7-32. -/
inductive CSlot where
  | byteorder | byteCountDisable | byteCount | getVariableName | defaultValue | defaultBool | branchTakeBytes
  | branchStartsWith | branchStartsWithUntake | withEncode | withDecode | withBoth
  deriving DecidableEq, Repr

/-- What an item of a container assigns, derive/src/jbytes/attribute.rs:82-115. -/
def AttrItem.containerWrites : AttrItem → Option (List (CSlot × AttrVal))
  | .tag n =>
    match n with
    | "default" | "default_value" => some [(.defaultBool, .flag)]
    | "byte_count_disable" => some [(.byteCountDisable, .flag)]
    | "branch_starts_with" => some [(.branchStartsWith, .flag)]
    | "branch_starts_with_untake" => some [(.branchStartsWithUntake, .flag)]
    | "u8" => some [(.byteCount, .usize 1)]
    | "u16" => some [(.byteCount, .usize 2)]
    | "u32" => some [(.byteCount, .usize 4)]
    | "u64" => some [(.byteCount, .usize 8)]
    | "usize" => some [(.byteCount, .usize 8)]
    | _ => none
  | .prop k lit =>
    match k with
    | "byteorder" => some [(.byteorder, parseByteorder lit)]
    | "byte_count" => some [(.byteCount, parseUsize lit)]
    | "get_variable_name" => some [(.getVariableName, parseList lit)]
    | "default_value" | "default" => some [(.defaultValue, .code (litText lit))]
    | "branch_take_bytes" => some [(.branchTakeBytes, parseUsize lit)]
    | "with_encode" | "encode_with" => some [(.withEncode, .code (litText lit))]
    | "with_decode" | "decode_with" => some [(.withDecode, .code (litText lit))]
    | "with" => some [(.withBoth, .code (litText lit))]
    | _ => none

/-- `ContainerAttributes::parse`, derive/src/jbytes/attribute.rs:53-120. -/
def Attribute.container : Attribute → Option (Option (AttrRecord CSlot))
  | .jbytes items => parseItems AttrItem.containerWrites items
  | .repr items => parseItems AttrItem.containerWrites items
  | .default | .other => some none

/-- `attributes.get_attribute::<ContainerAttributes>()?.unwrap_or_default()`, derive/src/lib.rs:63. -/
def containerText (as : List Attribute) : Option (AttrRecord CSlot) :=
  (getAttribute Attribute.container as).map (·.getD {})

/-! ## Meaning -/

/-- What rustc makes of the expressions in attributes: their value as `usize` and `isize`, conditions, byte strings,
conversions of the field value, comparisons with it, codecs named by path, and `FromStr`/`ToString` of a type (the
field's own type for `none`). -/
structure Interp (V : Type) where
  num : Text → Env V → Nat
  int : Text → Env V → Int
  cond : Text → Env V → Bool
  bytes : Text → List Byte
  conv : Text → Env V → V → V
  equal : Text → Env V → V → Bool
  decoder : Text → Option Text → Env V → Dec V
  encoder : Text → Option Text → Env V → Enc V
  decoderOf : Text → Option Text → Env V → Dec V
  encoderOf : Text → Option Text → Env V → Enc V
  fromStr : Option Text → (List Byte → Option V) × (V → List Byte)

variable {V : Type}

/-- `AttrValue::to_code` under `as usize`, derive/src/jbytes/parse.rs:85-104. -/
def AttrVal.num (I : Interp V) : AttrVal → Env V → Nat
  | .usize n => fun _ => n
  | .var s => I.num s
  | _ => fun _ => 0

/-- `AttrValue::to_byteorder`, derive/src/jbytes/parse.rs:126-136. -/
def AttrVal.order (I : Interp V) : AttrVal → OrderAttr V
  | .str s => match orderOfName s with
    | some o => .lit o
    | none => .expr fun _ => -1
  | .var s => .expr (I.int s)
  | _ => .expr fun _ => -1

/-- The text of a value, derive/src/jbytes/parse.rs:140-151. -/
def AttrVal.text : AttrVal → Text
  | .str s | .bytes s | .var s | .code s => s
  | .usize n => (Nat.repr n).toList
  | .list _ | .flag => []

/-- The pieces of a list. -/
def AttrVal.pieces : AttrVal → List AttrVal
  | .list l => l
  | _ => []

/-- Whether a flag is set. -/
def AttrRecord.has {σ : Type} (t : AttrRecord σ) (s : σ) : Bool := (t.get s).isSome

/-- The modifiers as the generated code uses them: derive/src/jbytes/attribute.rs:184-224,
derive/src/jbytes/decode.rs:8-106, derive/src/jbytes/encode.rs:6-60.  A tag given as a property of the same name
(`from_str`) comes second, as in decode.rs:35-50. -/
def AttrRecord.meaning (I : Interp V) (t : AttrRecord Slot) : FieldAttrs V where
  isUse := t.isUse
  byteorder := (t.get .byteorder).map (·.order I)
  length := (t.get .length).map (·.num I)
  offset := (t.get .offset).map (·.num I)
  untake := t.has .untake
  full := UInt8.ofNat (((t.get .full).map fun v => v.num I {}).getD 0)
  count := (t.get .count).map (·.num I)
  tryCount := (t.get .tryCount).map (·.num I)
  bits := (t.get .bits).map (·.num I)
  bitsStart := t.has .bitsStart
  byteCount := (t.get .byteCount).map (·.num I)
  byteCountOutside := (t.get .byteCountOutside).map (·.num I)
  valueEncode := (t.get .valueEncode).map fun v => I.conv v.text
  valueDecode := (t.get .valueDecode).map fun v => I.conv v.text
  fromStr := if t.has .fromStrBool then some (I.fromStr none) else (t.get .fromStr).map fun v => I.fromStr (some v.text)
  variableName := (t.get .variableName).map fun v => v.pieces.map fun p => (String.ofList p.text, I.num p.text)
  key := (t.get .key).map fun v => I.bytes v.text
  split := (t.get .split).map fun v => I.bytes v.text
  linend := (t.get .linend).map fun v => I.bytes v.text
  remaining := t.has .remaining
  branch := (t.get .branch).map (·.num I)
  withDecode := match t.get .withDecode with
    | some v => some (I.decoder v.text ((t.get .withArgs).map (·.text)))
    | none => (t.get .withBoth).map fun v => I.decoderOf v.text ((t.get .withArgs).map (·.text))
  withEncode := match t.get .withEncode with
    | some v => some (I.encoder v.text ((t.get .withArgs).map (·.text)))
    | none => (t.get .withBoth).map fun v => I.encoderOf v.text ((t.get .withArgs).map (·.text))
  ifExpr := (t.get .ifExpr).map fun v => I.cond v.text
  skip := t.has .skip
  skipEncode := t.has .skipEncode
  skipDecode := t.has .skipDecode
  loopSkipStarts := (t.get .loopSkipStarts).map fun v => I.bytes v.text
  checkValue := (t.get .checkValue).map fun v => I.equal v.text

/-- `ContainerAttributes::to_code`, derive/src/jbytes/attribute.rs:36-50, for byte order names and numbers (expressions
in these two are not modelled). -/
def AttrRecord.modifiers (t : AttrRecord CSlot) : Option CAttr :=
  if t.isUse then
    some { byteorder := (t.get .byteorder).bind fun v => orderOfName v.text
           byteCount := (t.get .byteCount).bind fun v => match v with | .usize n => some n | _ => none }
  else none

/-- The names of `get_variable_name`, derive/src/jbytes/derive_struct.rs:174-177. -/
def AttrRecord.getVars (t : AttrRecord CSlot) : List String :=
  ((t.get .getVariableName).map fun v => v.pieces.map fun p => String.ofList p.text).getD []

/-! ## Getters (crates/jget-rs/derive) -/

/-- `s.replace(pat, "")` for a non-empty pattern: leftmost occurrences, without overlap.  The number counts the
characters of an occurrence that are still to be dropped. -/
def removeAll (pat : Text) : Nat → Text → Text
  | _, [] => []
  | n + 1, _ :: s => removeAll pat n s
  | 0, c :: s => if pat.isPrefixOf (c :: s) then removeAll pat (pat.length - 1) s else c :: removeAll pat 0 s

/-- The part after the last `.`: `split('.').last()`. -/
def afterDot : Text → Text
  | [] => []
  | c :: s => if '.' ∈ c :: s then (if c = '.' ∧ '.' ∉ s then s else afterDot s) else c :: s

/-- `get_function_name`, crates/jget-rs/derive/src/jget/derive_struct.rs:20-27, without the `get_` that is put before
it. -/
def getterName (field : Text) : Text :=
  afterDot (removeAll ['(', ')'] 0 (removeAll ['g', 'e', 't', '_'] 0 (removeAll ['r', '#'] 0 field)))

/-- The getter `get_name` of an enum, crates/jget-rs/derive/src/jget/derive_enum.rs:85-126, for variants with named
fields, each with its `get_option` flag: an arm for every marked field whose getter has this name, in order, and
`_ => None`.
`i` is the variant of the value and `vals` its fields.  (The getter gives a clone of the field, or a conversion.) -/
def enumGet (variants : List (List (Text × Bool))) (name : Text) (i : Nat) (vals : List V) : Option V :=
  match (variants.getD i []).findIdx? fun f => f.2 && getterName f.1 == name with
  | some j => vals[j]?
  | none => none

end JBytes
