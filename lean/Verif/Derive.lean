import Verif.CodecInt
import Verif.CodecBytes
/-!
# Code generated by `#[derive(ByteDecode, ByteEncode)]` (derive/src/jbytes)

The generated function bodies are modelled, not the token manipulation that produces them.  `V` is the type of
field values: one Lean type for all fields (a sum type when the Rust types differ).  A field type is given by its
decoder and encoder, so fields may be of primitive, generic, derived or user-written type.

A modifier written as an expression (`length="len"`) is a total function of the environment: the fields before
this one (the only locals in scope in the generated decoder) and the variables of `get_variable_name`.
Simplifications: such expressions do not panic; `value_encode` gives a value of the field's own type.
-/

namespace JBytes
open M

variable {V : Type}

/-- What a modifier expression can mention: the cached variables named by `get_variable_name`
(derive/src/jbytes/derive_struct.rs:174-188) and the fields decoded so far. -/
structure Env (V : Type) where
  vars : List (String × Nat) := []
  fields : List V := []

/-- The scope after one more field. -/
def Env.push (env : Env V) (v : V) : Env V := { env with fields := env.fields ++ [v] }

/-- Value of a `get_variable_name` local. -/
def Env.var (env : Env V) (s : String) : Nat := (env.vars.lookup s).getD 0

/-- `byteorder=...`: a literal or an expression (derive/src/jbytes/parse.rs:75-83, 126-136). -/
inductive OrderAttr (V : Type) where
  | lit (o : ByteOrder)
  | expr (e : Env V → Int)

/-- `FieldAttributes`, derive/src/jbytes/attribute.rs:124-180.  `with_decode`, `with` are resolved into
`withDecode` (and `with_encode`, `with` into `withEncode`); `from_str` carries the parser and the printer of the
field type; the default value modifiers (not used by the codecs) are dropped. -/
structure FieldAttrs (V : Type) where
  isUse : Bool := false
  byteorder : Option (OrderAttr V) := none
  length : Option (Env V → Nat) := none
  offset : Option (Env V → Nat) := none
  untake : Bool := false
  full : Byte := 0
  count : Option (Env V → Nat) := none
  tryCount : Option (Env V → Nat) := none
  bits : Option (Env V → Nat) := none
  bitsStart : Bool := false
  byteCount : Option (Env V → Nat) := none
  byteCountOutside : Option (Env V → Nat) := none
  valueEncode : Option (Env V → V → V) := none
  valueDecode : Option (Env V → V → V) := none
  fromStr : Option ((List Byte → Option V) × (V → List Byte)) := none
  variableName : Option (List (String × (Env V → Nat))) := none
  key : Option (List Byte) := none
  split : Option (List Byte) := none
  linend : Option (List Byte) := none
  remaining : Bool := false
  branch : Option (Env V → Nat) := none
  withDecode : Option (Env V → Dec V) := none
  withEncode : Option (Env V → Enc V) := none
  ifExpr : Option (Env V → Bool) := none
  skip : Bool := false
  skipEncode : Bool := false
  skipDecode : Bool := false
  loopSkipStarts : Option (List Byte) := none
  checkValue : Option (Env V → V → Bool) := none

/-- `ByteOrder::parse(..).unwrap()` / `ByteOrder::parse_int(..).unwrap()`, derive/src/jbytes/parse.rs:126-136,
src/byteorder.rs: `parse_int` knows 0 and 1, anything else makes the `unwrap` panic. -/
def orderCode (o : Option (OrderAttr V)) (env : Env V) : M (Option ByteOrder) :=
  match o with
  | none => return none
  | some (.lit o) => return some o
  | some (.expr e) =>
    if e env = 0 then return some .be
    else if e env = 1 then return some .le
    else panic

/-- The text test of derive/src/jbytes/attribute.rs:217: some modifier the codecs look at is present. -/
def FieldAttrs.anySet (a : FieldAttrs V) : Bool :=
  a.byteorder.isSome || a.branch.isSome || a.length.isSome || a.count.isSome || a.tryCount.isSome
    || a.split.isSome || a.linend.isSome || a.bits.isSome || a.bitsStart || a.key.isSome
    || a.byteCount.isSome || a.byteCountOutside.isSome || a.remaining || a.loopSkipStarts.isSome

/-- The `FieldAttrModifiers` of derive/src/jbytes/attribute.rs:210-215. -/
def FieldAttrs.modifiers (a : FieldAttrs V) (o : Option ByteOrder) (env : Env V) : FAttr :=
  { byteorder := o
    branch := a.branch.map (· env)
    length := a.length.map (· env)
    count := a.count.map (· env)
    tryCount := a.tryCount.map (· env)
    split := a.split
    linendValue := a.linend
    bits := a.bits.map (· env)
    bitsStart := a.bitsStart
    key := a.key
    byteCount := a.byteCount.map (· env)
    byteCountOutside := a.byteCountOutside.map (· env)
    remaining := a.remaining
    loopSkipStarts := a.loopSkipStarts }

/-- `FieldAttributes::to_code`, derive/src/jbytes/attribute.rs:184-224: the value of `fattr_new`. -/
def FieldAttrs.toCode (a : FieldAttrs V) (env : Env V) : M (Option FAttr) :=
  if a.isUse && a.anySet then do
    let o ← orderCode a.byteorder env
    return some (a.modifiers o env)
  else return none

/-- A field: its modifiers, the codec of its type, the `Default` of its type (for `skip`) and the value `None`
(for `if_expr`). -/
structure Field (V : Type) where
  attrs : FieldAttrs V
  dec : Dec V
  enc : Enc V
  dflt : V
  noneV : V

/-- `input.advance((offset) as usize)`, derive/src/jbytes/decode.rs:8-15. -/
def skipOffset (a : FieldAttrs V) (env : Env V) : M Unit :=
  match a.offset with
  | some e => advance (e env)
  | none => return ()

/-- `if_expr`: `None` without reading when the condition is false, derive/src/jbytes/decode.rs:57-64. -/
def decCond (f : Field V) (env : Env V) : Dec V := fun ca fa =>
  match f.attrs.ifExpr with
  | some c => if c env then f.dec ca fa else return f.noneV
  | none => f.dec ca fa

/-- `value_decode` and `check_value`, derive/src/jbytes/decode.rs:70-80. -/
def finishValue (a : FieldAttrs V) (env : Env V) (v : V) : M V :=
  let v' := match a.valueDecode with
    | some g => g env v
    | none => v
  match a.checkValue with
  | some c => if c env v' then return v' else fail .invalidValue
  | none => return v'

/-- The plain path of derive/src/jbytes/decode.rs:51-81. -/
def decPlain (f : Field V) (env : Env V) : Dec V := fun ca fa => do
  let p ← getPos
  let v ← decCond f env ca fa
  if f.attrs.untake then do
    setPos p
    finishValue f.attrs env v
  else finishValue f.attrs env v

/-- `generate_decode_body`, derive/src/jbytes/decode.rs:18-81. -/
def decField (f : Field V) (env : Env V) : Dec V := fun ca fa => do
  skipOffset f.attrs env
  match f.attrs.withDecode with
  | some g => g env ca fa
  | none =>
    if f.attrs.skip || f.attrs.skipDecode then return f.dflt
    else
      match f.attrs.fromStr with
      | some ps => do
        let s ← decStr ca fa
        match ps.1 s with
        | some v => return v
        | none => fail .fail
      | none => decPlain f env ca fa

/-- `variable_name`: insertions into the cache of `cattr_new`, which is created if there is none,
derive/src/jbytes/decode.rs:83-103.  `env` includes the field just decoded. -/
def cacheVars (a : FieldAttrs V) (ca : Option CAttr) (env : Env V) : Option CAttr :=
  match a.variableName with
  | none => ca
  | some l => some { ca.getD {} with vars := (l.map fun x => (x.1, x.2 env)).reverse ++ (ca.getD {}).vars }

/-- `generate_decode_struct_body`, derive/src/jbytes/derive_struct.rs:80-103.  With `keep` (tuple fields) a field
without modifiers does not redefine `fattr_new`, so it is decoded with the modifiers left over from before. -/
def decFields (keep : Bool) : List (Field V) → Option CAttr → Option FAttr → Env V → M (List V)
  | [], _, _, _ => return []
  | f :: fs, ca, old, env => do
    let fa ← (if keep && !f.attrs.isUse then Pure.pure old else f.attrs.toCode env)
    let v ← decField f env ca fa
    let vs ← decFields keep fs (cacheVars f.attrs ca (env.push v)) fa (env.push v)
    return v :: vs

/-- `for i in 0..offset { buffer.push_u8(full)?; }` (the bytes are not added to the returned count),
derive/src/jbytes/encode.rs:7-18. -/
def padLoop (x : Byte) : Nat → M Unit
  | 0 => return ()
  | n + 1 => do
    let _ ← pushU8 x
    padLoop x n

/-- `generate_encode_body2`, derive/src/jbytes/encode.rs:7-18. -/
def padOffset (a : FieldAttrs V) (env : Env V) : M Unit :=
  match a.offset with
  | some e => padLoop a.full (e env)
  | none => return ()

/-- The text of a `from_str` field, derive/src/jbytes/encode.rs:39-44. -/
def encText (a : FieldAttrs V) (v : V) (ca : Option CAttr) (fa : Option FAttr) : M Nat :=
  match a.fromStr with
  | some ps => encBytes (ps.2 v) ca fa
  | none => return 0

/-- derive/src/jbytes/encode.rs:46-57. -/
def encPlain (f : Field V) (env : Env V) (v : V) (ca : Option CAttr) (fa : Option FAttr) : M Nat := do
  padOffset f.attrs env
  match f.attrs.valueEncode with
  | some g => f.enc (g env v) ca fa
  | none => f.enc v ca fa

/-- `generate_encode_body`, derive/src/jbytes/encode.rs:22-60: the text of a `from_str` field is written and then,
since there is no `return`, the field itself. -/
def encField (f : Field V) (env : Env V) : Enc V := fun v ca fa =>
  match f.attrs.withEncode with
  | some g => g env v ca fa
  | none =>
    if f.attrs.skip || f.attrs.skipEncode then return 0
    else do
      let n ← encText f.attrs v ca fa
      if f.attrs.bits.isSome || !f.attrs.untake then do
        let m ← encPlain f env v ca fa
        return n + m
      else return n

/-- Encoding of the fields: derive/src/jbytes/derive_struct.rs:246-253 (`keep = false`), and
derive/src/jbytes/derive_enum.rs:525-552 (`keep = true`: a field without modifiers keeps `fattr_new`). -/
def encFields (keep : Bool) : List (Field V) → Option CAttr → Option FAttr → Env V → List V → M Nat
  | f :: fs, ca, old, env, v :: vs => do
    let fa ← (if keep && !f.attrs.isUse then Pure.pure old else f.attrs.toCode env)
    let n ← encField f env v ca fa
    let m ← encFields keep fs ca fa (env.push v) vs
    return n + m
  | _, _, _, _, _ => return 0

/-- The locals made by `get_variable_name`: cached value or 0, derive/src/jbytes/derive_struct.rs:174-188, 229-244,
derive/src/jbytes/derive_enum.rs:95-110, 416-431. -/
def localVars (names : List String) (ca : Option CAttr) : List (String × Nat) :=
  names.map fun s => (s, ((ca.bind fun c => c.vars.lookup s)).getD 0)

/-- A derived struct.  `container` is `cattr_new` of derive/src/jbytes/attribute.rs:36-49 (literal modifiers). -/
structure StructDef (V : Type) where
  container : Option CAttr := none
  getVars : List String := []
  tuple : Bool := false
  fields : List (Field V)
  withDecode : Option (Dec (List V)) := none
  withEncode : Option (Enc (List V)) := none

/-- `generate_byte_decode_body`, derive/src/jbytes/derive_struct.rs:164-195.  (In a tuple struct whose first field
has no modifiers `fattr_new` is undefined and the code does not compile; here it is `None`.) -/
def decStruct (S : StructDef V) : Dec (List V) := fun ca fa =>
  match S.withDecode with
  | some g => g ca fa
  | none => decFields S.tuple S.fields S.container none { vars := localVars S.getVars ca }

/-- `generate_byte_encode`, derive/src/jbytes/derive_struct.rs:207-261. -/
def encStruct (S : StructDef V) : Enc (List V) := fun vs ca fa =>
  match S.withEncode with
  | some g => g vs ca fa
  | none => encFields false S.fields S.container none { vars := localVars S.getVars ca } vs

/-- A tag on the wire: an integer, or bytes under `branch_take_bytes`/`branch_starts_with`. -/
inductive Tag where
  | num (n : Nat)
  | bytes (b : List Byte)
  deriving DecidableEq, Repr

/-- A variant of a derived enum.  `attrs` are the codec modifiers written on the variant; `name` is the lower-case
variant name; `disc` an explicit discriminant (`A = 3`). -/
structure Variant (V : Type) where
  attrs : FieldAttrs V := {}
  name : List Byte := []
  disc : Option Nat := none
  branchDefault : Bool := false
  branchBits : Option (Nat × Option Nat) := none
  branchValue : Option Tag := none
  branchRange : Option (Nat × Nat × Bool) := none
  tuple : Bool := false
  fields : List (Field V) := []

/-- The number a variant restarts the count at, derive/src/jbytes/derive_enum.rs:585-615: the discriminant, the end
of the range (inclusive or not), or the integer branch value. -/
def Variant.restart (v : Variant V) : Option Nat :=
  match v.disc with
  | some n => some n
  | none =>
    match v.branchRange with
    | some (_, hi, _) => some hi
    | none =>
      match v.branchValue with
      | some (.num n) => some n
      | _ => none

/-- `EnumVariantIterator`, derive/src/jbytes/derive_enum.rs:571-624. -/
def variantNumbers : Nat → List (Variant V) → List Nat
  | _, [] => []
  | cur, v :: vs => v.restart.getD cur :: variantNumbers (v.restart.getD cur + 1) vs

/-- The pattern of a match arm. -/
inductive Pat where
  | any
  | bits (mask value : Nat)
  | lit (t : Tag)
  | range (lo hi : Nat) (incl : Bool)
  deriving DecidableEq, Repr

/-- The arm generated for a variant, derive/src/jbytes/derive_enum.rs:308-335. -/
def Variant.pat (v : Variant V) (num : Nat) : Pat :=
  if v.branchDefault then .any
  else
    match v.branchBits with
    | some (m, some x) => .bits m x
    | some (m, none) => .bits m m
    | none =>
      match v.branchValue with
      | some t => .lit t
      | none =>
        match v.branchRange with
        | some (lo, hi, incl) => .range lo hi incl
        | none => .lit (.num num)

/-- Rust's meaning of the patterns. -/
def Pat.test : Pat → Tag → Bool
  | .any, _ => true
  | .bits m x, .num n => n &&& m == x
  | .lit t, t' => t == t'
  | .range lo hi incl, .num n => lo ≤ n && (if incl then n ≤ hi else n < hi)
  | _, _ => false

/-- `match value { .. }`: the first arm that matches, with its position. -/
def findArm (t : Tag) : Nat → List (Variant V × Nat) → Option (Nat × Variant V)
  | _, [] => none
  | i, (v, n) :: rest => if (v.pat n).test t then some (i, v) else findArm t (i + 1) rest

/-- The bytes of a variant under `branch_starts_with`/`branch_take_bytes` (branch value, else lower-case name),
derive/src/jbytes/derive_enum.rs:172-188, 472-493. -/
def Variant.word (v : Variant V) : List Byte :=
  match v.branchValue with
  | some (.bytes b) => b
  | _ => v.name

/-- The `if data.starts_with(..) {..} else if ..` chain, derive/src/jbytes/derive_enum.rs:163-212. -/
def findWord (data : List Byte) : Nat → List (Variant V) → Option (Nat × Variant V)
  | _, [] => none
  | i, v :: vs => if v.branchDefault || v.word.isPrefixOf data then some (i, v) else findWord data (i + 1) vs

/-- How an enum finds its variant. -/
inductive TagMode where
  | uint
  | takeBytes (n : Nat)
  | startsWith (untake : Bool)
  deriving DecidableEq, Repr

/-- A derived enum. -/
structure EnumDef (V : Type) where
  container : Option CAttr := none
  getVars : List String := []
  mode : TagMode := .uint
  byteCountDisable : Bool := false
  variants : List (Variant V)
  withDecode : Option (Dec (Nat × List V)) := none

/-- The numbers of the variants. -/
def EnumDef.numbers (E : EnumDef V) : List Nat := variantNumbers 0 E.variants

/-- The integer tag, derive/src/jbytes/derive_enum.rs:273-297: the byte order is that of the outer modifiers. -/
def decTag (own ca : Option CAttr) (fa : Option FAttr) : M Nat :=
  match fa with
  | some fr =>
    match fr.branch with
    | some n => return n
    | none =>
      match fr.byteCount with
      | some k => takeUint k (getByteorder ca fa)
      | none =>
        match own.bind (·.byteCount) with
        | some k => takeUint k (getByteorder ca fa)
        | none => do
          let x ← takeU8
          return x.toNat
  | none =>
    match own.bind (·.byteCount) with
    | some k => takeUint k (getByteorder ca fa)
    | none => do
      let x ← takeU8
      return x.toNat

/-- The body of an arm, derive/src/jbytes/derive_enum.rs:199-202, 339-342: the modifiers of the variant become
`fattr_new` before the fields. -/
def decVariant (own : Option CAttr) (env : Env V) (i : Nat) (v : Variant V) : M (Nat × List V) := do
  let fa ← v.attrs.toCode env
  skipOffset v.attrs env
  let vs ← decFields v.tuple v.fields own fa env
  return (i, vs)

/-- `match value {..}` with the error arm, derive/src/jbytes/derive_enum.rs:301-352. -/
def decArm (E : EnumDef V) (env : Env V) (t : Tag) : M (Nat × List V) :=
  match findArm t 0 (E.variants.zip E.numbers) with
  | some (i, v) => decVariant E.container env i v
  | none => fail .invalidByteLength

/-- The decoder of a derived enum, derive/src/jbytes/derive_enum.rs:85-355.  The value is the position of the
variant and its fields. -/
def decEnum (E : EnumDef V) : Dec (Nat × List V) := fun ca fa =>
  match E.withDecode with
  | some g => g ca fa
  | none =>
    let env : Env V := { vars := localVars E.getVars ca }
    match E.mode with
    | .startsWith untake => do
      let data ← remaining
      match findWord data 0 E.variants with
      | some (i, v) =>
        if untake || v.branchDefault then decVariant E.container env i v
        else do
          advance v.word.length
          decVariant E.container env i v
      | none => fail .fail
    | .takeBytes n => do
      let x ← takeBytes n
      decArm E env (.bytes x)
    | .uint => do
      let n ← decTag E.container ca fa
      decArm E env (.num n)

/-- `default_byte_count_1byte_code`, derive/src/jbytes/derive_enum.rs:495: `variant_index as u8`. -/
def encTagByte (disable : Bool) (num : Nat) : M Nat :=
  if disable then return 0 else pushU8 (UInt8.ofNat num)

/-- The integer tag, derive/src/jbytes/derive_enum.rs:495-520: here the container's width comes first. -/
def encTag (own ca : Option CAttr) (fa : Option FAttr) (disable : Bool) (num : Nat) : M Nat :=
  match fa with
  | some fr =>
    match fr.branch with
    | some _ => return 0
    | none =>
      match own.bind (·.byteCount) with
      | some k => pushUint num k (getByteorder ca fa)
      | none =>
        match fr.byteCount with
        | some k => pushUint num k (getByteorder ca fa)
        | none => encTagByte disable num
  | none =>
    match own.bind (·.byteCount) with
    | some k => pushUint num k (getByteorder ca fa)
    | none => encTagByte disable num

/-- The tag in any mode, derive/src/jbytes/derive_enum.rs:472-521. -/
def encTagMode (E : EnumDef V) (v : Variant V) (num : Nat) (ca : Option CAttr) (fa : Option FAttr) : M Nat :=
  match E.mode with
  | .startsWith false => push v.word
  | .startsWith true => return 0
  | .takeBytes _ => push v.word
  | .uint => encTag E.container ca fa E.byteCountDisable num

/-- The arm of one variant, derive/src/jbytes/derive_enum.rs:469-554. -/
def encVariant (E : EnumDef V) (v : Variant V) (num : Nat) (vs : List V) (ca : Option CAttr) (fa : Option FAttr) :
    M Nat := do
  let env : Env V := { vars := localVars E.getVars ca }
  let old ← v.attrs.toCode env
  let n ← encTagMode E v num ca fa
  padOffset v.attrs env
  let m ← encFields true v.fields E.container old env vs
  return n + m

/-- The encoder of a derived enum, derive/src/jbytes/derive_enum.rs:367-567 (a container-level `with_encode` yields
code without a result, which does not compile; not modelled).  A position with no variant is not a Rust value. -/
def encEnum (E : EnumDef V) : Enc (Nat × List V) := fun x ca fa =>
  match (E.variants.zip E.numbers)[x.1]? with
  | some (v, num) => encVariant E v num x.2 ca fa
  | none => return 0

end JBytes
