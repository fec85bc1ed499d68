import Verif.GenEncode
import Verif.DeriveText
/-!
# The statements of generated decoders and encoders of enums (derive/src/jbytes/derive_enum.rs)

As in `GenCode` and `GenEncode`.  The tag is read and written by the functions of `Derive.lean`, given what the names
`input`, `buffer`, `cattr`, `fattr` and `cattr_new` stand for; the arms are lists of statements.
-/

namespace JBytes
open M

variable {V : Type}

/-- Further helpers of the functions generated for enums. -/
def nData : Name := ['d', 'a', 't', 'a']
@[inherit_doc nData] def nByteCount : Name := ['c', 'r', '_', 'b', 'y', 't', 'e', '_', 'c', 'o', 'u', 'n', 't']

/-- A variant as written: `tag` has its modifiers and marks (its fields are not used). -/
structure GenVariant (V : Type) where
  tag : Variant V := {}
  shape : Shape := .unit
  fields : List (NamedField V) := []

/-- An enum as written. -/
structure GenEnum (V : Type) where
  container : Option CAttr := none
  getVars : List String := []
  mode : TagMode := .uint
  byteCountDisable : Bool := false
  variants : List (GenVariant V)
  withDecode : Option (Dec (Nat × List V)) := none
  withEncode : Option (Enc (Nat × List V)) := none

/-- The variant that `Derive.lean` takes. -/
def GenVariant.toVariant (v : GenVariant V) : Variant V :=
  { v.tag with tuple := v.shape == .tuple, fields := v.fields.map (·.field) }

/-- The enum that `Derive.lean` takes. -/
def GenEnum.toDef (E : GenEnum V) : EnumDef V :=
  { container := E.container, getVars := E.getVars, mode := E.mode, byteCountDisable := E.byteCountDisable
    variants := E.variants.map (·.toVariant), withDecode := E.withDecode }

/-! ## Decoders -/

/-- The statements before the tag, derive/src/jbytes/derive_enum.rs:93-110. -/
def GenEnum.decodeHead (E : GenEnum V) : List (Stmt V) := .container E.container :: E.getVars.map .getVar

/-- The locals that reading the tag leaves, derive/src/jbytes/derive_enum.rs:157-159 and 263-298. -/
def tagLocals (m : TagMode) (L : Locals V) : Locals V :=
  match m with
  | .startsWith _ => (nData, .other) :: L
  | .takeBytes _ => (nValue, .other) :: L
  | .uint => (nByteCount, .other) :: (nValue, .other) :: L

/-- The body of the branch of a variant without its `return`, derive/src/jbytes/derive_enum.rs:199-201 and 339-341. -/
def GenVariant.decodeBody (v : GenVariant V) : List (Stmt V) :=
  .modifiers [] v.tag.attrs :: emitOffset [] v.tag.attrs ++ emitFields (v.shape == .tuple) [] (withLocals v.shape 0 v.fields)

/-- The branch of the `i`-th variant, derive/src/jbytes/derive_enum.rs:199-202 and 339-342. -/
def GenVariant.runDecode (U : UsizeIn V) (vs : List String) (L : Locals V) (i : Nat) (v : GenVariant V) : M (Nat × List V) := do
  let L' ← runAll U vs v.decodeBody L
  let ws ← construct U ((withLocals v.shape 0 v.fields).map (·.1)) L'
  return (i, ws)

/-- `if data.starts_with(..) {..} else if .. else {..}`, derive/src/jbytes/derive_enum.rs:163-212. -/
def runChain (U : UsizeIn V) (vs : List String) (untake : Bool) (L : Locals V) (data : List Byte) :
    Nat → List (GenVariant V) → M (Nat × List V)
  | _, [] => fail .fail
  | i, v :: rest =>
    if v.tag.branchDefault then v.runDecode U vs L i
    else if v.tag.word.isPrefixOf data then do
      onInput L (if untake then Pure.pure () else M.advance v.tag.word.length)
      v.runDecode U vs L i
    else runChain U vs untake L data (i + 1) rest

/-- `match value {..}`, derive/src/jbytes/derive_enum.rs:301-352. -/
def runMatch (U : UsizeIn V) (vs : List String) (L : Locals V) (t : Tag) : Nat → List (GenVariant V × Nat) → M (Nat × List V)
  | _, [] => fail .invalidByteLength
  | i, (v, n) :: rest => if (v.tag.pat n).test t then v.runDecode U vs L i else runMatch U vs L t (i + 1) rest

/-- Reading a number under `cattr_new`, `cattr` and `fattr`, derive/src/jbytes/derive_enum.rs:273-297. -/
def readTag (L : Locals V) : M Nat :=
  match isReader L nInput, cattrAt L nCattrNew, cattrAt L nCattr, fattrAt L nFattr with
  | true, some own, some ca, some fa => decTag own ca fa
  | _, _, _, _ => panic

/-- The numbers of the variants, derive/src/jbytes/derive_enum.rs:571-624. -/
def GenEnum.numbers (E : GenEnum V) : List Nat := variantNumbers 0 (E.variants.map (·.tag))

/-- Running the generated decoder, derive/src/jbytes/derive_enum.rs:85-355. -/
def GenEnum.runDecode (U : UsizeIn V) (E : GenEnum V) : Dec (Nat × List V) := fun ca fa =>
  match E.withDecode with
  | some g => g ca fa
  | none => do
    let L ← runAll U E.getVars E.decodeHead (decodeParams ca fa)
    match E.mode with
    | .startsWith untake => do
      let data ← onInput L remaining
      runChain U E.getVars untake (tagLocals E.mode L) data 0 E.variants
    | .takeBytes n => do
      let x ← onInput L (takeBytes n)
      runMatch U E.getVars (tagLocals E.mode L) (.bytes x) 0 (E.variants.zip E.numbers)
    | .uint => do
      let n ← readTag L
      runMatch U E.getVars (tagLocals E.mode L) (.num n) 0 (E.variants.zip E.numbers)

/-- The types of `tagLocals`. -/
def tagTypes (m : TagMode) (T : LTypes) : LTypes :=
  match m with
  | .startsWith _ => (nData, .other, false) :: T
  | .takeBytes _ => (nValue, .other, false) :: T
  | .uint => (nByteCount, .other, false) :: (nValue, .usize, false) :: T

/-- What reading the tag needs. -/
def tagTyped (m : TagMode) (T : LTypes) : Bool :=
  typeAt T nInput == some .reader &&
    match m with
    | .uint => typeAt T nCattrNew == some .cattr && typeAt T nCattr == some .cattr && typeAt T nFattr == some .fattr
    | _ => true

/-- rustc on a branch; `Ok(Self::V)` needs no fields. -/
def GenVariant.decodeAccepted (T : LTypes) (v : GenVariant V) : Bool :=
  match typesAfter v.decodeBody T with
  | some T' => (withLocals v.shape 0 v.fields).all fun p => typeAt T' p.1 == some (fieldTy p.2.ty)
  | none => false

/-- Whether rustc accepts the generated decoder: the tag, the patterns or the chain of branches (`EnumDef.accepted`), and
each branch. -/
def GenEnum.decodeAccepted (E : GenEnum V) : Bool :=
  E.withDecode.isSome ||
    match typesAfter E.decodeHead decodeParamTypes with
    | some T => tagTyped E.mode T && E.toDef.accepted && E.variants.all fun v => v.decodeAccepted (tagTypes E.mode T)
    | none => false

/-! ## Encoders -/

/-- A statement in the arm of a variant: like `EncStmt`, but the fields are locals, so that expressions see the locals
`ns`, and `let x = &self.x` is `let x = x`; derive/src/jbytes/encode.rs with `is_self = false`. -/
inductive ArmStmt (V : Type) where
  /-- derive/src/jbytes/attribute.rs:184-224 -/
  | modifiers (ns : List Name) (a : FieldAttrs V)
  /-- `r_nbytes += f(buffer, cattr_new, fattr_new, x, args)?;` -/
  | call (ns : List Name) (x : Name) (g : Env V → Enc V)
  /-- `r_nbytes += encode_inner(x.to_string(), ..)?;` -/
  | text (x : Name) (p : V → List Byte)
  /-- `r_nbytes += encode_inner(x, ..)?;`, or with `&x` after a conversion -/
  | field (x : Name) (e : Enc V)
  /-- `for i in 0..offset { buffer.push_u8(full)?; }` -/
  | fill (ns : List Name) (e : Env V → Nat) (y : Byte)
  /-- `let x = x; let x = expr;` -/
  | convert (ns : List Name) (x : Name) (g : Env V → V → V)

/-- `r_nbytes += ..;` -/
def addBytes (U : UsizeIn V) (L : Locals V) (m : M Nat) : M (Locals V) := do
  let n ← m
  match usizeAt U L nBytes with
  | some k => return (nBytes, .num (k + n)) :: L
  | none => panic

/-- The field under a name. -/
def fieldAt (U : UsizeIn V) (L : Locals V) (x : Name) (k : V → M Nat) : M Nat :=
  match valueAt U L x with
  | some v => k v
  | none => panic

/-- What a statement does. -/
def ArmStmt.run (U : UsizeIn V) (vs : List String) (L : Locals V) : ArmStmt V → M (Locals V)
  | .modifiers ns a => do
    let fa ← a.toCode (envAt U vs ns L)
    return (nFattrNew, .fattr fa) :: L
  | .call ns x g => addBytes U L (fieldAt U L x fun v => encodeWith L (g (envAt U vs ns L) v))
  | .text x p => addBytes U L (fieldAt U L x fun v => encodeWith L (encBytes (p v)))
  | .field x e => addBytes U L (fieldAt U L x fun v => encodeWith L (e v))
  | .fill ns e y =>
    if isReader L nBuffer then do
      padLoop y (e (envAt U vs ns L))
      return L
    else panic
  | .convert ns x g =>
    match valueAt U L x with
    | some v => return (x, .value (g (envAt U vs ns L) v)) :: L
    | none => panic

/-- One statement after the other. -/
def armRunAll (U : UsizeIn V) (vs : List String) : List (ArmStmt V) → Locals V → M (Locals V)
  | [], L => return L
  | s :: ss, L => do
    let L' ← s.run U vs L
    armRunAll U vs ss L'

/-- Whether rustc accepts a statement, and the types after it; `encode_inner` takes a reference, which `x.to_string()` is
not. -/
def ArmStmt.types (T : LTypes) : ArmStmt V → Option LTypes
  | .modifiers _ _ => some ((nFattrNew, .fattr, false) :: T)
  | .call _ x _ =>
    if encCallTyped T ∧ T.lookup nBytes = some (.usize, true) ∧ typeAt T x = some (.field []) then some T else none
  | .text _ _ => none
  | .field x _ =>
    if encCallTyped T ∧ T.lookup nBytes = some (.usize, true) ∧ typeAt T x = some (.field []) then some T else none
  | .fill _ _ _ => if typeAt T nBuffer = some .reader then some T else none
  | .convert _ x _ => some ((x, .field [], false) :: T)

/-- All statements. -/
def armTypesAfter : List (ArmStmt V) → LTypes → Option LTypes
  | [], T => some T
  | s :: ss, T => (s.types T).bind (armTypesAfter ss)

/-- `generate_encode_body2`, derive/src/jbytes/encode.rs:7-18. -/
def armFill (ns : List Name) (a : FieldAttrs V) : List (ArmStmt V) :=
  match a.offset with
  | some e => [.fill ns e a.full]
  | none => []

/-- derive/src/jbytes/encode.rs:39-44. -/
def armText (x : Name) (a : FieldAttrs V) : List (ArmStmt V) :=
  match a.fromStr with
  | some ps => [.text x ps.2]
  | none => []

/-- derive/src/jbytes/encode.rs:46-57. -/
def armSend (ns : List Name) (x : Name) (f : Field V) : List (ArmStmt V) :=
  armFill ns f.attrs ++
    match f.attrs.valueEncode with
    | some g => [.convert ns x g, .field x f.enc]
    | none => [.field x f.enc]

/-- `generate_encode_body`, derive/src/jbytes/encode.rs:22-60. -/
def armEncode (ns : List Name) (x : Name) (f : Field V) : List (ArmStmt V) :=
  match f.attrs.withEncode with
  | some g => [.call ns x g]
  | none =>
    if f.attrs.skip || f.attrs.skipEncode then []
    else armText x f.attrs ++ if f.attrs.bits.isSome || !f.attrs.untake then armSend ns x f else []

/-- derive/src/jbytes/derive_enum.rs:525-552: a field without modifiers gets no `fattr_new` of its own. -/
def armEncodes : List Name → List (Name × NamedField V) → List (ArmStmt V)
  | _, [] => []
  | ns, (x, f) :: fs =>
    (if f.field.attrs.isUse then [.modifiers ns f.field.attrs] else []) ++ armEncode ns x f.field ++ armEncodes (ns ++ [x]) fs

/-- The locals that the pattern of a variant binds, derive/src/jbytes/derive_enum.rs:441-464. -/
def bindFields (xs : List Name) (ws : List V) (L : Locals V) : Locals V := (xs.zip (ws.map .value)).reverse ++ L

/-- The number of bytes of the tag under `cattr_new`, `cattr` and `fattr`, derive/src/jbytes/derive_enum.rs:472-521. -/
def writeTag (E : GenEnum V) (v : GenVariant V) (num : Nat) (L : Locals V) : M Nat :=
  match E.mode with
  | .uint =>
    match isReader L nBuffer, cattrAt L nCattrNew, cattrAt L nCattr, fattrAt L nFattr with
    | true, some own, some ca, some fa => encTag own ca fa E.byteCountDisable num
    | _, _, _, _ => panic
  | .startsWith true => return 0
  | _ => if isReader L nBuffer then push v.tag.word else panic

/-- The arm of a variant, derive/src/jbytes/derive_enum.rs:469-554. -/
def GenVariant.runEncode (U : UsizeIn V) (E : GenEnum V) (v : GenVariant V) (num : Nat) (ws : List V) (L : Locals V) :
    M (Locals V) := do
  let xs := (withLocals v.shape 0 v.fields).map (·.1)
  let L ← armRunAll U E.getVars [.modifiers [] v.tag.attrs] (bindFields xs ws L)
  let L ← addBytes U L (writeTag E v num L)
  let L := if E.mode = .uint then (nByteCount, .other) :: L else L
  armRunAll U E.getVars (armFill [] v.tag.attrs ++ armEncodes [] (withLocals v.shape 0 v.fields)) L

/-- The statements before the `match`, derive/src/jbytes/derive_enum.rs:378 and 416-433. -/
def GenEnum.encodeHead (E : GenEnum V) : List (EncStmt V) :=
  .zero :: E.getVars.map .getVar ++ [.container E.container]

/-- Running the generated encoder on a value, derive/src/jbytes/derive_enum.rs:367-567.  With `with_encode` there is no
result. -/
def GenEnum.runEncode (U : UsizeIn V) (E : GenEnum V) : Enc (Nat × List V) := fun x ca fa =>
  match E.withEncode, (E.variants.zip E.numbers)[x.1]? with
  | none, some (v, num) => do
    let L ← encRunAll U E.getVars [] E.encodeHead (encodeParams ca fa)
    let L ← v.runEncode U E num x.2 L
    match usizeAt U L nBytes with
    | some n => return n
    | none => panic
  | _, _ => panic

/-- What writing the tag needs. -/
def writeTyped (m : TagMode) (T : LTypes) : Bool :=
  T.lookup nBytes == some (.usize, true) &&
    match m with
    | .uint => typeAt T nBuffer == some .reader && typeAt T nCattrNew == some .cattr && typeAt T nCattr == some .cattr &&
        typeAt T nFattr == some .fattr
    | .startsWith true => true
    | _ => typeAt T nBuffer == some .reader

/-- rustc on an arm. -/
def GenVariant.encodeAccepted (m : TagMode) (T : LTypes) (v : GenVariant V) : Bool :=
  let xs := (withLocals v.shape 0 v.fields).map (·.1)
  let T := (nFattrNew, .fattr, false) :: ((xs.map fun x => (x, (.field [], false))).reverse ++ T)
  let T' := if m = .uint then (nByteCount, .other, false) :: T else T
  writeTyped m T && (armTypesAfter (armFill [] v.tag.attrs ++ armEncodes [] (withLocals v.shape 0 v.fields)) T').isSome

/-- Whether rustc accepts the generated encoder: the arms, and `push_bytes(..)` is given byte strings.  With a `with_encode`
of the enum the function ends without a result (derive_enum.rs:381-388), and without variants `match self {}` is given a
reference, which is not known to be uninhabited. -/
def GenEnum.encodeAccepted (E : GenEnum V) : Bool :=
  E.withEncode.isNone && !E.variants.isEmpty &&
    (match E.mode with
      | .uint => true
      | .startsWith true => true
      | _ => E.variants.all fun v => match v.tag.branchValue with
        | some (.num _) => false
        | _ => true) &&
    match encTypesAfter E.encodeHead encodeParamTypes with
    | some T => E.variants.all fun v => v.encodeAccepted E.mode T
    | none => false

end JBytes
