import Verif.GenCode
/-!
# The statements of generated encoders of structs (derive/src/jbytes/derive_struct.rs, encode.rs)

As in `GenCode`, for `encode_inner` of a struct.  The fields of the value are reached through `self`, which no local can
hide; locals are the helpers, the variables that are asked for, and the fields that are converted by `value_encode`.
A reference to `self.x` is by the position of the field.  Simplification: `r_nbytes` does not overflow.
-/

namespace JBytes
open M

variable {V : Type}

/-- The helpers of generated encoders. -/
def nBuffer : Name := ['b', 'u', 'f', 'f', 'e', 'r']
@[inherit_doc nBuffer] def nBytes : Name := ['r', '_', 'n', 'b', 'y', 't', 'e', 's']

/-- What is added to `r_nbytes`, derive/src/jbytes/encode.rs:28-57; `i` is the field. -/
inductive EncRhs (V : Type) where
  /-- `f(buffer, cattr_new, fattr_new, &self.x, args)?` -/
  | call (i : Nat) (g : Env V → Enc V)
  /-- `encode_inner(&self.x.to_string(), buffer, cattr_new, fattr_new)?` -/
  | text (i : Nat) (p : V → List Byte)
  /-- `encode_inner(&self.x, buffer, cattr_new, fattr_new)?` -/
  | field (i : Nat) (e : Enc V)
  /-- `encode_inner(&x, buffer, cattr_new, fattr_new)?` -/
  | hidden (x : Name) (e : Enc V)

/-- The statements; expressions see the variables and the first `i` fields of `self`. -/
inductive EncStmt (V : Type) where
  /-- `let mut r_nbytes = 0;`, derive/src/jbytes/derive_struct.rs:218 -/
  | zero
  /-- derive/src/jbytes/attribute.rs:36-49 -/
  | container (c : Option CAttr)
  /-- derive/src/jbytes/derive_struct.rs:229-244 -/
  | getVar (s : String)
  /-- `let fattr_new = ..;`, derive/src/jbytes/attribute.rs:184-224 -/
  | modifiers (i : Nat) (a : FieldAttrs V)
  /-- `r_nbytes += ..;` -/
  | add (i : Nat) (r : EncRhs V)
  /-- `for i in 0..offset { buffer.push_u8(full)?; }`, derive/src/jbytes/encode.rs:9-15 -/
  | fill (i : Nat) (e : Env V → Nat) (x : Byte)
  /-- `let x = &self.x;`, derive/src/jbytes/encode.rs:50 -/
  | letSelf (i : Nat) (x : Name)
  /-- `let x = expr;`, derive/src/jbytes/encode.rs:51 -/
  | letValue (i : Nat) (x : Name) (g : Env V → V → V)

/-- What expressions see. -/
def selfEnv (U : UsizeIn V) (vs : List String) (ws : List V) (i : Nat) (L : Locals V) : Env V :=
  { vars := vs.map fun s => (s, (usizeAt U L s.toList).getD 0)
    fields := ws.take i }

/-- A call with `buffer`, `cattr_new` and `fattr_new`. -/
def encodeWith (L : Locals V) (e : Option CAttr → Option FAttr → M Nat) : M Nat :=
  match isReader L nBuffer, cattrAt L nCattrNew, fattrAt L nFattrNew with
  | true, some ca, some fa => e ca fa
  | _, _, _ => panic

/-- The `i`-th field of `self`. -/
def selfField (ws : List V) (i : Nat) (k : V → M Nat) : M Nat :=
  match ws[i]? with
  | some v => k v
  | none => panic

/-- The value of a right-hand side. -/
def EncRhs.run (U : UsizeIn V) (ws : List V) (L : Locals V) (env : Env V) : EncRhs V → M Nat
  | .call i g => selfField ws i fun v => encodeWith L (g env v)
  | .text i p => selfField ws i fun v => encodeWith L (encBytes (p v))
  | .field i e => selfField ws i fun v => encodeWith L (e v)
  | .hidden x e =>
    match valueAt U L x with
    | some v => encodeWith L (e v)
    | none => panic

/-- What a statement does. -/
def EncStmt.run (U : UsizeIn V) (vs : List String) (ws : List V) (L : Locals V) : EncStmt V → M (Locals V)
  | .zero => return (nBytes, .num 0) :: L
  | .container c => return (nCattrNew, .cattr c) :: L
  | .getVar s => return (s.toList, .num ((((cattrAt L nCattr).getD none).bind fun c => c.vars.lookup s).getD 0)) :: L
  | .modifiers i a => do
    let fa ← a.toCode (selfEnv U vs ws i L)
    return (nFattrNew, .fattr fa) :: L
  | .add i r => do
    let n ← r.run U ws L (selfEnv U vs ws i L)
    match usizeAt U L nBytes with
    | some m => return (nBytes, .num (m + n)) :: L
    | none => panic
  | .fill i e x => do
    if isReader L nBuffer then do
      padLoop x (e (selfEnv U vs ws i L))
      return L
    else panic
  | .letSelf i x =>
    match ws[i]? with
    | some v => return (x, .value v) :: L
    | none => panic
  | .letValue i x g =>
    match valueAt U L x with
    | some v => return (x, .value (g (selfEnv U vs ws i L) v)) :: L
    | none => panic

/-- One statement after the other. -/
def encRunAll (U : UsizeIn V) (vs : List String) (ws : List V) : List (EncStmt V) → Locals V → M (Locals V)
  | [], L => return L
  | s :: ss, L => do
    let L' ← s.run U vs ws L
    encRunAll U vs ws ss L'

/-- The types of `buffer`, `cattr_new` and `fattr_new` where an encoder is called. -/
def encCallTyped (T : LTypes) : Bool :=
  typeAt T nBuffer == some .reader && typeAt T nCattrNew == some .cattr && typeAt T nFattrNew == some .fattr

/-- A name can be bound by `let`; `0` cannot. -/
def isIdent (x : Name) : Bool :=
  match x with
  | c :: _ => !c.isDigit
  | [] => false

/-- Whether rustc accepts a statement, and the types after it.  What `value_encode` gives has a type that is none of the
helpers', like the type of a field. -/
def EncStmt.types (T : LTypes) : EncStmt V → Option LTypes
  | .zero => some ((nBytes, .usize, true) :: T)
  | .container c => some ((nCattrNew, .cattr, c.isNone) :: T)
  | .getVar s =>
    if typeAt ((s.toList, .usize, true) :: T) nCattr = some .cattr ∧ s.toList ≠ nCr ∧ s.toList ≠ nValue then
      some ((s.toList, .usize, true) :: T)
    else none
  | .modifiers _ _ => some ((nFattrNew, .fattr, false) :: T)
  | .add _ _ => if encCallTyped T ∧ T.lookup nBytes = some (.usize, true) then some T else none
  | .fill _ _ _ => if typeAt T nBuffer = some .reader then some T else none
  | .letSelf _ x => if isIdent x then some ((x, .field [], false) :: T) else none
  | .letValue _ x _ => if isIdent x then some ((x, .field [], false) :: T) else none

/-- All statements. -/
def encTypesAfter : List (EncStmt V) → LTypes → Option LTypes
  | [], T => some T
  | s :: ss, T => (s.types T).bind (encTypesAfter ss)

/-- `generate_encode_body2`, derive/src/jbytes/encode.rs:7-18. -/
def emitFill (i : Nat) (a : FieldAttrs V) : List (EncStmt V) :=
  match a.offset with
  | some e => [.fill i e a.full]
  | none => []

/-- derive/src/jbytes/encode.rs:39-44. -/
def emitText (i : Nat) (a : FieldAttrs V) : List (EncStmt V) :=
  match a.fromStr with
  | some ps => [.add i (.text i ps.2)]
  | none => []

/-- derive/src/jbytes/encode.rs:46-57. -/
def emitSend (i : Nat) (x : Name) (f : Field V) : List (EncStmt V) :=
  emitFill i f.attrs ++
    match f.attrs.valueEncode with
    | some g => [.letSelf i x, .letValue i x g, .add i (.hidden x f.enc)]
    | none => [.add i (.field i f.enc)]

/-- `generate_encode_body`, derive/src/jbytes/encode.rs:22-60. -/
def emitEncode (i : Nat) (x : Name) (f : Field V) : List (EncStmt V) :=
  match f.attrs.withEncode with
  | some g => [.add i (.call i g)]
  | none =>
    if f.attrs.skip || f.attrs.skipEncode then []
    else emitText i f.attrs ++ if f.attrs.bits.isSome || !f.attrs.untake then emitSend i x f else []

/-- derive/src/jbytes/derive_struct.rs:246-253. -/
def emitEncodes : Nat → List (Name × NamedField V) → List (EncStmt V)
  | _, [] => []
  | i, (x, f) :: fs => .modifiers i f.field.attrs :: emitEncode i x f.field ++ emitEncodes (i + 1) fs

/-- The fields with their names as `fields.names()` gives them: a tuple field is called `0`, `1`, .. -/
def withNames (s : Shape) : Nat → List (NamedField V) → List (Name × NamedField V)
  | _, [] => []
  | n, f :: fs => (if s = .tuple then Nat.toDigits 10 n else f.name, f) :: withNames s (n + 1) fs

/-- `generate_byte_encode`, derive/src/jbytes/derive_struct.rs:207-261, without its last expression `Ok(r_nbytes)`. -/
def GenStruct.encodeBody (S : GenStruct V) : List (EncStmt V) :=
  .zero :: .container S.container :: S.getVars.map .getVar ++ emitEncodes 0 (withNames S.shape 0 S.fields)

/-- The parameters of `encode_inner`. -/
def encodeParams (ca : Option CAttr) (fa : Option FAttr) : Locals V :=
  [(nBuffer, .reader), (nCattr, .cattr ca), (nFattr, .fattr fa)]

/-- Their types. -/
def encodeParamTypes : LTypes := [(nBuffer, .reader, false), (nCattr, .cattr, false), (nFattr, .fattr, false)]

/-- Running the generated encoder on a value. -/
def GenStruct.runEncode (U : UsizeIn V) (S : GenStruct V) : Enc (List V) := fun ws ca fa => do
  let L ← encRunAll U S.getVars ws S.encodeBody (encodeParams ca fa)
  match usizeAt U L nBytes with
  | some n => return n
  | none => panic

/-- Whether rustc accepts the generated encoder: its result is a `usize`. -/
def GenStruct.encodeAccepted (S : GenStruct V) : Bool :=
  match encTypesAfter S.encodeBody encodeParamTypes with
  | some T => typeAt T nBytes == some .usize
  | none => false

end JBytes
