import Verif.Derive
/-!
# The statements the derive macro emits, as a program with named locals (derive/src/jbytes)

`Derive.lean` models what a generated function does; here is the function as the macro writes it: a list of statements
that bind and read locals by name.  Below: the statements, what the macro emits, what rustc accepts (`check`) and what an
accepted list of statements does (`run`).  The meaning of the statements – the last binding of a name is the one in
force, `let` without `mut` is not assigned to, types must agree – is that of Rust and part of the trusted base.

Simplifications: the expressions in modifiers are functions of the locals that stand for the fields before this one and
of the `get_variable_name` locals, and have the right types; no field has the type of one of the local helpers
(`&I`, `Option<&ContainerAttrModifiers>`, `Option<&FieldAttrModifiers>`).
-/

namespace JBytes
open M

variable {V : Type}

/-- An identifier. -/
abbrev Name := List Char

/-! ## Types as text -/

/-- A token of the type of a field; a joint punctuation character is followed by another one without a space.  A group is
everything between two brackets. -/
inductive TyTok where
  | ident (s : Name)
  | punct (c : Char) (joint : Bool)
  | group (s : Name)
  deriving DecidableEq

/-- `to_string` of a token. -/
def TyTok.text : TyTok → Name
  | .ident s => s
  | .punct c _ => [c]
  | .group s => s

/-- `get_field_type`, derive/src/jbytes/derive_struct.rs:19-25: a space after each token but `'`. -/
def typeText (ts : List TyTok) : Name := ts.flatMap fun t => if t.text = ['\''] then t.text else t.text ++ [' ']

/-- What rustc reads when it is given that text: the same tokens, where only `'` is still joint. -/
def respelled (ts : List TyTok) : List TyTok :=
  ts.map fun t => match t with
    | .punct c _ => .punct c (c == '\'')
    | t => t

/-- What the tokens are to rustc's type parser: `::` and `->` are one, all other punctuation may as well be single. -/
inductive Lexeme where
  | word (s : Name)
  | sign (c : Char)
  | group (s : Name)
  | pathSep
  | arrow
  deriving DecidableEq

/-- See `Lexeme`. -/
def lexemes : List TyTok → List Lexeme
  | [] => []
  | .punct ':' true :: .punct ':' _ :: ts => .pathSep :: lexemes ts
  | .punct '-' true :: .punct '>' _ :: ts => .arrow :: lexemes ts
  | .punct c _ :: ts => .sign c :: lexemes ts
  | .ident s :: ts => .word s :: lexemes ts
  | .group s :: ts => .group s :: lexemes ts

/-- `let x: T` declares the type that was written. -/
def spelledRight (ts : List TyTok) : Bool := lexemes (respelled ts) == lexemes ts

/-- `T::default()` and `T::from_str(..)` with the text of the type in front are accepted for a single identifier: with
anything longer `<`, `&`, `[` or `(` begin an expression, or `::` is spelled `: :`. -/
def callable : List TyTok → Bool
  | [.ident _] => true
  | _ => false

/-! ## Names and types of locals -/

/-- The helpers of the generated functions. -/
def nInput : Name := ['i', 'n', 'p', 'u', 't']
@[inherit_doc nInput] def nCattr : Name := ['c', 'a', 't', 't', 'r']
@[inherit_doc nInput] def nFattr : Name := ['f', 'a', 't', 't', 'r']
@[inherit_doc nInput] def nCattrNew : Name := ['c', 'a', 't', 't', 'r', '_', 'n', 'e', 'w']
@[inherit_doc nInput] def nCattrNew2 : Name := ['c', 'a', 't', 't', 'r', '_', 'n', 'e', 'w', '2']
@[inherit_doc nInput] def nFattrNew : Name := ['f', 'a', 't', 't', 'r', '_', 'n', 'e', 'w']
@[inherit_doc nInput] def nPosition : Name := ['p', 'o', 's', 'i', 't', 'i', 'o', 'n']

@[inherit_doc nInput] def nCr : Name := ['c', 'r']
@[inherit_doc nInput] def nValue : Name := ['v', 'a', 'l', 'u', 'e']

/-- `v{index}`: the local of a tuple field, derive/src/jbytes/decode.rs:19. -/
def tupleLocal (i : Nat) : Name := 'v' :: Nat.toDigits 10 i

/-- Types of locals: the input or buffer, the two kinds of modifiers, `usize`, a container of modifiers, a slice or an
`Option<usize>`, the type of a field. -/
inductive LTy where
  | reader
  | cattr
  | fattr
  | usize
  | mods
  | other
  | field (ts : List TyTok)
  deriving DecidableEq

/-- The type of a field. -/
def fieldTy (ts : List TyTok) : LTy := if ts = [.ident ['u', 's', 'i', 'z', 'e']] then .usize else .field ts

/-- Values of locals. -/
inductive LocalVal (V : Type) where
  | reader
  | cattr (c : Option CAttr)
  | fattr (f : Option FAttr)
  | num (n : Nat)
  | other
  | value (v : V)

/-- The locals, the latest first. -/
abbrev Locals (V : Type) := List (Name × LocalVal V)

/-- Their types, and whether they are `mut`. -/
abbrev LTypes := List (Name × LTy × Bool)

/-- How `usize` sits among the field values. -/
structure UsizeIn (V : Type) where
  get : V → Nat
  put : Nat → V

/-- The value under a name, as a field value. -/
def valueAt (U : UsizeIn V) (L : Locals V) (x : Name) : Option V :=
  match L.lookup x with
  | some (.value v) => some v
  | some (.num n) => some (U.put n)
  | _ => none

/-- The value under a name, as a `usize`. -/
def usizeAt (U : UsizeIn V) (L : Locals V) (x : Name) : Option Nat :=
  match L.lookup x with
  | some (.value v) => some (U.get v)
  | some (.num n) => some n
  | _ => none

/-- Container modifiers under a name. -/
def cattrAt (L : Locals V) (x : Name) : Option (Option CAttr) :=
  match L.lookup x with
  | some (.cattr c) => some c
  | _ => none

/-- Field modifiers under a name. -/
def fattrAt (L : Locals V) (x : Name) : Option (Option FAttr) :=
  match L.lookup x with
  | some (.fattr f) => some f
  | _ => none

/-- Whether the name stands for the input. -/
def isReader (L : Locals V) (x : Name) : Bool :=
  match L.lookup x with
  | some .reader => true
  | _ => false

/-- What an expression sees: the variables `vs` and the fields `ns`, under the names they have. -/
def envAt (U : UsizeIn V) (vs : List String) (ns : List Name) (L : Locals V) : Env V :=
  { vars := vs.map fun s => (s, (usizeAt U L s.toList).getD 0)
    fields := ns.filterMap (valueAt U L) }

/-- The type under a name. -/
def typeAt (T : LTypes) (x : Name) : Option LTy := (T.lookup x).map (·.1)

/-! ## Statements of decoders -/

/-- The right-hand side of the `let` of a field, derive/src/jbytes/decode.rs:25-64. -/
inductive Rhs (V : Type) where
  /-- `f(input, cattr_new, fattr_new, args)?` -/
  | call (g : Env V → Dec V)
  /-- `T::default()` -/
  | default (v : V)
  /-- a string, then `T::from_str(..)`; `own`: `T` is the type of the field -/
  | parse (own : Bool) (p : List Byte → Option V)
  /-- `decode_inner(input, cattr_new, fattr_new)?` -/
  | decode (d : Dec V)
  /-- `if c { decode_inner(..)? } else { None }` -/
  | cond (c : Env V → Bool) (d : Dec V) (none : V)

/-- The statements; `ns` are the fields that an expression may mention. -/
inductive Stmt (V : Type) where
  /-- `let mut cattr_new..`, derive/src/jbytes/attribute.rs:36-49 -/
  | container (c : Option CAttr)
  /-- `let mut x = 0; if let Some(cr) = cattr {..}`, derive/src/jbytes/derive_struct.rs:174-188 -/
  | getVar (s : String)
  /-- `let fattr_new = ..;`, derive/src/jbytes/attribute.rs:184-224 -/
  | modifiers (ns : List Name) (a : FieldAttrs V)
  /-- `input.advance(..);`, derive/src/jbytes/decode.rs:8-15 -/
  | advance (ns : List Name) (e : Env V → Nat)
  /-- `let position = input.get_position();`, derive/src/jbytes/decode.rs:54 -/
  | letPosition
  /-- `let x: T = ..;` -/
  | bind (ns : List Name) (x : Name) (ty : List TyTok) (r : Rhs V)
  /-- `input.set_position(position);`, derive/src/jbytes/decode.rs:67 -/
  | setPosition
  /-- `let x = ..;`, derive/src/jbytes/decode.rs:71-73 -/
  | convert (ns : List Name) (x : Name) (g : Env V → V → V)
  /-- `if x != .. { return Err(..) }`, derive/src/jbytes/decode.rs:76-80 -/
  | check (ns : List Name) (x : Name) (c : Env V → V → Bool)
  /-- `variable_name`, derive/src/jbytes/decode.rs:83-103 -/
  | cache (ns : List Name) (l : List (String × (Env V → Nat)))

/-- A call with `input`, `cattr_new` and `fattr_new`. -/
def callWith (L : Locals V) (d : Dec V) : M V :=
  match isReader L nInput, cattrAt L nCattrNew, fattrAt L nFattrNew with
  | true, some ca, some fa => d ca fa
  | _, _, _ => panic

/-- A method call on `input`. -/
def onInput {α : Type} (L : Locals V) (m : M α) : M α := if isReader L nInput then m else panic

/-- The value of a right-hand side. -/
def Rhs.run (L : Locals V) (env : Env V) : Rhs V → M V
  | .call g => callWith L (g env)
  | .default v => return v
  | .parse _ p => callWith L fun ca fa => do
    let s ← decStr ca fa
    match p s with
    | some v => return v
    | none => fail .fail
  | .decode d => callWith L d
  | .cond c d n => if c env then callWith L d else return n

/-- What a statement does to the locals (and the input). -/
def Stmt.run (U : UsizeIn V) (vs : List String) (L : Locals V) : Stmt V → M (Locals V)
  | .container c => return (nCattrNew, .cattr c) :: L
  | .getVar s => return (s.toList, .num ((((cattrAt L nCattr).getD none).bind fun c => c.vars.lookup s).getD 0)) :: L
  | .modifiers ns a => do
    let fa ← a.toCode (envAt U vs ns L)
    return (nFattrNew, .fattr fa) :: L
  | .advance ns e => do
    onInput L (M.advance (e (envAt U vs ns L)))
    return L
  | .letPosition => do
    let p ← onInput L getPos
    return (nPosition, .num p) :: L
  | .bind ns x _ r => do
    let v ← r.run L (envAt U vs ns L)
    return (x, .value v) :: L
  | .setPosition =>
    match usizeAt U L nPosition with
    | some p => do
      onInput L (setPos p)
      return L
    | none => panic
  | .convert ns x g =>
    match valueAt U L x with
    | some v => return (x, .value (g (envAt U vs ns L) v)) :: L
    | none => panic
  | .check ns x c =>
    match valueAt U L x with
    | some v => if c (envAt U vs ns L) v then return L else fail .invalidValue
    | none => panic
  | .cache ns l =>
    match cattrAt L nCattrNew with
    | some ca => return (nCattrNew, .cattr (some (l.foldl (fun c e => { c with vars := (e.1, e.2 (envAt U vs ns L)) :: c.vars })
        (ca.getD {})))) :: L
    | none => panic

/-- One statement after the other. -/
def runAll (U : UsizeIn V) (vs : List String) : List (Stmt V) → Locals V → M (Locals V)
  | [], L => return L
  | s :: ss, L => do
    let L' ← s.run U vs L
    runAll U vs ss L'

/-- The types of `input`, `cattr_new` and `fattr_new` where a codec is called. -/
def callTyped (T : LTypes) : Bool :=
  typeAt T nInput == some .reader && typeAt T nCattrNew == some .cattr && typeAt T nFattrNew == some .fattr

/-- Whether rustc accepts a `let` of a field `x: ty`. -/
def Rhs.accepted (T : LTypes) (x : Name) (ty : List TyTok) : Rhs V → Bool
  | .call _ => callTyped T && spelledRight ty
  | .default _ => callable ty
  | .parse own _ => callTyped T && x != nInput && (!own || callable ty)
  | .decode _ => callTyped T && spelledRight ty
  | .cond .. => callTyped T && spelledRight ty

/-- Whether rustc accepts a statement, and the types after it. -/
def Stmt.types (T : LTypes) : Stmt V → Option LTypes
  | .container c => some ((nCattrNew, .cattr, c.isNone) :: T)
  | .getVar s =>
    -- `s = *value` stands inside `if let Some(cr)` and `if let Some(value)`
    if typeAt ((s.toList, .usize, true) :: T) nCattr = some .cattr ∧ s.toList ≠ nCr ∧ s.toList ≠ nValue then
      some ((s.toList, .usize, true) :: T)
    else none
  | .modifiers _ _ => some ((nFattrNew, .fattr, false) :: T)
  | .advance _ _ => if typeAt T nInput = some .reader then some T else none
  | .letPosition => if typeAt T nInput = some .reader then some ((nPosition, .usize, false) :: T) else none
  | .bind _ x ty r => if r.accepted T x ty then some ((x, fieldTy ty, false) :: T) else none
  | .setPosition => if typeAt T nInput = some .reader ∧ typeAt T nPosition = some .usize then some T else none
  | .convert _ _ _ => some T
  | .check _ _ _ => if typeAt T nInput = some .reader then some T else none
  | .cache _ _ => if T.lookup nCattrNew = some (.cattr, true) then some ((nCattrNew2, .mods, false) :: T) else none

/-- All statements. -/
def typesAfter : List (Stmt V) → LTypes → Option LTypes
  | [], T => some T
  | s :: ss, T => (s.types T).bind (typesAfter ss)

/-! ## What the macro emits for a struct -/

/-- A field as written. -/
structure NamedField (V : Type) where
  name : Name
  ty : List TyTok
  field : Field V
  /-- `from_str` without a type -/
  fromStrOwn : Bool := true

/-- `generate_decode_body2`, derive/src/jbytes/decode.rs:8-15. -/
def emitOffset (ns : List Name) (a : FieldAttrs V) : List (Stmt V) :=
  match a.offset with
  | some e => [.advance ns e]
  | none => []

/-- derive/src/jbytes/decode.rs:57-64. -/
def emitRead (f : Field V) : Rhs V :=
  match f.attrs.ifExpr with
  | some c => .cond c f.dec f.noneV
  | none => .decode f.dec

/-- derive/src/jbytes/decode.rs:70-80. -/
def emitFinish (ns : List Name) (x : Name) (a : FieldAttrs V) : List (Stmt V) :=
  (match a.valueDecode with
    | some g => [.convert ns x g]
    | none => []) ++
  (match a.checkValue with
    | some c => [.check ns x c]
    | none => [])

/-- derive/src/jbytes/decode.rs:51-81. -/
def emitPlain (ns : List Name) (x : Name) (f : NamedField V) : List (Stmt V) :=
  (if f.field.attrs.untake then [.letPosition] else []) ++ [.bind ns x f.ty (emitRead f.field)] ++
    (if f.field.attrs.untake then [.setPosition] else []) ++ emitFinish ns x f.field.attrs

/-- derive/src/jbytes/decode.rs:25-81. -/
def emitValue (ns : List Name) (x : Name) (f : NamedField V) : List (Stmt V) :=
  match f.field.attrs.withDecode with
  | some g => [.bind ns x f.ty (.call g)]
  | none =>
    if f.field.attrs.skip || f.field.attrs.skipDecode then [.bind ns x f.ty (.default f.field.dflt)]
    else
      match f.field.attrs.fromStr with
      | some ps => [.bind ns x f.ty (.parse f.fromStrOwn ps.1)]
      | none => emitPlain ns x f

/-- derive/src/jbytes/decode.rs:83-103. -/
def emitCache (ns : List Name) (x : Name) (a : FieldAttrs V) : List (Stmt V) :=
  match a.variableName with
  | some l => [.cache (ns ++ [x]) l]
  | none => []

/-- `generate_decode_body`, derive/src/jbytes/decode.rs:18-106. -/
def emitField (ns : List Name) (x : Name) (f : NamedField V) : List (Stmt V) :=
  emitOffset ns f.field.attrs ++ emitValue ns x f ++ emitCache ns x f.field.attrs

/-- `generate_decode_struct_body`, derive/src/jbytes/derive_struct.rs:80-103: a tuple field without modifiers gets no
`fattr_new` of its own. -/
def emitFields (tuple : Bool) : List Name → List (Name × NamedField V) → List (Stmt V)
  | _, [] => []
  | ns, (x, f) :: fs =>
    (if tuple && !f.field.attrs.isUse then [] else [.modifiers ns f.field.attrs]) ++ emitField ns x f ++
      emitFields tuple (ns ++ [x]) fs

/-- `struct S;`, `struct S {..}` and `struct S(..);`. -/
inductive Shape where
  | unit
  | named
  | tuple
  deriving DecidableEq

/-- A struct as written. -/
structure GenStruct (V : Type) where
  container : Option CAttr := none
  getVars : List String := []
  shape : Shape
  fields : List (NamedField V) := []

/-- The fields with the names of their locals, the `n`-th and later. -/
def withLocals (s : Shape) : Nat → List (NamedField V) → List (Name × NamedField V)
  | _, [] => []
  | n, f :: fs => (if s = .tuple then tupleLocal n else f.name, f) :: withLocals s (n + 1) fs

/-- The struct that `Derive.lean` takes. -/
def GenStruct.toDef (S : GenStruct V) : StructDef V :=
  { container := S.container, getVars := S.getVars, tuple := S.shape == .tuple, fields := S.fields.map (·.field) }

/-- `generate_byte_decode_body`, derive/src/jbytes/derive_struct.rs:164-195, without its last expression. -/
def GenStruct.decodeBody (S : GenStruct V) : List (Stmt V) :=
  .container S.container :: S.getVars.map .getVar ++ emitFields (S.shape == .tuple) [] (withLocals S.shape 0 S.fields)

/-- The parameters of `decode_inner`. -/
def decodeParams (ca : Option CAttr) (fa : Option FAttr) : Locals V :=
  [(nInput, .reader), (nCattr, .cattr ca), (nFattr, .fattr fa)]

/-- Their types. -/
def decodeParamTypes : LTypes := [(nInput, .reader, false), (nCattr, .cattr, false), (nFattr, .fattr, false)]

/-- `Ok(Self {a, b})` or `Ok(Self (v0, v1))`, derive/src/jbytes/derive_struct.rs:28-77. -/
def construct (U : UsizeIn V) (xs : List Name) (L : Locals V) : M (List V) :=
  match xs.mapM (valueAt U L) with
  | some vs => return vs
  | none => panic

/-- Running the generated decoder. -/
def GenStruct.runDecode (U : UsizeIn V) (S : GenStruct V) : Dec (List V) := fun ca fa => do
  let L ← runAll U S.getVars S.decodeBody (decodeParams ca fa)
  construct U ((withLocals S.shape 0 S.fields).map (·.1)) L

/-- rustc on the last expression: every field gets a local of its type.  For `struct S;` the text is `Ok(Self {{}})`,
which is not an expression (derive_struct.rs:68-71). -/
def constructAccepted (s : Shape) (fs : List (Name × NamedField V)) (T : LTypes) : Bool :=
  s != .unit && fs.all fun p => typeAt T p.1 == some (fieldTy p.2.ty)

/-- Whether rustc accepts the generated decoder. -/
def GenStruct.decodeAccepted (S : GenStruct V) : Bool :=
  match typesAfter S.decodeBody decodeParamTypes with
  | some T => constructAccepted S.shape (withLocals S.shape 0 S.fields) T
  | none => false

end JBytes
