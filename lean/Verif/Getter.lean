import Verif.AttrText
import Verif.Num
/-!
# `#[derive(Jget)]` (crates/jget-rs)

The getters that the macro writes: their names, their return types and the values they give.  The macro decides on the
text of types, so texts are kept.  A getter is run on values in which only integers, vectors of integers and options
are told apart; `.into()` is a parameter.  Where rustc does not accept the text that is written the model says nothing
(`none` stands for a value no getter can be run on).
-/

namespace JBytes

/-- `parse_value_string`, crates/jget-rs/derive/src/jget/attribute.rs:13-21.  (The slice would panic on a single quote,
which is not a literal.) -/
def getLitText (s : Text) : Text :=
  if s.head? = some '"' ∧ s.getLast? = some '"' then (s.drop 1).dropLast else s

/-- `str::trim`.  (Simplified: the white space of ASCII.) -/
def trimText (s : Text) : Text := ((s.dropWhile Char.isWhitespace).reverse.dropWhile Char.isWhitespace).reverse

/-- `str::split_once` for a character. -/
def splitOnce (c : Char) : Text → Option (Text × Text)
  | [] => none
  | d :: s => if d = c then some ([], s) else (splitOnce c s).map fun p => (d :: p.1, p.2)

/-- One piece of a list, crates/jget-rs/derive/src/jget/attribute.rs:28-35. -/
def getEntry (v : Text) : Text × Text :=
  match splitOnce ':' v with
  | some p => (trimText p.1, trimText p.2)
  | none => (trimText v, [])

/-- `parse_value_string_list`, crates/jget-rs/derive/src/jget/attribute.rs:24-39. -/
def getEntries (lit : Text) : List (Text × Text) := (splitComma (getLitText lit)).map getEntry

/-- `FieldAttributes`, crates/jget-rs/derive/src/jget/attribute.rs:93-105.  (`name` is read but not used; `to_expr` and
`to_func` are never set.) -/
structure GetAttrs where
  get : Bool := false
  getOption : Bool := false
  clone : Bool := false
  option : Bool := false
  getList : List (Text × Text) := []
  getOptionList : List (Text × Text) := []

/-- One item of a field or variant attribute, crates/jget-rs/derive/src/jget/attribute.rs:117-140. -/
def GetAttrs.item (a : GetAttrs) : AttrItem → Option GetAttrs
  | .tag n =>
    if n = "get" then some { a with get := true }
    else if n = "get_option" then some { a with getOption := true }
    else if n = "clone" then some { a with clone := true }
    else if n = "option" then some { a with option := true }
    else none
  | .prop k lit =>
    if k = "name" then some a
    else if k = "get" then some { a with getList := a.getList ++ getEntries lit }
    else if k = "get_option" then some { a with getOptionList := a.getOptionList ++ getEntries lit }
    else none

/-- `FieldAttributes::parse`, crates/jget-rs/derive/src/jget/attribute.rs:108-145.  `none` is an error. -/
def GetAttrs.parse (items : List AttrItem) : Option GetAttrs := items.foldlM GetAttrs.item {}

/-- `ContainerAttributes::parse`, crates/jget-rs/derive/src/jget/attribute.rs:59-90. -/
def getDefaults (items : List AttrItem) : Option (List (Text × Text)) :=
  items.foldlM (fun l i => match i with
    | .prop k lit => if k = "get_default" then some (l ++ getEntries lit) else none
    | .tag _ => none) []

/-- `Option<`. -/
def optLt : Text := ['O', 'p', 't', 'i', 'o', 'n', '<']
/-- `Vec<`. -/
def vecLt : Text := ['V', 'e', 'c', '<']
/-- `Option<Vec<`. -/
def optVecLt : Text := ['O', 'p', 't', 'i', 'o', 'n', '<', 'V', 'e', 'c', '<']

/-- `get_return_type_string`, crates/jget-rs/derive/src/jget/derive_struct.rs:30-43. -/
def returnType (stated : Option Text) (fieldTy : Text) (isOption : Bool) : Text :=
  let t := stated.getD fieldTy
  if !optLt.isPrefixOf t && (isOption || optLt.isPrefixOf fieldTy) then optLt ++ t ++ ['>'] else t

/-- What is done to `value`. -/
inductive GetConv where
  /-- `value.iter().map(|v| *v as ty).collect()` -/
  | castVec (ty : Text)
  /-- the same inside `if let Some(value) = value { .. } else { None }` -/
  | castOptVec (ty : Text)
  /-- `vec![*value as ty]` -/
  | castOne (ty : Text)
  /-- `if let Some(value) = value { Some(value.into()) } else { None }`, with or without `clone` -/
  | intoSome (clone : Bool)
  /-- `value.into()`, with or without `clone` -/
  | into (clone : Bool)
  deriving DecidableEq, Repr

/-- The three casts, crates/jget-rs/derive/src/jget/derive_struct.rs:73-81 and 88-96. -/
def castFor (fieldTy asTy : Text) : GetConv :=
  if optVecLt.isPrefixOf fieldTy then .castOptVec asTy
  else if vecLt.isPrefixOf fieldTy then .castVec asTy
  else .castOne asTy

/-- `starts_with("Vec<u") || starts_with("Vec<i")`, and the same with `Option<`. -/
def startsVecInt (pre ty : Text) : Bool := (pre ++ ['u']).isPrefixOf ty || (pre ++ ['i']).isPrefixOf ty

/-- `starts_with('&') || starts_with("Option<&")`. -/
def startsRef (ty : Text) : Bool := ['&'].isPrefixOf ty || (optLt ++ ['&']).isPrefixOf ty

/-- `get_code_string`, crates/jget-rs/derive/src/jget/derive_struct.rs:46-121, where `fieldTy` is the text of the type
without its spaces. -/
def convFor (ret fieldTy : Text) : GetConv :=
  if startsVecInt vecLt ret && ret != fieldTy then
    castFor fieldTy (removeAll ['>'] 0 (removeAll vecLt 0 ret))
  else if startsVecInt optVecLt ret && ((optLt.isPrefixOf fieldTy && ret != fieldTy)
      || (!optLt.isPrefixOf fieldTy && ret != optLt ++ fieldTy ++ ['>'])) then
    castFor fieldTy (removeAll ['>', '>'] 0 (removeAll optVecLt 0 ret))
  else if optLt.isPrefixOf fieldTy then .intoSome (!startsRef ret)
  else .into (!(decide ('&' ∈ fieldTy) || startsRef ret))

/-- A getter: its name without `get_`, its return type, what it reads, the conversion and whether `Some(..)` is put
around the result. -/
structure Getter where
  name : Text
  ret : Text
  path : Text
  conv : GetConv
  wrap : Bool
  deriving DecidableEq, Repr

/-- `get_code_string` for what stands at `path`, crates/jget-rs/derive/src/jget/derive_struct.rs:46-121, with
`get_field_name` (14-17).  (How the value is borrowed, 53-61, does not change it.) -/
def getterFor (a : GetAttrs) (name ret path fieldTy : Text) (isOption : Bool) : Getter where
  name := name
  ret := ret
  path := removeAll ['r', '#'] 0 path
  conv := convFor ret (removeAll [' '] 0 fieldTy)
  wrap := !optLt.isPrefixOf (removeAll [' '] 0 fieldTy) && (a.option || isOption)

/-- `field_name.contains('.')`: the path that is stated, else the field itself,
crates/jget-rs/derive/src/jget/derive_struct.rs:157 and 168. -/
def getPath (stated ident : Text) : Text := if '.' ∈ stated then stated else ident

/-- The getters of one named field, crates/jget-rs/derive/src/jget/derive_struct.rs:135-173. -/
def fieldGetters (a : GetAttrs) (ident fieldTy : Text) : List Getter :=
  (if a.get then [getterFor a (getterName ident) (returnType none fieldTy false) ident fieldTy false] else [])
  ++ (if a.getOption then [getterFor a (getterName ident) (returnType none fieldTy true) ident fieldTy true] else [])
  ++ a.getList.map (fun e =>
      getterFor a (getterName e.1) (returnType (some e.2) fieldTy false) (getPath e.1 ident) fieldTy false)
  ++ a.getOptionList.map (fun e =>
      getterFor a (getterName e.1) (returnType (some e.2) fieldTy true) (getPath e.1 ident) fieldTy true)

/-- The text of a field type: the tokens, each but `'` followed by a space,
crates/jget-rs/derive/src/jget/derive_struct.rs:131-133. -/
def tokensText (tokens : List Text) : Text := tokens.flatMap fun t => if t = ['\''] then t else t ++ [' ']

/-- `generate_create_get_default`, crates/jget-rs/derive/src/jget/derive_struct.rs:223-255: name and return type of the
getters that always give `None`. -/
def defaultGetter (e : Text × Text) : Text × Text :=
  (removeAll ['r', '#'] 0 e.1, if optLt.isPrefixOf e.2 then e.2 else optLt ++ e.2 ++ ['>'])

/-! ## Values -/

/-- Values of fields and results of getters. -/
inductive GVal where
  | num (n : Int)
  | nums (l : List Int)
  | absent
  | present (v : GVal)
  | other (t : Text)
  deriving DecidableEq, Repr

/-- The integer types by their names. -/
def intNamed (t : Text) : Option IntKind :=
  [(['u', '8'], IntKind.mk 1 false), (['u', '1', '6'], ⟨2, false⟩), (['u', '3', '2'], ⟨4, false⟩), (['u', '6', '4'], ⟨8, false⟩),
   (['u', '1', '2', '8'], ⟨16, false⟩), (['u', 's', 'i', 'z', 'e'], ⟨8, false⟩), (['i', '8'], ⟨1, true⟩), (['i', '1', '6'], ⟨2, true⟩), (['i', '3', '2'], ⟨4, true⟩),
   (['i', '6', '4'], ⟨8, true⟩), (['i', '1', '2', '8'], ⟨16, true⟩), (['i', 's', 'i', 'z', 'e'], ⟨8, true⟩)].lookup t

/-- `n as T` for an integer type: the low bits, read in the new type. -/
def asInt (k : IntKind) (n : Int) : Int := k.toInt (k.ofInt n)

/-- The conversions on values.  `into` is `.into()`; `none` where the value is not of a type for this code. -/
def runConv (into : GVal → Option GVal) : GetConv → GVal → Option GVal
  | .castVec ty, .nums l => (intNamed ty).map fun k => .nums (l.map (asInt k))
  | .castOptVec ty, .absent => (intNamed ty).map fun _ => .absent
  | .castOptVec ty, .present (.nums l) => (intNamed ty).map fun k => .present (.nums (l.map (asInt k)))
  | .castOne ty, .num n => (intNamed ty).map fun k => .nums [asInt k n]
  | .intoSome _, .absent => some .absent
  | .intoSome _, .present v => (into v).map .present
  | .into _, v => into v
  | _, _ => none

/-- The value of a getter, crates/jget-rs/derive/src/jget/derive_struct.rs:53-121; `read` gives what stands at a
path. -/
def Getter.run (into : GVal → Option GVal) (read : Text → Option GVal) (g : Getter) : Option GVal :=
  ((read g.path).bind (runConv into g.conv)).map fun v => if g.wrap then .present v else v

/-! ## Enums -/

/-- A variant: its attributes and its named fields with their attributes, names and types (no fields are listed for a
tuple variant: crates/jget-rs/derive/src/jget/derive_struct.rs:178-213 does nothing). -/
structure GVariant where
  attrs : GetAttrs := {}
  fields : List (GetAttrs × Text × Text) := []

/-- The body of an arm: `v.path` or `Some(v.path)` of a tuple variant, or that of the getter of a named field. -/
inductive ArmBody where
  | inner (path : Text) (wrap : Bool)
  | field (ident : Text) (g : Getter)
  deriving DecidableEq, Repr

/-- One entry of `cache_return_type` and `cache_enum_element`. -/
structure GetArm where
  name : Text
  ret : Text
  isMatch : Bool
  body : ArmBody
  deriving DecidableEq, Repr

/-- `return_type.contains("Option<")`. -/
def containsOpt : Text → Bool
  | [] => false
  | c :: s => optLt.isPrefixOf (c :: s) || containsOpt s

/-- The entries of one variant, crates/jget-rs/derive/src/jget/derive_enum.rs:49-97. -/
def variantArms (v : GVariant) : List GetArm :=
  v.attrs.getList.map (fun e =>
    { name := getterName e.1, ret := returnType (some e.2) e.2 false, isMatch := false, body := .inner e.1 false })
  ++ v.attrs.getOptionList.map (fun e =>
    { name := getterName e.1, ret := returnType (some e.2) e.2 true, isMatch := true
      body := .inner e.1 (!(!containsOpt (returnType (some e.2) e.2 true) && decide ('(' ∈ e.1))) })
  ++ v.fields.flatMap fun f => (fieldGetters f.1 f.2.1 f.2.2).map fun g =>
    { name := g.name, ret := g.ret, isMatch := true, body := .field f.2.1 g }

/-- The getters of an enum have one return type and one `_ => None` or none: those of the last entry of that name
(`insert`), crates/jget-rs/derive/src/jget/derive_enum.rs:57, 74 and 86. -/
def enumHead (vs : List GVariant) (name : Text) : Option (Text × Bool) :=
  (((vs.flatMap variantArms).filter fun a => a.name == name).getLast?).map fun a => (a.ret, a.isMatch)

/-- The value of the getter `get_name` of an enum on a value of variant `i`: the first arm of this variant, else
`_ => None`, crates/jget-rs/derive/src/jget/derive_enum.rs:104-131.  `inner` reads a path below the field of a tuple
variant, `field` a named field. -/
def enumRun (into : GVal → Option GVal) (inner field : Text → Option GVal) (vs : List GVariant) (name : Text)
    (i : Nat) : Option GVal :=
  match (variantArms (vs.getD i {})).find? fun a => a.name == name with
  | some a =>
    match a.body with
    | .inner p w => (inner p).map fun v => if w then .present v else v
    | .field _ g => g.run into field
  | none =>
    match enumHead vs name with
    | some (_, true) => some .absent
    | _ => none

end JBytes
