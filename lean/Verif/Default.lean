import Verif.AttrText
/-!
# `#[derive(Jdefault)]` (crates/jdefault-rs)

The `Default` implementation that the macro writes.  The expressions in attributes and the defaults of field types are
given by `DefaultInterp`: what rustc makes of them.  Where the macro reports an error or panics, and where rustc does
not accept the text it writes, the model gives `none`.
-/

namespace JBytes

/-- An attribute as the macro tells them apart, crates/jdefault-rs/src/jdefault/attribute.rs:41-46 and 93-102. -/
inductive DAttribute where
  | jbytes (items : List AttrItem)
  | jppe (items : List AttrItem)
  | jd (items : List AttrItem)
  | other

/-- `FieldAttributes`, crates/jdefault-rs/src/jdefault/attribute.rs:81-86.  (`ContainerAttributes`, 18-23, is the same
without `default_bool`.) -/
structure DText where
  isJbytes : Bool := false
  defaultBool : Bool := false
  defaultValue : Option Text := none

/-- One item of a field or variant attribute, crates/jdefault-rs/src/jdefault/attribute.rs:104-130. -/
def DText.fieldItem (t : DText) : AttrItem → Option DText
  | .tag n =>
    if n = "default_value" ∨ n = "default" ∨ n = "enum_default" ∨ n = "branch_default" then
      some { t with defaultBool := true }
    else if t.isJbytes then some t
    else none
  | .prop k lit =>
    if k = "default_value" ∨ k = "default" then some { t with defaultValue := some (litText lit) }
    else if t.isJbytes then some t
    else none

/-- One item of a container attribute, crates/jdefault-rs/src/jdefault/attribute.rs:48-74. -/
def DText.containerItem (t : DText) : AttrItem → Option DText
  | .tag _ => if t.isJbytes then some t else none
  | .prop k lit =>
    if k = "default_value" ∨ k = "default" then some { t with defaultValue := some (litText lit) }
    else if t.isJbytes then some t
    else none

/-- `FieldAttributes::parse`, crates/jdefault-rs/src/jdefault/attribute.rs:89-134.  The outer `none` is an error, the
inner one that the attribute is not for this macro. -/
def DAttribute.field : DAttribute → Option (Option DText)
  | .jbytes items | .jppe items => (items.foldlM DText.fieldItem { isJbytes := true }).map some
  | .jd items => (items.foldlM DText.fieldItem {}).map some
  | .other => some none

/-- `ContainerAttributes::parse`, crates/jdefault-rs/src/jdefault/attribute.rs:37-78: `jppe` is not looked for. -/
def DAttribute.container : DAttribute → Option (Option DText)
  | .jbytes items => (items.foldlM DText.containerItem { isJbytes := true }).map some
  | .jd items => (items.foldlM DText.containerItem {}).map some
  | .jppe _ | .other => some none

/-- `get_attribute::<…>()?.unwrap_or_default()` of `virtue`: the first attribute for which `parse` gives a value. -/
def firstText (parse : DAttribute → Option (Option DText)) : List DAttribute → Option DText
  | [] => some {}
  | a :: as =>
    match parse a with
    | none => none
    | some (some t) => some t
    | some none => firstText parse as

/-- The values of expressions: one expression, the arguments of a constructor, and `T::default()`. -/
structure DefaultInterp (V : Type) where
  value : Text → V
  args : Text → List V
  typeDefault : Text → V

/-- A field: its attributes and the text of its type. -/
structure DField where
  attrs : List DAttribute
  ty : Text

/-- `Option<Fields>` of `virtue`. -/
inductive DShape where
  | unit
  | named (fs : List DField)
  | tuple (fs : List DField)

/-- The fields, in order. -/
def DShape.fields : DShape → List DField
  | .unit => []
  | .named fs | .tuple fs => fs

/-- Whether rustc takes `T::default()` as an expression: `T` must be a path without generic arguments, so `Vec<u8>`,
`[u8; 4]`, `(u8, u8)` and `&str` need angle brackets around them. -/
def exprPath (ty : Text) : Bool := ty.all fun c => c.isAlphanum || c == '_' || c == ':'

variable {V : Type}

/-- What is written for a field, crates/jdefault-rs/src/jdefault/derive_struct.rs:27-38 and 49-62. -/
def fieldDefault (I : DefaultInterp V) (angle : Bool) (f : DField) : Option V :=
  (firstText DAttribute.field f.attrs).bind fun t =>
    match t.defaultValue with
    | some e => some (I.value e)
    | none => if (angle && f.ty.contains '(') || exprPath f.ty then some (I.typeDefault f.ty) else none

/-- `generate_struct_body`, crates/jdefault-rs/src/jdefault/derive_struct.rs:14-74. -/
def shapeDefault (I : DefaultInterp V) : DShape → Option (List V)
  | .unit => some []
  | .named fs => fs.mapM (fieldDefault I false)
  | .tuple fs => fs.mapM (fieldDefault I true)

/-- `Self(args)`: a tuple constructor with as many fields. -/
def applyArgs (I : DefaultInterp V) (e : Text) : DShape → Option (List V)
  | .tuple fs => if (I.args e).length = fs.length then some (I.args e) else none
  | .unit | .named _ => none

/-- `DeriveStruct::generate_jdefault`, crates/jdefault-rs/src/jdefault/derive_struct.rs:77-97, with the container
attributes of crates/jdefault-rs/src/lib.rs:64-66. -/
def structDefault (I : DefaultInterp V) (container : List DAttribute) (s : DShape) : Option (List V) :=
  (firstText DAttribute.container container).bind fun t =>
    match t.defaultValue with
    | some e => applyArgs I e s
    | none => shapeDefault I s

/-- A variant: its attributes, its fields and the literal after `=`. -/
structure DVariant where
  attrs : List DAttribute
  shape : DShape
  disc : Option Text := none

/-- `EnumVariantIterator::next`, crates/jdefault-rs/src/jdefault/derive_enum.rs:81-103: whether the literal is read
without a panic.  (The number itself is not used.) -/
def discReads : Option Text → Bool
  | none => true
  | some s =>
    match (if startsHex s then usizeFromRadix 16 (s.drop 2) else usizeFromRadix 10 s) with
    | some n => n ≤ isizeMax
    | none => false

/-- What one variant adds to the body, crates/jdefault-rs/src/jdefault/derive_enum.rs:47-56: nothing, or an
expression.  The mark without a value is looked at first. -/
def variantDefault (I : DefaultInterp V) (v : DVariant) : Option (Option (List V)) :=
  if discReads v.disc then
    (firstText DAttribute.field v.attrs).bind fun t =>
      if t.defaultBool then (shapeDefault I v.shape).map some
      else
        match t.defaultValue with
        | some e => (applyArgs I e v.shape).map some
        | none => some none
  else none

/-- The loop of `DeriveEnum::generate_jdefault`, crates/jdefault-rs/src/jdefault/derive_enum.rs:46-60: the
expressions that are written one after the other, with the variant of each. -/
def variantBodies (I : DefaultInterp V) : Nat → List DVariant → Option (List (Nat × List V))
  | _, [] => some []
  | i, v :: vs =>
    (variantDefault I v).bind fun b =>
      (variantBodies I (i + 1) vs).map fun rest =>
        match b with
        | some x => (i, x) :: rest
        | none => rest

/-- `DeriveEnum::generate_jdefault`, crates/jdefault-rs/src/jdefault/derive_enum.rs:25-68.  Without an expression the
macro reports an error; two expressions next to each other are not a function body. -/
def enumDefault (I : DefaultInterp V) (container : List DAttribute) (vs : List DVariant) : Option (Nat × List V) :=
  (firstText DAttribute.container container).bind fun _ =>
    (variantBodies I 0 vs).bind fun bodies =>
      match bodies with
      | [b] => some b
      | _ => none

end JBytes
