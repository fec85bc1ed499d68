import Verif.Getter
/-!
# Expressions in attributes (derive/src/jbytes/parse.rs, encode.rs, decode.rs)

An expression such as `length = "n + 1"` is pasted into the generated code, behind a prefix that depends on where it
stands.  Modelled: the tokens that are emitted, and what rustc makes of them, for names, decimal literals, field access,
`+`, `-`, `*`, unary `*`, parentheses and casts to integer types.  Other tokens are not modelled.  What rustc does is part
of the trusted base: precedence, auto-dereference of fields, arithmetic on references, no cast of a reference, and a
literal takes the type of the other operand.
-/

namespace JBytes

/-! ## Tokens and their parsing by rustc -/

/-- The tokens; `as` and the type that follows are one. -/
inductive Tok where
  | name (x : Text)
  | self
  | num (n : Nat)
  | dot
  | open
  | close
  | plus
  | minus
  | star
  | cast (ty : Text)
  deriving DecidableEq

/-- The name of a field, or its index in a tuple. -/
inductive Sel where
  | name (x : Text)
  | index (n : Nat)
  deriving DecidableEq

/-- Operators. -/
inductive BinOp where
  | add
  | sub
  | mul
  deriving DecidableEq

/-- Expressions. -/
inductive Expr where
  | name (x : Text)
  | self
  | num (n : Nat)
  | field (e : Expr) (s : Sel)
  | deref (e : Expr)
  | cast (e : Expr) (ty : Text)
  | bin (op : BinOp) (l r : Expr)
  deriving DecidableEq

/-- What is pending to the left: an open parenthesis, a unary `*`, or an operator with its left operand. -/
inductive ExprFrame where
  | paren
  | star
  | left (op : BinOp) (e : Expr)

/-- What comes next. -/
inductive ExprNext where
  | operand
  | operator (e : Expr)
  | field (e : Expr)

/-- Unary operators bind closest. -/
def closeStars : List ExprFrame → Expr → List ExprFrame × Expr
  | .star :: S, e => closeStars S (.deref e)
  | S, e => (S, e)

/-- Multiplications come next. -/
def closeMul : List ExprFrame → Expr → List ExprFrame × Expr
  | .star :: S, e => closeMul S (.deref e)
  | .left .mul l :: S, e => closeMul S (.bin .mul l e)
  | S, e => (S, e)

/-- Everything up to the last open parenthesis. -/
def closeAll : List ExprFrame → Expr → List ExprFrame × Expr
  | .star :: S, e => closeAll S (.deref e)
  | .left op l :: S, e => closeAll S (.bin op l e)
  | S, e => (S, e)

/-- One token.  All three operators associate to the left, `*` binds closer than `+` and `-`, a cast closer than `*`, and
unary `*` and field access closer than a cast. -/
def exprStep : List ExprFrame × ExprNext → Tok → Option (List ExprFrame × ExprNext)
  | (S, .operand), .name x => some (S, .operator (.name x))
  | (S, .operand), .self => some (S, .operator .self)
  | (S, .operand), .num n => some (S, .operator (.num n))
  | (S, .operand), .open => some (.paren :: S, .operand)
  | (S, .operand), .star => some (.star :: S, .operand)
  | (_, .operand), _ => none
  | (S, .operator e), .dot => some (S, .field e)
  | (S, .operator e), .cast ty => some ((closeStars S e).1, .operator (.cast (closeStars S e).2 ty))
  | (S, .operator e), .plus => some (.left .add (closeAll S e).2 :: (closeAll S e).1, .operand)
  | (S, .operator e), .minus => some (.left .sub (closeAll S e).2 :: (closeAll S e).1, .operand)
  | (S, .operator e), .star => some (.left .mul (closeMul S e).2 :: (closeMul S e).1, .operand)
  | (S, .operator e), .close =>
    match (closeAll S e).1 with
    | .paren :: S' => some (S', .operator (closeAll S e).2)
    | _ => none
  | (_, .operator _), _ => none
  | (S, .field e), .name x => some (S, .operator (.field e (.name x)))
  | (S, .field e), .num n => some (S, .operator (.field e (.index n)))
  | (_, .field _), _ => none

/-- All tokens. -/
def exprSteps : List ExprFrame × ExprNext → List Tok → Option (List ExprFrame × ExprNext)
  | st, [] => some st
  | st, t :: ts => (exprStep st t).bind fun st' => exprSteps st' ts

/-- The end of the tokens. -/
def exprEnd : List ExprFrame × ExprNext → Option Expr
  | (S, .operator e) => if (closeAll S e).1.isEmpty then some (closeAll S e).2 else none
  | _ => none

/-- The expression that the tokens are. -/
def parseExpr (ts : List Tok) : Option Expr := (exprSteps ([], .operand) ts).bind exprEnd

/-! ## What an expression gives -/

/-- Integers with their types, and records. -/
inductive Thing where
  | int (ty : Text) (z : Int)
  | record (fs : List (Sel × Thing))

/-- What an expression gives: a literal whose type is not known yet – with the least and the greatest of the numbers in it
– or a thing or a reference to it. -/
inductive Res where
  | lit (z lo hi : Int)
  | val (ref : Bool) (t : Thing)

/-- The names in scope, with whether they are references, and `self` (a reference). -/
structure Scope where
  name : Text → Option (Bool × Thing)
  self : Option Thing

/-- A literal in a type; one that does not fit is an error (`overflowing_literals`). -/
def litAs (ty : Text) (z lo hi : Int) : Option Int :=
  (intNamed ty).bind fun k => if asInt k lo = lo ∧ asInt k hi = hi then some z else none

/-- The operators on numbers. -/
def BinOp.apply : BinOp → Int → Int → Int
  | .add, a, b => a + b
  | .sub, a, b => a - b
  | .mul, a, b => a * b

/-- The operators in a type.  They wrap around, as without `overflow-checks`. -/
def arith (ty : Text) (op : BinOp) (a b : Int) : Option Res :=
  (intNamed ty).map fun k => .val false (.int ty (asInt k (op.apply a b)))

/-- Operators take integers and references to integers of one type. -/
def evalBin (op : BinOp) : Res → Res → Option Res
  | .lit a lo hi, .lit b lo' hi' =>
    some (.lit (op.apply a b) (min (op.apply a b) (min lo lo')) (max (op.apply a b) (max hi hi')))
  | .lit a lo hi, .val _ (.int ty b) => (litAs ty a lo hi).bind fun a => arith ty op a b
  | .val _ (.int ty a), .lit b lo hi => (litAs ty b lo hi).bind fun b => arith ty op a b
  | .val _ (.int ty a), .val _ (.int ty' b) => if ty = ty' then arith ty op a b else none
  | _, _ => none

/-- Casts take integers, not references to them.  Literals are `i32` unless they are used with another type; those that
do not fit in both types are not modelled. -/
def evalCast (ty : Text) : Res → Option Res
  | .lit z lo hi => (litAs ['i', '3', '2'] z lo hi).bind fun z => (litAs ty z lo hi).map fun z => .val false (.int ty z)
  | .val false (.int _ z) => (intNamed ty).map fun k => .val false (.int ty (asInt k z))
  | .val _ _ => none

/-- A field of a record or of what a reference points to. -/
def evalField (s : Sel) : Res → Option Res
  | .val _ (.record fs) => (fs.lookup s).map (.val false)
  | _ => none

/-- What a reference points to. -/
def evalDeref : Res → Option Res
  | .val true t => some (.val false t)
  | _ => none

/-- `none`: rustc does not accept it. -/
def Expr.eval (S : Scope) : Expr → Option Res
  | .name x => (S.name x).map fun p => .val p.1 p.2
  | .self => S.self.map (.val true)
  | .num n => some (.lit n n n)
  | .field e s => (e.eval S).bind (evalField s)
  | .deref e => (e.eval S).bind evalDeref
  | .cast e ty => (e.eval S).bind (evalCast ty)
  | .bin op l r => (l.eval S).bind fun a => (r.eval S).bind fun b => evalBin op a b

/-- The number that the tokens give. -/
def numberIn (S : Scope) (ts : List Tok) : Option Int :=
  match (parseExpr ts).bind (Expr.eval S) with
  | some (.val false (.int _ z)) => some z
  | _ => none

/-! ## What is emitted -/

/-- Where the attribute stands: on a field of a struct, on a named or an unnamed field of a variant, or on a variant. -/
inductive Place where
  | structField
  | namedField
  | tupleField
  | variant
  deriving DecidableEq

/-- What the expression is for: `length`, `count`, `try_count`, `branch`, `bits`, `byte_count`, `byte_count_outside`; or
`offset`; or `byteorder`. -/
inductive ExprUse where
  | number
  | offset
  | order
  deriving DecidableEq

/-- What is put before the text when decoding: `to_code(false, false)`, derive/src/jbytes/derive_struct.rs:86 and 94, and
`to_code(true, true)` on variants, derive/src/jbytes/derive_enum.rs:199 and 339; `offset` is taken as it is,
derive/src/jbytes/decode.rs:10-12. -/
def decodePrefix : Place → ExprUse → List Tok
  | .variant, .number => [.star, .self, .dot]
  | .variant, .order => [.self, .dot]
  | _, _ => []

/-- What is put before the text when encoding: `to_code` with the flags at derive/src/jbytes/derive_struct.rs:250 and
derive/src/jbytes/derive_enum.rs:470, 533, 545; for `offset` `to_code2`, derive/src/jbytes/parse.rs:106-107, as called at
derive/src/jbytes/encode.rs:13-15. -/
def encodePrefix : Place → ExprUse → List Tok
  | .structField, _ => [.self, .dot]
  | .namedField, .number => [.star]
  | .namedField, .offset => [.star]
  | .namedField, .order => []
  | .tupleField, .number => []
  | .tupleField, .offset => [.star]
  | .tupleField, .order => []
  | .variant, .offset => [.star]
  | .variant, _ => [.self, .dot]

/-- The code around it: `({}) as usize`, derive/src/jbytes/parse.rs:94 and 115, derive/src/jbytes/decode.rs:11;
`{} as isize` for byte orders, derive/src/jbytes/parse.rs:132. -/
def emitted (u : ExprUse) (ts : List Tok) : List Tok :=
  match u with
  | .order => ts ++ [.cast ['i', 's', 'i', 'z', 'e']]
  | _ => .open :: (ts ++ [.close, .cast ['u', 's', 'i', 'z', 'e']])

/-- The variable that holds a field, derive/src/jbytes/decode.rs:20, derive/src/jbytes/derive_enum.rs:455. -/
def Sel.variable : Sel → Text
  | .name x => x
  | .index n => 'v' :: (Nat.repr n).toList

/-- The field with a variable. -/
def fieldNamed (fs : List (Sel × Thing)) (x : Text) : Option Thing :=
  (fs.find? fun p => p.1.variable == x).map (·.2)

/-- What the generated decoder sees: the fields decoded before.  Variables asked for with `get_variable_name` are not
modelled here. -/
def decodeScope (before : List (Sel × Thing)) : Scope where
  name x := (fieldNamed before x).map fun t => (false, t)
  self := none

/-- What the generated encoder sees: `self` in a struct, references to all fields of the variant in an enum
(`match self`, derive/src/jbytes/derive_enum.rs:434-465).  The variables that `value_encode` leaves are not modelled. -/
def encodeScope (p : Place) (fs : List (Sel × Thing)) : Scope :=
  if p = .structField then ⟨fun _ => none, some (.record fs)⟩
  else ⟨fun x => (fieldNamed fs x).map fun t => (true, t), some (.record [])⟩

/-- The number that an expression gives when decoding. -/
def decodeNumber (p : Place) (u : ExprUse) (before : List (Sel × Thing)) (ts : List Tok) : Option Int :=
  numberIn (decodeScope before) (emitted u (decodePrefix p u ++ ts))

/-- The number that it gives when encoding. -/
def encodeNumber (p : Place) (u : ExprUse) (fs : List (Sel × Thing)) (ts : List Tok) : Option Int :=
  numberIn (encodeScope p fs) (emitted u (encodePrefix p u ++ ts))

end JBytes
