import Verif.DeriveLemmas
/-!
# Two ways to declare the same fields

A struct with some of its fields grouped into a struct of their own, and the same fields written out in a row
(derive/src/jbytes/derive_struct.rs:80-103, 164-261).  A modifier expression names the fields it looks at, so it is
the same text in both declarations; here, where a scope is a list, the expression of one declaration is the
expression of the other read in the corresponding scope (`within`).
-/

namespace JBytes
open M

variable {V : Type}

/-- `byteorder=...` with its expression read in another scope (derive/src/jbytes/attribute.rs:124-180). -/
def OrderAttr.within (g : Env V → Env V) : OrderAttr V → OrderAttr V
  | .lit o => .lit o
  | .expr e => .expr fun env => e (g env)

/-- The modifiers with their expressions read in another scope (derive/src/jbytes/attribute.rs:124-180). -/
def FieldAttrs.within (g : Env V → Env V) (a : FieldAttrs V) : FieldAttrs V :=
  { a with
    byteorder := a.byteorder.map (OrderAttr.within g)
    length := a.length.map fun e env => e (g env)
    offset := a.offset.map fun e env => e (g env)
    count := a.count.map fun e env => e (g env)
    tryCount := a.tryCount.map fun e env => e (g env)
    bits := a.bits.map fun e env => e (g env)
    byteCount := a.byteCount.map fun e env => e (g env)
    byteCountOutside := a.byteCountOutside.map fun e env => e (g env)
    valueEncode := a.valueEncode.map fun e env => e (g env)
    valueDecode := a.valueDecode.map fun e env => e (g env)
    variableName := a.variableName.map fun l => l.map fun x => (x.1, fun env => x.2 (g env))
    branch := a.branch.map fun e env => e (g env)
    withDecode := a.withDecode.map fun e env => e (g env)
    withEncode := a.withEncode.map fun e env => e (g env)
    ifExpr := a.ifExpr.map fun e env => e (g env)
    checkValue := a.checkValue.map fun e env => e (g env) }

/-- A field with its expressions read in another scope. -/
def Field.within (g : Env V → Env V) (f : Field V) : Field V := { f with attrs := f.attrs.within g }

/-- The scope inside the group: the fields of the group so far, behind `a` fields that are not visible there. -/
def Env.inner (a : Nat) (env : Env V) : Env V := { fields := env.fields.drop a }

/-- The values with `n` of them, behind the first `a`, gathered into one. -/
def gather (wrap : List V → V) (a n : Nat) (vs : List V) : List V :=
  vs.take a ++ wrap ((vs.drop a).take n) :: vs.drop (a + n)

/-- The scope behind the group: the fields of the group are one field. -/
def Env.outer (wrap : List V → V) (a n : Nat) (env : Env V) : Env V :=
  { env with fields := gather wrap a n env.fields }

/-- The field, without modifiers, whose type is the struct `N` (derive/src/jbytes/derive_struct.rs:80-103). -/
def groupField (wrap : List V → V) (unwrap : V → List V) (N : StructDef V) (x : V) : Field V where
  attrs := {}
  dec := fun ca fa => mapM' wrap (decStruct N ca fa)
  enc := fun v ca fa => encStruct N (unwrap v) ca fa
  dflt := x
  noneV := x

/-- `struct { A.., group: N, B.. }`. -/
def grouped (wrap : List V → V) (unwrap : V → List V) (c : Option CAttr) (names : List String) (A : List (Field V))
    (N : StructDef V) (B : List (Field V)) (x : V) : StructDef V where
  container := c
  getVars := names
  fields := A ++ groupField wrap unwrap N x :: B

/-- `struct { A.., the fields of N.., B.. }`. -/
def flat (wrap : List V → V) (c : Option CAttr) (names : List String) (A : List (Field V)) (N : StructDef V)
    (B : List (Field V)) : StructDef V where
  container := c
  getVars := names
  fields := A ++ (N.fields.map (Field.within (Env.inner A.length)) ++
    B.map (Field.within (Env.outer wrap A.length N.fields.length)))

/-- A struct with one field without modifiers (`struct Wrapper(T)`). -/
def wrapper (d : Dec V) (e : Enc V) (x : V) : StructDef V where
  fields := [{ attrs := {}, dec := d, enc := e, dflt := x, noneV := x }]

/-- The tuple `(K, V)`, src/decode/impls_tuple.rs:14-24, with its two types apart. -/
def decPair {α β : Type} (dk : Dec α) (dv : Dec β) : Dec (α × β) := fun ca fa => do
  let k ← dk ca fa
  let v ← dv ca fa
  return (k, v)

/-- The tuple `(K, V)`, src/encode/impls_tuple.rs:15-58, with its two types apart. -/
def encPair {α β : Type} (ek : Enc α) (ev : Enc β) : Enc (α × β) := fun e ca fa => do
  let n ← ek e.1 ca fa
  let m ← ev e.2 ca fa
  return n + m

end JBytes
