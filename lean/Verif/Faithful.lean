import Verif.PropStructRT
import Verif.PropEnum
import Verif.PropAddr
import Verif.Universe
/-!
# Types whose decoders lose nothing

`Faithful A α d e`: `d` and `e` are the decoder and the encoder of a type built from the codecs of the crate and derived
structs and enums for which decoding forgets nothing about the bytes it consumes, when the type is given modifiers in
`A`.  Left out are the constructions that accept several encodings of one value (`bool`, sets and maps, `key`, `split`,
line ends, `try_count`, `bits`, `offset`, ranges and default variants) and those that transform values
(`value_decode`, `from_str`, ...).
-/

namespace JBytes
open M

variable {α β V : Type}

/-- The modifiers of a field that is read and written in the same way. -/
structure SameWay (a : FieldAttrs V) : Prop where
  withDecode : a.withDecode = none
  withEncode : a.withEncode = none
  offset : a.offset = none
  fromStr : a.fromStr = none
  valueDecode : a.valueDecode = none
  valueEncode : a.valueEncode = none
  bits : a.bits = none
  variables : a.variableName = none
  skips : a.skip = true ∨ a.skipDecode = a.skipEncode

/-- A variant that is selected by its number only: an explicit discriminant or `branch_value` (the same if both are
given), or its position. -/
structure Numbered (v : Variant V) : Prop where
  dflt : v.branchDefault = false
  bits : v.branchBits = none
  range : v.branchRange = none
  value : ∀ m, v.branchValue = some (.num m) → v.disc = none ∨ v.disc = some m

/-- How the tag of a faithful enum is found. -/
def TagsFaithful (E : EnumDef V) (A : Option FAttr → Prop) : Prop :=
  match E.mode with
  | .startsWith u => u = true ∨ ∀ v ∈ E.variants, v.branchDefault = false
  | .takeBytes _ => ∀ v ∈ E.variants, v.branchDefault = false
  | .uint => E.byteCountDisable = false ∧ (∀ v ∈ E.variants, Numbered v) ∧
      ∀ fr, A (some fr) → fr.byteCount = none ∨ E.container.bind (·.byteCount) = none

/-- The modifiers `f` passes to the codec of its type are in `A`, and `None` is written as nothing. -/
structure Passes (A : Option FAttr → Prop) (f : Field V) : Prop where
  unset : A none
  given : ∀ o env, A (some (f.attrs.modifiers o env))
  absent : f.attrs.ifExpr = none ∨ ∀ ca fa, A fa → Appends (f.enc f.noneV ca fa) []

inductive Faithful : (Option FAttr → Prop) → (α : Type) → Dec α → Enc α → Prop where
  /-- No stack left (see `decRec`, `encRec`). -/
  | stop {A : Option FAttr → Prop} {α : Type} : Faithful A α (fun _ _ => timeout) (fun _ _ _ => timeout)
  | int {A : Option FAttr → Prop} (k : IntKind) : k.Valid → (∀ fr, A (some fr) → fr.bits = none) →
      Faithful A Nat (decInt k) (encInt k)
  | f32 {A : Option FAttr → Prop} : Faithful A Nat decF32 encF32
  | f64 {A : Option FAttr → Prop} : Faithful A Nat decF64 encF64
  | char {A : Option FAttr → Prop} : Faithful A Nat decChar encChar
  | bytes {A : Option FAttr → Prop} :
      (∀ fr, A (some fr) → fr.key = none ∧ fr.split = none ∧ fr.linend = false) →
      Faithful A (List Byte) decBytes encBytes
  | str {A : Option FAttr → Prop} :
      (∀ fr, A (some fr) → fr.key = none ∧ fr.split = none ∧ fr.linend = false) →
      Faithful A (List Byte) decStr encBytes
  | ipv4 {A : Option FAttr → Prop} : Faithful A (List Byte) decIpv4 encIp
  | ipv6 {A : Option FAttr → Prop} : Faithful A (List Byte) decIpv6 encIp
  | ip {A : Option FAttr → Prop} : Faithful A IpAddr decIpAddr encIpAddr
  | mac {A : Option FAttr → Prop} : Faithful A (List Byte) decMac encMac
  | net {A : Option FAttr → Prop} : (∀ fr, A (some fr) → fr.bits = none) → Faithful A NetAddr decNet encNet
  | unit {A : Option FAttr → Prop} : Faithful A Unit decUnit encUnit
  | vec {A : Option FAttr → Prop} {α : Type} {d : Dec α} {e : Enc α} (fuel : Nat) :
      (∀ fr, A (some fr) → fr.tryCount = none ∧ (fr.count = none ∨ fr.byteCountOutside = none)) →
      Faithful A α d e → Faithful A (List α) (decVec fuel d) (encVec e)
  | array {A : Option FAttr → Prop} {α : Type} {d : Dec α} {e : Enc α} (k : Nat) :
      Faithful A α d e → Faithful A (List α) (decArray k d) (encArray e)
  | tuple {A : Option FAttr → Prop} {α : Type} (cs : List (Dec α × Enc α)) : (∀ c ∈ cs, Faithful A α c.1 c.2) →
      Faithful A (List α) (decTuple (cs.map (·.1))) (encTuple (cs.map (·.2)))
  | option {A : Option FAttr → Prop} {α : Type} {d : Dec α} {e : Enc α} :
      (∀ ca fa, A fa → Restores (d ca fa)) → Faithful A α d e → Faithful A (Option α) (decOption d) (encOption e)
  /-- A type seen as a part of a sum type. -/
  | inject {A : Option FAttr → Prop} {α β : Type} {d : Dec α} {e : Enc α} (f : α → β) (g : β → Option α) :
      (∀ a, g (f a) = some a) → Faithful A α d e →
      Faithful A β (fun ca fa => do
        let a ← d ca fa
        return f a) (fun v ca fa => encOption e (g v) ca fa)
  | struct {A : Option FAttr → Prop} {V : Type} (S : StructDef V) (As : Field V → Option FAttr → Prop) :
      S.withDecode = none → S.withEncode = none →
      (S.tuple = true → ∀ f ∈ S.fields, f.attrs.isUse = true) →
      (∀ f ∈ S.fields, SameWay f.attrs) → (∀ f ∈ S.fields, Passes (As f) f) →
      (∀ f ∈ S.fields, Faithful (As f) V f.dec f.enc) →
      Faithful A (List V) (decStruct S) (encStruct S)
  | enum {A : Option FAttr → Prop} {V : Type} (E : EnumDef V) (As : Field V → Option FAttr → Prop) :
      E.withDecode = none → TagsFaithful E A →
      (∀ v ∈ E.variants, v.attrs.isUse = false ∧ v.attrs.offset = none) →
      (∀ v ∈ E.variants, NoLeak none v.fields) →
      (∀ v ∈ E.variants, ∀ f ∈ v.fields, SameWay f.attrs) → (∀ v ∈ E.variants, ∀ f ∈ v.fields, Passes (As f) f) →
      (∀ v ∈ E.variants, ∀ f ∈ v.fields, Faithful (As f) V f.dec f.enc) →
      Faithful A (Nat × List V) (decEnum E) (encEnum E)

end JBytes
