import Verif.Derive
import Verif.CodecSeq
import Verif.CodecAddr
/-!
# The types the derive macros can build

`Derivable` and `Encodable` are the types of the crate closed under its generic types and under derived structs and
enums: every type definition the properties C34 and C47 - C52 quantify over (without user-written codecs: `with`,
`with_decode`, `with_encode` and hand-written implementations are excluded; for recursive types see
Recursive.lean).

A definition may respect some limits on its modifiers (`Limits`), which the theorems ask for as they need them.
-/

namespace JBytes
open M

/-- Restrictions on the modifiers of a type definition (`false`: no restriction). -/
structure Limits where
  /-- No field or variant has `offset`. -/
  noOffset : Bool := false
  /-- Widths of counts, lengths and tags (`byte_count`, `byte_count_outside`) are at most 8, byte order expressions
  give 0 or 1, and 128-bit integers have no width of their own (see `wide`). -/
  narrow : Bool := false
  /-- With `narrow`: whether 128-bit integers occur (then every `length` is at most 8) or not. -/
  wide : Bool := false
  /-- No empty `loop_skip_starts`. -/
  prefixes : Bool := false
  /-- Nothing that depends on where the data ends: no `remaining`, `try_count`, `loop_skip_starts`, `Option`,
  `branch_starts_with`, and nothing put back with `untake`. -/
  standalone : Bool := false
  /-- Counts and tags are on the wire, on one byte or more: no `count`, `try_count` or `branch`, no width of 0. -/
  wired : Bool := false
  /-- Nothing is searched for: no `linend`, `linend_value`, `key` or `split`. -/
  searchless : Bool := false

/-- The modifiers passed to a codec respect the limits. -/
structure FaOk (L : Limits) (fr : FAttr) : Prop where
  byteCount : L.narrow = true → ∀ k, fr.byteCount = some k → k ≤ 8
  outside : L.narrow = true → ∀ k, fr.byteCountOutside = some k → k ≤ 8
  length : L.narrow = true → L.wide = true → ∀ n, fr.length = some n → n ≤ 8
  starts : L.prefixes = true → fr.loopSkipStarts ≠ some []
  remaining : L.standalone = true → fr.remaining = false
  tryCount : L.standalone = true → fr.tryCount = none
  loops : L.standalone = true → fr.loopSkipStarts = none
  wire : L.wired = true → fr.count = none ∧ fr.tryCount = none ∧ fr.branch = none ∧ fr.byteCount ≠ some 0 ∧
    fr.byteCountOutside ≠ some 0
  searches : L.searchless = true → fr.linend = false ∧ fr.linendValue = none ∧ fr.key = none ∧ fr.split = none

/-- The modifiers passed to a codec, if any, respect the limits. -/
def FaOk? (L : Limits) (fa : Option FAttr) : Prop := ∀ fr, fa = some fr → FaOk L fr

/-- The modifiers written on a field or variant respect the limits, whatever the fields before it hold. -/
structure AttrsOk {V : Type} (L : Limits) (a : FieldAttrs V) : Prop where
  custom : a.withDecode = none
  offset : L.noOffset = true → a.offset = none
  order : L.narrow = true → ∀ e env, a.byteorder = some (.expr e) → e env = 0 ∨ e env = 1
  untake : L.standalone = true → a.untake = false
  passed : ∀ o env, FaOk L (a.modifiers o env)

/-- The decoders of the crate and of derived types, built from those of `Γ` (the types being defined, when they are
recursive).  The number is the fuel of `while` loops (`decVec`). -/
inductive DerivableIn (L : Limits) (Γ : (α : Type) → (Nat → Dec α) → Prop) : (α : Type) → (Nat → Dec α) → Prop where
  | var {α : Type} {d : Nat → Dec α} : Γ α d → DerivableIn L Γ α d
  | int (k : IntKind) (h : L.narrow = true → L.wide = true ∨ k.size ≤ 8) : DerivableIn L Γ Nat (fun _ => decInt k)
  | f32 : DerivableIn L Γ Nat (fun _ => decF32)
  | f64 : DerivableIn L Γ Nat (fun _ => decF64)
  | bool : DerivableIn L Γ Bool (fun _ => decBool)
  | char : DerivableIn L Γ Nat (fun _ => decChar)
  | bytes : DerivableIn L Γ (List Byte) (fun _ => decBytes)
  | str : DerivableIn L Γ (List Byte) (fun _ => decStr)
  | ipv4 : DerivableIn L Γ (List Byte) (fun _ => decIpv4)
  | ipv6 : DerivableIn L Γ (List Byte) (fun _ => decIpv6)
  | ip : DerivableIn L Γ IpAddr (fun _ => decIpAddr)
  | mac : DerivableIn L Γ (List Byte) (fun _ => decMac)
  | net : DerivableIn L Γ NetAddr (fun _ => decNet)
  | unit : DerivableIn L Γ Unit (fun _ => decUnit)
  | vec {α : Type} {d : Nat → Dec α} : DerivableIn L Γ α d → DerivableIn L Γ (List α) (fun n => decVec n (d n))
  | array {α : Type} {d : Nat → Dec α} (k : Nat) : DerivableIn L Γ α d → DerivableIn L Γ (List α) (fun n => decArray k (d n))
  | tuple {α : Type} (ds : List (Nat → Dec α)) : (∀ d ∈ ds, DerivableIn L Γ α d) →
      DerivableIn L Γ (List α) (fun n => decTuple (ds.map (· n)))
  | option {α : Type} {d : Nat → Dec α} : L.standalone = false → DerivableIn L Γ α d →
      DerivableIn L Γ (Option α) (fun n => decOption (d n))
  | set {α : Type} [DecidableEq α] {d : Nat → Dec α} : DerivableIn L Γ α d → DerivableIn L Γ (List α) (fun n => decSet (d n))
  | map {α β : Type} [DecidableEq α] {dk : Nat → Dec α} {dv : Nat → Dec β} : DerivableIn L Γ α dk → DerivableIn L Γ β dv →
      DerivableIn L Γ (List (α × β)) (fun n => decMap (dk n) (dv n))
  /-- A type seen as a part of a sum type (the type of all field values of a struct). -/
  | inject {α β : Type} {d : Nat → Dec α} (f : α → β) : DerivableIn L Γ α d →
      DerivableIn L Γ β (fun n ca fa => do
        let a ← d n ca fa
        return f a)
  | struct {V : Type} (S : Nat → StructDef V) (ds : List (Nat → Dec V)) : (∀ d ∈ ds, DerivableIn L Γ V d) →
      (∀ n, (S n).withDecode = none) →
      (∀ n, ∀ f ∈ (S n).fields, AttrsOk L f.attrs ∧ ∃ d ∈ ds, f.dec = d n) →
      DerivableIn L Γ (List V) (fun n => decStruct (S n))
  | enum {V : Type} (E : Nat → EnumDef V) (ds : List (Nat → Dec V)) : (∀ d ∈ ds, DerivableIn L Γ V d) →
      (∀ n, (E n).withDecode = none) →
      (L.narrow = true → ∀ n c k, (E n).container = some c → c.byteCount = some k → k ≤ 8) →
      (L.standalone = true → ∀ n u, (E n).mode ≠ .startsWith u) →
      (∀ n, ∀ v ∈ (E n).variants, AttrsOk L v.attrs) →
      (∀ n, ∀ v ∈ (E n).variants, ∀ f ∈ v.fields, AttrsOk L f.attrs ∧ ∃ d ∈ ds, f.dec = d n) →
      DerivableIn L Γ (Nat × List V) (fun n => decEnum (E n))

/-- The decoders of the crate and of derived types that are not recursive. -/
abbrev Derivable (L : Limits) : (α : Type) → (Nat → Dec α) → Prop := DerivableIn L fun _ _ => False

/-- The bit-field rule: a codec is given `bits` only as the first member of a word. -/
def StartsWord (fa : Option FAttr) : Prop := ∀ fr, fa = some fr → fr.bits = none ∨ fr.bitsStart = true

/-- The modifiers of an encoded field or variant: no user-written codec, `bits` only with `bits_start`; no `offset`
if `flush`. -/
structure EncOk {V : Type} (flush : Bool) (a : FieldAttrs V) : Prop where
  custom : a.withEncode = none
  bits : a.bits = none ∨ a.bitsStart = true
  offset : flush = true → a.offset = none

/-- The encoders of the crate and of derived types. -/
inductive Encodable (flush : Bool) : (α : Type) → Enc α → Prop where
  /-- No stack left (see `encRec`). -/
  | stop {α : Type} : Encodable flush α (fun _ _ _ => timeout)
  | int (k : IntKind) : Encodable flush Nat (encInt k)
  | f32 : Encodable flush Nat encF32
  | f64 : Encodable flush Nat encF64
  | bool : Encodable flush Bool encBool
  | char : Encodable flush Nat encChar
  | bytes : Encodable flush (List Byte) encBytes
  | ip : Encodable flush (List Byte) encIp
  | ipAddr : Encodable flush IpAddr encIpAddr
  | mac : Encodable flush (List Byte) encMac
  | net : Encodable flush NetAddr encNet
  | unit : Encodable flush Unit encUnit
  | vec {α : Type} {e : Enc α} : Encodable flush α e → Encodable flush (List α) (encVec e)
  | array {α : Type} {e : Enc α} : Encodable flush α e → Encodable flush (List α) (encArray e)
  | tuple {α : Type} (es : List (Enc α)) : (∀ e ∈ es, Encodable flush α e) → Encodable flush (List α) (encTuple es)
  | option {α : Type} {e : Enc α} : Encodable flush α e → Encodable flush (Option α) (encOption e)
  | map {α β : Type} {ek : Enc α} {ev : Enc β} : Encodable flush α ek → Encodable flush β ev →
      Encodable flush (List (α × β)) (encMap ek ev)
  /-- A type seen as a part of a sum type: `g v` is the value of this type, if `v` is one. -/
  | project {α β : Type} {e : Enc α} (g : β → Option α) : Encodable flush α e →
      Encodable flush β (fun v ca fa => encOption e (g v) ca fa)
  | struct {V : Type} (S : StructDef V) : S.withEncode = none →
      (∀ f ∈ S.fields, EncOk flush f.attrs) → (∀ f ∈ S.fields, Encodable flush V f.enc) →
      Encodable flush (List V) (encStruct S)
  | enum {V : Type} (E : EnumDef V) : (∀ v ∈ E.variants, EncOk flush v.attrs) →
      (∀ v ∈ E.variants, ∀ f ∈ v.fields, EncOk flush f.attrs) →
      (∀ v ∈ E.variants, ∀ f ∈ v.fields, Encodable flush V f.enc) →
      Encodable flush (Nat × List V) (encEnum E)

end JBytes
