import Verif.MutRead
import Verif.Universe
/-!
# The codecs over an arbitrary implementation of `BufRead` and `BufWrite`

`decode_inner<T: BufRead>(input: &T, ..)` and `encode_inner<T: BufRead + BufWrite>(.., buffer: &mut T, ..)` are generic:
they only call methods of the two traits, every one of which an implementation may provide itself.  `Io` is the set of
the methods they call; the other functions are those of `CodecInt`, `CodecBytes`, `CodecAddr`, `CodecSeq` and `Derive`
with these methods in place of the ones of `Bytes` and `Buffer` (C93 proves that with those they are the same functions).
The record also holds what depends on the platform and the profile: the width of `usize`, the cast to it, and the
subtraction.

User-written codecs (`with`, `with_decode`, `with_encode`) are left out.
-/

namespace JBytes

/-- An implementation of `BufRead` and `BufWrite` (src/buf_traits.rs:11-1993) with states `σ`: the methods codecs call. -/
structure Io (σ : Type) where
  /-- `get_position`. -/
  pos : MS σ Nat
  /-- `set_position`. -/
  setPos : Nat → MS σ Unit
  advance : Nat → MS σ Unit
  remaining : MS σ (List Byte)
  takeBytes : Nat → MS σ (List Byte)
  takeBytesStarts : List Byte → MS σ Unit
  takeU8 : MS σ Byte
  takeBool : MS σ Bool
  takeChar : MS σ Nat
  /-- `take_byteorder_X`. -/
  takeScalar : Scalar → ByteOrder → MS σ Nat
  /-- `take_byteorder_uint`. -/
  takeUint : Nat → ByteOrder → MS σ Nat
  findSubsequence : List Byte → MS σ (List Byte)
  findSubsequenceNeedle : List Byte → Bool → MS σ (List Byte)
  findSubsequences : List (List Byte) → MS σ (List Byte)
  push : List Byte → MS σ Nat
  pushByteorderArray : List Byte → ByteOrder → MS σ Nat
  pushU8 : Byte → MS σ Nat
  pushBool : Bool → MS σ Nat
  pushChar : Nat → MS σ Nat
  /-- `push_byteorder_X`. -/
  pushScalar : Scalar → Nat → ByteOrder → MS σ Nat
  /-- `push_byteorder_uint`. -/
  pushUint : Nat → Nat → ByteOrder → MS σ Nat
  /-- `as usize` on a `u64`. -/
  asUsize : Nat → Nat
  /-- `size_of::<usize>()`. -/
  word : Nat
  /-- `a - b` on `usize`. -/
  sub : Nat → Nat → MS σ Nat

/-- `decode_inner` at a reader with states `σ`. -/
abbrev DecS (σ α : Type) : Type := Option CAttr → Option FAttr → MS σ α

/-- `encode_inner` at a writer with states `σ`. -/
abbrev EncS (σ α : Type) : Type := α → Option CAttr → Option FAttr → MS σ Nat

namespace MS
variable {σ α : Type}

/-- A Rust panic. -/
def panic : MS σ α := fun s => (.panic, s)

/-- Out of fuel. -/
def timeout : MS σ α := fun s => (.timeout, s)

/-- Run `m`, turning `Err` into `None`; panics go through. -/
def attempt (m : MS σ α) : MS σ (Option α) := fun s =>
  match m s with
  | (.ok a, s') => (.ok (some a), s')
  | (.err _, s') => (.ok none, s')
  | (.panic, s') => (.panic, s')
  | (.timeout, s') => (.timeout, s')

/-- `Err(make_error(p, c))`. -/
def failAt (p : Nat) (c : ErrCode) : MS σ α := fun s => (.err ⟨p, c⟩, s)

/-- Run the element decoder `n` times (src/decode/impls_vec.rs:41-43, impls_array.rs:15-20). -/
def repeatM (m : MS σ α) : Nat → MS σ (List α)
  | 0 => return []
  | n + 1 => do
    let a ← m
    let as ← repeatM m n
    return a :: as

/-- Run the element decoder up to `n` times, stopping at the first error (src/decode/impls_vec.rs:33-38). -/
def tryRepeatM (m : MS σ α) : Nat → MS σ (List α)
  | 0 => return []
  | n + 1 => do
    match ← attempt m with
    | some a => do
      let as ← tryRepeatM m n
      return a :: as
    | none => return []

/-- `for value in self { r_nbytes += value.encode_inner(..)? }`. -/
def encAll (e : α → MS σ Nat) : List α → MS σ Nat
  | [] => return 0
  | a :: as => do
    let n ← e a
    let m ← encAll e as
    return n + m

end MS

namespace Io
variable {σ α β V : Type} (I : Io σ)

/-- `Err(make_error(input.get_position(), c))`. -/
def fail (c : ErrCode) : MS σ α := do
  let p ← I.pos
  MS.failAt p c

/-- The word of an integer, src/decode/impls_int.rs:20-33; `sc` names the method of the type. -/
def decWord (k : IntKind) (sc : Scalar) (o : ByteOrder) (length : Option Nat) : MS σ Nat :=
  match length with
  | some n =>
    if k.size < n then I.fail .invalidByteLength
    else do
      let v ← I.takeUint n o
      return fromU64 k v
  | none => I.takeScalar sc o

/-- `impls_int_decode!(type, method)`, src/decode/impls_int.rs:15-50. -/
def decIntAs (k : IntKind) (sc : Scalar) : DecS σ Nat := fun ca fa => do
  let v ← I.decWord k sc (getByteorder ca fa) (fa.bind (·.length))
  match fa.bind (·.bits) with
  | some m => return bitsShr k (8 * k.size) (v &&& fromU64 k m) (fromU64 k m)
  | none => return v

/-- Integers of a fixed width, src/decode/impls_int.rs:65-68, 70-75, 77. -/
def decInt (k : IntKind) : DecS σ Nat := I.decIntAs k k.scalar

/-- `usize` and `isize`, src/decode/impls_int.rs:69, 76. -/
def decUsize (signed : Bool) : DecS σ Nat := I.decIntAs ⟨I.word, signed⟩ (if signed then .isize else .usize)

/-- `f32`, src/decode/impls_float.rs:9-20. -/
def decF32 : DecS σ Nat := fun ca fa => I.takeScalar .f32 (getByteorder ca fa)

/-- `f64`, src/decode/impls_float.rs:36-47. -/
def decF64 : DecS σ Nat := fun ca fa => I.takeScalar .f64 (getByteorder ca fa)

/-- `bool`, src/decode/impls_bool.rs:8-17. -/
def decBool : DecS σ Bool := fun _ _ => I.takeBool

/-- `char`, src/decode/impls_char.rs:8-17. -/
def decChar : DecS σ Nat := fun _ _ => I.takeChar

/-- `key` and `split`, src/decode/impls_bytes.rs:15-22. -/
def skipNeedle : Option (List Byte) → MS σ Unit
  | none => return ()
  | some x => do
    let _ ← I.findSubsequenceNeedle x true
    return ()

/-- `input.take_bytes(input.take_u8()? as usize)?`, src/decode/impls_bytes.rs:40, 44. -/
def takePrefixed : MS σ (List Byte) := do
  let n ← I.takeU8
  I.takeBytes n.toNat

/-- Byte strings, src/decode/impls_bytes.rs:10-48. -/
def decBytes : DecS σ (List Byte) := fun ca fa =>
  match fa with
  | none => I.takePrefixed
  | some fr => do
    I.skipNeedle fr.key
    I.skipNeedle fr.split
    match fr.length with
    | some n => I.takeBytes n
    | none =>
      match fr.byteCount with
      | some k => do
        let n ← I.takeUint k (getByteorder ca fa)
        I.takeBytes (I.asUsize n)
      | none =>
        if fr.linend then I.findSubsequences lineNeedles
        else
          match fr.linendValue with
          | some x => I.findSubsequence x
          | none =>
            if fr.remaining then do
              let r ← I.remaining
              I.takeBytes r.length
            else I.takePrefixed

/-- `String`, `&str`, src/decode/impls_string.rs:11-57. -/
def decStr : DecS σ (List Byte) := fun ca fa => do
  let v ← I.decBytes ca fa
  if utf8Valid v then return v else I.fail .fail

/-- `Ipv4Addr`, src/decode/impls_ipaddress.rs:11-19. -/
def decIpv4 : DecS σ (List Byte) := fun ca fa => do
  let v ← I.takeScalar .u32 (getByteorder ca fa)
  return toBE 4 v

/-- `Ipv6Addr`, src/decode/impls_ipaddress.rs:33-41. -/
def decIpv6 : DecS σ (List Byte) := fun ca fa => do
  let v ← I.takeScalar .u128 (getByteorder ca fa)
  return toBE 16 v

/-- `IpAddr`, src/decode/impls_ipaddress.rs:55-74. -/
def decIpAddr : DecS σ IpAddr := fun ca fa =>
  match fa.bind (·.length) with
  | some n =>
    if n = 16 then do
      let v ← I.decIpv6 ca fa
      return .v6 v
    else if n = 4 then do
      let v ← I.decIpv4 ca fa
      return .v4 v
    else I.fail .fail
  | none => I.fail .fail

/-- `MacAddress`, src/decode/impls_macaddress.rs:11-19. -/
def decMac : DecS σ (List Byte) := fun ca fa => do
  let v ← I.takeUint 6 (getByteorder ca fa)
  return macFromBits v

/-- `NetAddress`, src/decode/impls_netaddress.rs:11-39. -/
def decNet : DecS σ NetAddr := fun ca fa =>
  match fa.bind (·.length) with
  | some n =>
    if n = 0 then I.fail .fail
    else if n = 4 then do
      let v ← I.decIpv4 ca fa
      return .v4 v
    else if n = 6 then do
      let v ← I.decMac ca fa
      return .mac v
    else if n = 16 then do
      let v ← I.decIpv6 ca fa
      return .v6 v
    else do
      let v ← I.decUsize false ca fa
      return .usize v
  | none => I.fail .fail

/-- `Mark`, src/decode/impls_mark.rs:9-18, and `PhantomData`, src/decode/impls_other.rs:9-18. -/
def decUnit (_ : Io σ) : DecS σ Unit := fun _ _ => return ()

/-- The `while` loop of src/decode/impls_vec.rs:22-28, with `fuel` iterations allowed. -/
def whileStarts (p : List Byte) (m : MS σ α) : Nat → MS σ (List α)
  | 0 => MS.timeout
  | fuel + 1 => do
    match ← MS.attempt (I.takeBytesStarts p) with
    | some _ => do
      let a ← m
      let as ← whileStarts p m fuel
      return a :: as
    | none => return []

/-- `get_count_and_try_count`, src/decode/mod.rs:108-132. -/
def getCount (ca : Option CAttr) (fa : Option FAttr) : MS σ (Nat × Option Nat) :=
  match fa with
  | none => do
    let n ← I.takeU8
    return (n.toNat, none)
  | some fr =>
    match fr.count with
    | some n => return (n, none)
    | none =>
      match fr.tryCount with
      | some n => return (0, some n)
      | none =>
        match fr.byteCountOutside with
        | some k => do
          let n ← I.takeUint k (getByteorder ca fa)
          return (I.asUsize n, none)
        | none => do
          let n ← I.takeU8
          return (n.toNat, none)

/-- A counted sequence of `m`, src/decode/impls_vec.rs:30-46, impls_hashset.rs:23-39, impls_hashmap.rs:24, 54-70. -/
def counted (m : MS σ α) (ca : Option CAttr) (fa : Option FAttr) : MS σ (List α) := do
  let (n, t) ← I.getCount ca fa
  match t with
  | some t => MS.tryRepeatM m t
  | none => MS.repeatM m n

/-- `Vec<T>`, src/decode/impls_vec.rs:11-48. -/
def decVec (fuel : Nat) (d : DecS σ α) : DecS σ (List α) := fun ca fa =>
  match fa.bind (·.loopSkipStarts) with
  | some p => I.whileStarts p (d ca fa) fuel
  | none => I.counted (d ca fa) ca fa

/-- `[T; N]`, src/decode/impls_array.rs:9-26. -/
def decArray (_ : Io σ) (n : Nat) (d : DecS σ α) : DecS σ (List α) := fun ca fa => MS.repeatM (d ca fa) n

/-- Tuples, src/decode/impls_tuple.rs:14-24. -/
def decTuple (I : Io σ) : List (DecS σ α) → DecS σ (List α)
  | [], _, _ => return []
  | d :: ds, ca, fa => do
    let a ← d ca fa
    let as ← decTuple I ds ca fa
    return a :: as

/-- `Option<T>`, src/decode/impls_option.rs:8-31. -/
def decOption (_ : Io σ) (d : DecS σ α) : DecS σ (Option α) := fun ca fa =>
  if fa.bind (·.length) = some 0 then return none
  else MS.attempt (d ca fa)

/-- `HashSet<T>`, src/decode/impls_hashset.rs:14-41. -/
def decSet [DecidableEq α] (d : DecS σ α) : DecS σ (List α) := fun ca fa => do
  let l ← I.counted (d ca fa) ca fa
  return l.foldl setInsert []

/-- One key followed by one value, src/decode/impls_hashmap.rs:54-70. -/
def decEntry (_ : Io σ) (dk : DecS σ α) (dv : DecS σ β) (ca : Option CAttr) (fa : Option FAttr) : MS σ (α × β) := do
  let k ← dk ca (keyFattr fa)
  let v ← dv ca (valFattr fa)
  return (k, v)

/-- `HashMap<K, V>`, src/decode/impls_hashmap.rs:14-74. -/
def decMap [DecidableEq α] (dk : DecS σ α) (dv : DecS σ β) : DecS σ (List (α × β)) := fun ca fa => do
  let l ← I.counted (I.decEntry dk dv ca fa) ca fa
  return l.foldl mapInsert []

/-- The byte order of a field, derive/src/jbytes/parse.rs:126-136. -/
def orderCode (_ : Io σ) (o : Option (OrderAttr V)) (env : Env V) : MS σ (Option ByteOrder) :=
  match o with
  | none => return none
  | some (.lit o) => return some o
  | some (.expr e) =>
    if e env = 0 then return some .be
    else if e env = 1 then return some .le
    else MS.panic

/-- The modifiers passed to a field, derive/src/jbytes/attribute.rs:184-224. -/
def toCode (a : FieldAttrs V) (env : Env V) : MS σ (Option FAttr) :=
  if a.isUse && a.anySet then do
    let o ← I.orderCode a.byteorder env
    return some (a.modifiers o env)
  else return none

/-- `input.advance((offset) as usize)`, derive/src/jbytes/decode.rs:8-15. -/
def skipOffset (a : FieldAttrs V) (env : Env V) : MS σ Unit :=
  match a.offset with
  | some e => I.advance (e env)
  | none => return ()

end Io

/-- A field with the codec of its type at a state type. -/
structure FieldS (σ V : Type) where
  attrs : FieldAttrs V
  dec : DecS σ V
  enc : EncS σ V
  dflt : V
  noneV : V

namespace Io
variable {σ α β V : Type} (I : Io σ)

/-- `value_decode` and `check_value`, derive/src/jbytes/decode.rs:70-80. -/
def finishValue (a : FieldAttrs V) (env : Env V) (v : V) : MS σ V :=
  let v' := match a.valueDecode with
    | some g => g env v
    | none => v
  match a.checkValue with
  | some c => if c env v' then return v' else I.fail .invalidValue
  | none => return v'

/-- `if_expr`, derive/src/jbytes/decode.rs:57-64. -/
def decCond (_ : Io σ) (f : FieldS σ V) (env : Env V) : DecS σ V := fun ca fa =>
  match f.attrs.ifExpr with
  | some c => if c env then f.dec ca fa else return f.noneV
  | none => f.dec ca fa

/-- The plain path of derive/src/jbytes/decode.rs:51-81. -/
def decPlain (f : FieldS σ V) (env : Env V) : DecS σ V := fun ca fa => do
  let p ← I.pos
  let v ← I.decCond f env ca fa
  if f.attrs.untake then do
    I.setPos p
    I.finishValue f.attrs env v
  else I.finishValue f.attrs env v

/-- `generate_decode_body`, derive/src/jbytes/decode.rs:18-81 (without `with_decode`). -/
def decField (f : FieldS σ V) (env : Env V) : DecS σ V := fun ca fa => do
  I.skipOffset f.attrs env
  if f.attrs.skip || f.attrs.skipDecode then return f.dflt
  else
    match f.attrs.fromStr with
    | some ps => do
      let s ← I.decStr ca fa
      match ps.1 s with
      | some v => return v
      | none => I.fail .fail
    | none => I.decPlain f env ca fa

/-- `generate_decode_struct_body`, derive/src/jbytes/derive_struct.rs:80-103. -/
def decFields (I : Io σ) (keep : Bool) : List (FieldS σ V) → Option CAttr → Option FAttr → Env V → MS σ (List V)
  | [], _, _, _ => return []
  | f :: fs, ca, old, env => do
    let fa ← (if keep && !f.attrs.isUse then Pure.pure old else I.toCode f.attrs env)
    let v ← I.decField f env ca fa
    let vs ← decFields I keep fs (cacheVars f.attrs ca (env.push v)) fa (env.push v)
    return v :: vs

end Io

/-- A derived struct at a state type: `base` without its fields, and the fields. -/
structure StructS (σ V : Type) where
  base : StructDef V
  fields : List (FieldS σ V)

/-- A derived enum at a state type: `base` without the fields of its variants, and the fields of each. -/
structure EnumS (σ V : Type) where
  base : EnumDef V
  arms : Nat → List (FieldS σ V)

namespace Io
variable {σ α β V : Type} (I : Io σ)

/-- The decoder of a derived struct, derive/src/jbytes/derive_struct.rs:164-195. -/
def decStruct (S : StructS σ V) : DecS σ (List V) := fun ca _ =>
  I.decFields S.base.tuple S.fields S.base.container none { vars := localVars S.base.getVars ca }

/-- The integer tag, derive/src/jbytes/derive_enum.rs:273-297 (`as usize` at 282, 285, 292). -/
def decTag (own ca : Option CAttr) (fa : Option FAttr) : MS σ Nat :=
  match fa with
  | some fr =>
    match fr.branch with
    | some n => return n
    | none =>
      match fr.byteCount with
      | some k => do
        let n ← I.takeUint k (getByteorder ca fa)
        return I.asUsize n
      | none =>
        match own.bind (·.byteCount) with
        | some k => do
          let n ← I.takeUint k (getByteorder ca fa)
          return I.asUsize n
        | none => do
          let x ← I.takeU8
          return x.toNat
  | none =>
    match own.bind (·.byteCount) with
    | some k => do
      let n ← I.takeUint k (getByteorder ca fa)
      return I.asUsize n
    | none => do
      let x ← I.takeU8
      return x.toNat

/-- The body of an arm, derive/src/jbytes/derive_enum.rs:199-202, 339-342. -/
def decVariant (own : Option CAttr) (env : Env V) (i : Nat) (v : Variant V) (fs : List (FieldS σ V)) :
    MS σ (Nat × List V) := do
  let fa ← I.toCode v.attrs env
  I.skipOffset v.attrs env
  let vs ← I.decFields v.tuple fs own fa env
  return (i, vs)

/-- `match value {..}` with the error arm, derive/src/jbytes/derive_enum.rs:301-352. -/
def decArm (E : EnumS σ V) (env : Env V) (t : Tag) : MS σ (Nat × List V) :=
  match findArm t 0 (E.base.variants.zip E.base.numbers) with
  | some (i, v) => I.decVariant E.base.container env i v (E.arms i)
  | none => I.fail .invalidByteLength

/-- The decoder of a derived enum, derive/src/jbytes/derive_enum.rs:85-355. -/
def decEnum (E : EnumS σ V) : DecS σ (Nat × List V) := fun ca fa =>
  let env : Env V := { vars := localVars E.base.getVars ca }
  match E.base.mode with
  | .startsWith untake => do
    let data ← I.remaining
    match findWord data 0 E.base.variants with
    | some (i, v) =>
      if untake || v.branchDefault then I.decVariant E.base.container env i v (E.arms i)
      else do
        I.advance v.word.length
        I.decVariant E.base.container env i v (E.arms i)
    | none => I.fail .fail
  | .takeBytes n => do
    let x ← I.takeBytes n
    I.decArm E env (.bytes x)
  | .uint => do
    let n ← I.decTag E.base.container ca fa
    I.decArm E env (.num n)

/-- The `bits` part of src/encode/impls_int.rs:21-40. -/
def encBits (k : IntKind) (v : Nat) (o : ByteOrder) (fa : Option FAttr) : MS σ Nat :=
  match fa with
  | none => return v
  | some fr =>
    match fr.bits with
    | none => return v
    | some m =>
      let v := bitsShl k (8 * k.size) v (fromU64 k m)
      if fr.bitsStart then return v
      else do
        let p ← I.pos
        let q ← I.sub p k.size
        I.setPos q
        let prev ← I.takeUint k.size o
        let p ← I.pos
        let q ← I.sub p k.size
        I.setPos q
        return (v ||| fromU64 k prev)

/-- `impls_int_encode!(type, method)`, src/encode/impls_int.rs:15-54. -/
def encIntAs (k : IntKind) (sc : Scalar) : EncS σ Nat := fun v ca fa => do
  let o := getByteorder ca fa
  let v ← I.encBits k v o fa
  match fa.bind (·.length) with
  | some n =>
    if k.size < n then I.fail .invalidByteLength
    else I.pushUint (asU64 k v) n o
  | none => I.pushScalar sc v o

/-- Integers of a fixed width, src/encode/impls_int.rs:69-72, 74-79, 81. -/
def encInt (k : IntKind) : EncS σ Nat := I.encIntAs k k.scalar

/-- `usize` and `isize`, src/encode/impls_int.rs:73, 80. -/
def encUsize (signed : Bool) : EncS σ Nat := I.encIntAs ⟨I.word, signed⟩ (if signed then .isize else .usize)

/-- `f32`, src/encode/impls_float.rs:9-20. -/
def encF32 : EncS σ Nat := fun v ca fa => I.pushScalar .f32 v (getByteorder ca fa)

/-- `f64`, src/encode/impls_float.rs:32-43. -/
def encF64 : EncS σ Nat := fun v ca fa => I.pushScalar .f64 v (getByteorder ca fa)

/-- `bool`, src/encode/impls_bool.rs:8-15. -/
def encBool : EncS σ Bool := fun v _ _ => I.pushBool v

/-- `char`, src/encode/impls_char.rs:8-15. -/
def encChar : EncS σ Nat := fun v _ _ => I.pushChar v

/-- `if let Some(x) = o { r_nbytes += buffer.push(x)?; }`, src/encode/impls_bytes.rs:16-22, 48-50. -/
def pushOpt : Option (List Byte) → MS σ Nat
  | none => return 0
  | some x => I.push x

/-- The length prefix, src/encode/impls_bytes.rs:24-44. -/
def encBytesPrefix (ca : Option CAttr) (fa : Option FAttr) (len : Nat) : MS σ Nat :=
  match fa with
  | none => I.pushU8 (UInt8.ofNat len)
  | some fr =>
    match fr.length with
    | some _ => return 0
    | none =>
      match fr.byteCount with
      | some k => I.pushUint len k (getByteorder ca fa)
      | none =>
        if fr.linend then return 0
        else if fr.linendValue.isSome then return 0
        else if fr.remaining then return 0
        else I.pushU8 (UInt8.ofNat len)

/-- Byte strings, src/encode/impls_bytes.rs:10-53. -/
def encBytes : EncS σ (List Byte) := fun d ca fa => do
  let n1 ← I.pushOpt (fa.bind (·.key))
  let n2 ← I.pushOpt (fa.bind (·.split))
  let n3 ← I.encBytesPrefix ca fa d.length
  let n4 ← I.push d
  let n5 ← I.pushOpt (encBytesEnd fa)
  return (n1 + n2 + n3 + n4 + n5)

/-- `Ipv4Addr` and `Ipv6Addr`, src/encode/impls_ipaddress.rs:9-33. -/
def encIp : EncS σ (List Byte) := fun v ca fa => I.pushByteorderArray v (getByteorder ca fa)

/-- `IpAddr`, src/encode/impls_ipaddress.rs:45-54. -/
def encIpAddr : EncS σ IpAddr := fun v ca fa =>
  match v with
  | .v4 o => I.encIp o ca fa
  | .v6 o => I.encIp o ca fa

/-- `MacAddress`, src/encode/impls_macaddress.rs:9-15. -/
def encMac : EncS σ (List Byte) := fun v ca fa => I.pushUint (macToBits v) 6 (getByteorder ca fa)

/-- `NetAddress`, src/encode/impls_netaddress.rs:8-33. -/
def encNet : EncS σ NetAddr := fun v ca fa =>
  match v with
  | .v4 o => I.encIp o ca fa
  | .v6 o => I.encIp o ca fa
  | .mac o => I.encMac o ca fa
  | .usize n => I.encUsize false n ca fa

/-- `Mark`, src/encode/impls_mark.rs:9-15, and `PhantomData`, src/encode/impls_other.rs:9-15. -/
def encUnit (_ : Io σ) : EncS σ Unit := fun _ _ _ => return 0

/-- `push_count_and_try_count`, src/encode/mod.rs:91-109. -/
def pushCount (ca : Option CAttr) (fa : Option FAttr) (n : Nat) : MS σ Nat :=
  match fa with
  | none => I.pushU8 (UInt8.ofNat n)
  | some fr =>
    match fr.byteCountOutside with
    | some k => I.pushUint n k (getByteorder ca fa)
    | none =>
      if fr.count.isSome then return 0
      else if fr.tryCount.isSome then return 0
      else I.pushU8 (UInt8.ofNat n)

/-- `Vec<T>`, src/encode/impls_vec.rs:11-33. -/
def encVec (e : EncS σ α) : EncS σ (List α) := fun l ca fa =>
  match fa.bind (·.loopSkipStarts) with
  | some p => MS.encAll (fun a => do
      let n ← I.push p
      let m ← e a ca fa
      return n + m) l
  | none => do
    let n ← I.pushCount ca fa l.length
    let m ← MS.encAll (fun a => e a ca fa) l
    return n + m

/-- `[T; N]`, src/encode/impls_array.rs:8-20. -/
def encArray (_ : Io σ) (e : EncS σ α) : EncS σ (List α) := fun l ca fa => MS.encAll (fun a => e a ca fa) l

/-- Tuples, src/encode/impls_tuple.rs:15-58. -/
def encTuple (I : Io σ) : List (EncS σ α) → EncS σ (List α)
  | e :: es, a :: as, ca, fa => do
    let n ← e a ca fa
    let m ← encTuple I es as ca fa
    return n + m
  | _, _, _, _ => return 0

/-- `Option<T>`, src/encode/impls_option.rs:8-18. -/
def encOption (_ : Io σ) (e : EncS σ α) : EncS σ (Option α) := fun o ca fa =>
  match o with
  | some a => e a ca fa
  | none => return 0

/-- `HashMap<K, V>`, src/encode/impls_hashmap.rs:11-57. -/
def encMap (ek : EncS σ α) (ev : EncS σ β) : EncS σ (List (α × β)) := fun l ca fa => do
  let n ← I.pushCount ca fa l.length
  let m ← MS.encAll (fun e => do
      let a ← ek e.1 ca (keyFattr fa)
      let b ← ev e.2 ca (valFattr fa)
      return a + b) l
  return n + m

/-- `for i in 0..offset { buffer.push_u8(full)?; }`, derive/src/jbytes/encode.rs:7-18. -/
def padLoop (x : Byte) : Nat → MS σ Unit
  | 0 => return ()
  | n + 1 => do
    let _ ← I.pushU8 x
    padLoop x n

/-- `generate_encode_body2`, derive/src/jbytes/encode.rs:7-18. -/
def padOffset (a : FieldAttrs V) (env : Env V) : MS σ Unit :=
  match a.offset with
  | some e => I.padLoop a.full (e env)
  | none => return ()

/-- The text of a `from_str` field, derive/src/jbytes/encode.rs:39-44. -/
def encText (a : FieldAttrs V) (v : V) (ca : Option CAttr) (fa : Option FAttr) : MS σ Nat :=
  match a.fromStr with
  | some ps => I.encBytes (ps.2 v) ca fa
  | none => return 0

/-- derive/src/jbytes/encode.rs:46-57. -/
def encPlain (f : FieldS σ V) (env : Env V) (v : V) (ca : Option CAttr) (fa : Option FAttr) : MS σ Nat := do
  I.padOffset f.attrs env
  match f.attrs.valueEncode with
  | some g => f.enc (g env v) ca fa
  | none => f.enc v ca fa

/-- `generate_encode_body`, derive/src/jbytes/encode.rs:22-60 (without `with_encode`). -/
def encField (f : FieldS σ V) (env : Env V) : EncS σ V := fun v ca fa =>
  if f.attrs.skip || f.attrs.skipEncode then return 0
  else do
    let n ← I.encText f.attrs v ca fa
    if f.attrs.bits.isSome || !f.attrs.untake then do
      let m ← I.encPlain f env v ca fa
      return n + m
    else return n

/-- The fields, derive/src/jbytes/derive_struct.rs:246-253, derive/src/jbytes/derive_enum.rs:525-552. -/
def encFields (I : Io σ) (keep : Bool) : List (FieldS σ V) → Option CAttr → Option FAttr → Env V → List V → MS σ Nat
  | f :: fs, ca, old, env, v :: vs => do
    let fa ← (if keep && !f.attrs.isUse then Pure.pure old else I.toCode f.attrs env)
    let n ← I.encField f env v ca fa
    let m ← encFields I keep fs ca fa (env.push v) vs
    return n + m
  | _, _, _, _, _ => return 0

/-- The encoder of a derived struct, derive/src/jbytes/derive_struct.rs:207-261. -/
def encStruct (S : StructS σ V) : EncS σ (List V) := fun vs ca _ =>
  I.encFields false S.fields S.base.container none { vars := localVars S.base.getVars ca } vs

/-- The default tag, derive/src/jbytes/derive_enum.rs:495. -/
def encTagByte (disable : Bool) (num : Nat) : MS σ Nat :=
  if disable then return 0 else I.pushU8 (UInt8.ofNat num)

/-- The integer tag, derive/src/jbytes/derive_enum.rs:495-520. -/
def encTag (own ca : Option CAttr) (fa : Option FAttr) (disable : Bool) (num : Nat) : MS σ Nat :=
  match fa with
  | some fr =>
    match fr.branch with
    | some _ => return 0
    | none =>
      match own.bind (·.byteCount) with
      | some k => I.pushUint num k (getByteorder ca fa)
      | none =>
        match fr.byteCount with
        | some k => I.pushUint num k (getByteorder ca fa)
        | none => I.encTagByte disable num
  | none =>
    match own.bind (·.byteCount) with
    | some k => I.pushUint num k (getByteorder ca fa)
    | none => I.encTagByte disable num

/-- The tag in any mode, derive/src/jbytes/derive_enum.rs:472-521. -/
def encTagMode (E : EnumDef V) (v : Variant V) (num : Nat) (ca : Option CAttr) (fa : Option FAttr) : MS σ Nat :=
  match E.mode with
  | .startsWith false => I.push v.word
  | .startsWith true => return 0
  | .takeBytes _ => I.push v.word
  | .uint => I.encTag E.container ca fa E.byteCountDisable num

/-- The arm of one variant, derive/src/jbytes/derive_enum.rs:469-554. -/
def encVariant (E : EnumDef V) (v : Variant V) (fs : List (FieldS σ V)) (num : Nat) (vs : List V) (ca : Option CAttr)
    (fa : Option FAttr) : MS σ Nat := do
  let env : Env V := { vars := localVars E.getVars ca }
  let old ← I.toCode v.attrs env
  let n ← I.encTagMode E v num ca fa
  I.padOffset v.attrs env
  let m ← I.encFields true fs E.container old env vs
  return n + m

/-- The encoder of a derived enum, derive/src/jbytes/derive_enum.rs:367-567. -/
def encEnum (E : EnumS σ V) : EncS σ (Nat × List V) := fun x ca fa =>
  match (E.base.variants.zip E.base.numbers)[x.1]? with
  | some (v, num) => I.encVariant E.base v (E.arms x.1) num x.2 ca fa
  | none => return 0

end Io

end JBytes
