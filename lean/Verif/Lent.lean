import Verif.CodecSeq
import Verif.CodecBytes
/-!
# The borrowing decoders and encoders of containers

`BorrowByteDecode` and `BorrowByteEncode` of `Vec`, arrays, tuples, `Option`, `HashSet` and `HashMap` have bodies of their own in
src/decode and src/encode, beside those of `ByteDecode` and `ByteEncode`.  They are modelled here a second time and closer to the
text: a loop changes a collection or adds to a number of bytes.
-/

namespace JBytes
open M

variable {α β σ : Type}

/-- `for _ in 0..n { collection.insert(m()?); }`. -/
def loopInto (ins : σ → α → σ) (m : M α) : Nat → σ → M σ
  | 0, s => return s
  | n + 1, s => do
    let a ← m
    loopInto ins m n (ins s a)

/-- `for _ in 0..n { match m() { Ok(a) => collection.insert(a), Err(_e) => break } }`; `m` gives nothing where it failed. -/
def loopTry (ins : σ → α → σ) (m : M (Option α)) : Nat → σ → M σ
  | 0, s => return s
  | n + 1, s => do
    match ← m with
    | some a => loopTry ins m n (ins s a)
    | none => return s

/-- `while let Ok(_) = input.take_bytes_starts(p) { collection.insert(m()?); }`, with `fuel` iterations allowed. -/
def loopStarts (ins : σ → α → σ) (p : List Byte) (m : M α) : Nat → σ → M σ
  | 0, _ => timeout
  | fuel + 1, s => do
    match ← attempt (takeBytesStarts p) with
    | some _ => do
      let a ← m
      loopStarts ins p m fuel (ins s a)
    | none => return s

/-- `Vec::push`. -/
def vecPush (l : List α) (a : α) : List α := l ++ [a]

/-- `fr.loop_skip_starts` if there are modifiers, src/decode/impls_vec.rs:59, src/encode/impls_vec.rs:43. -/
def skipStarts (fa : Option FAttr) : Option (List Byte) :=
  match fa with
  | some fr => fr.loopSkipStarts
  | none => none

/-- `BorrowByteDecode for Vec<T>`, src/decode/impls_vec.rs:51-87. -/
def lentVec (fuel : Nat) (d : Dec α) : Dec (List α) := fun ca fa =>
  match skipStarts fa with
  | some p => loopStarts vecPush p (d ca fa) fuel []
  | none => do
    let (count, tryCount) ← getCount ca fa
    match tryCount with
    | some n => loopTry vecPush (attempt (d ca fa)) n []
    | none => loopInto vecPush (d ca fa) count []

/-- `BorrowByteDecode for [T; N]`, src/decode/impls_array.rs:29-46. -/
def lentArray (n : Nat) (d : Dec α) : Dec (List α) := fun ca fa => loopInto vecPush (d ca fa) n []

/-- `let $t = $t::decode_inner(input, cattr, fattr)?;` for each component and then `Ok(($($t,)+))`. -/
def lentParts (ca : Option CAttr) (fa : Option FAttr) : List (Dec α) → List α → M (List α)
  | [], got => return got
  | d :: ds, got => do
    let a ← d ca fa
    lentParts ca fa ds (got ++ [a])

/-- `BorrowByteDecode` of tuples, src/decode/impls_tuple.rs:29-43. -/
def lentTuple (ds : List (Dec α)) : Dec (List α) := fun ca fa => lentParts ca fa ds []

/-- `BorrowByteDecode for Option<T>`, src/decode/impls_option.rs:34-57. -/
def lentOption (d : Dec α) : Dec (Option α) := fun ca fa =>
  let value := attempt (d ca fa)
  match fa with
  | some fr =>
    match fr.length with
    | some length => if length = 0 then return none else value
    | none => value
  | none => value

/-- `BorrowByteDecode for HashSet<T>`, src/decode/impls_hashset.rs:44-71. -/
def lentSet [DecidableEq α] (d : Dec α) : Dec (List α) := fun ca fa => do
  let (count, tryCount) ← getCount ca fa
  match tryCount with
  | some n => loopTry setInsert (attempt (d ca fa)) n []
  | none => loopInto setInsert (d ca fa) count []

/-- `k_fattr.as_ref().or(fattr)`, src/decode/impls_hashmap.rs:90-114, src/encode/impls_hashmap.rs:68-92. -/
def lentKey (fa : Option FAttr) : Option FAttr :=
  let k : Option FAttr := match fa with
    | some fr => match fr.split with
      | some s => some { linendValue := some s }
      | none => none
    | none => none
  k.or fa

/-- `v_fattr.as_ref().or(fattr)`, src/decode/impls_hashmap.rs:91-115, src/encode/impls_hashmap.rs:69-93. -/
def lentValue (fa : Option FAttr) : Option FAttr :=
  let v : Option FAttr := match fa with
    | some fr => match fr.linendValue with
      | some x => some { linendValue := some x }
      | none => if fr.linend then some { linend := true } else none
    | none => none
  v.or fa

/-- One turn of the `try_count` loop of src/decode/impls_hashmap.rs:118-128: a key, then a value, nothing if one of them fails. -/
def lentEntry (dk : M α) (dv : M β) : M (Option (α × β)) := do
  match ← attempt dk with
  | some k => do
    match ← attempt dv with
    | some v => return some (k, v)
    | none => return none
  | none => return none

/-- `BorrowByteDecode for HashMap<K, V>`, src/decode/impls_hashmap.rs:77-137. -/
def lentMap [DecidableEq α] (dk : Dec α) (dv : Dec β) : Dec (List (α × β)) := fun ca fa => do
  let (count, tryCount) ← getCount ca fa
  match tryCount with
  | some n => loopTry mapInsert (lentEntry (dk ca (lentKey fa)) (dv ca (lentValue fa))) n []
  | none => loopInto mapInsert (do
      let k ← dk ca (lentKey fa)
      let v ← dv ca (lentValue fa)
      return (k, v)) count []

/-- `BorrowByteDecode for String` and for `&'de str`, src/decode/impls_string.rs:28-57; the text that is copied and the text that is
lent have the same bytes. -/
def lentStr : Dec (List Byte) := fun ca fa => do
  let value ← decBytes ca fa
  if !utf8Valid value then fail .fail else return value

/-- `for value in self { r_nbytes += e(value)?; }` with the number `r` so far. -/
def addAll (e : α → M Nat) : List α → Nat → M Nat
  | [], r => return r
  | a :: as, r => do
    let n ← e a
    addAll e as (r + n)

/-- `BorrowByteEncode for Vec<T>`, src/encode/impls_vec.rs:36-59. -/
def lendVec (e : Enc α) : Enc (List α) := fun l ca fa => do
  let r ← match skipStarts fa with
    | some _ => Pure.pure 0
    | none => pushCount ca fa l.length
  addAll (fun a => do
    let r ← match skipStarts fa with
      | some p => push p
      | none => Pure.pure 0
    let n ← e a ca fa
    return r + n) l r

/-- `BorrowByteEncode for [T; N]`, src/encode/impls_array.rs:23-35. -/
def lendArray (e : Enc α) : Enc (List α) := fun l ca fa => addAll (fun a => e a ca fa) l 0

/-- `r_nbytes += $t.encode_inner(buffer, cattr, fattr)?;` for each component, with the number `r` so far. -/
def lendParts (ca : Option CAttr) (fa : Option FAttr) : List (Enc α) → List α → Nat → M Nat
  | e :: es, a :: as, r => do
    let n ← e a ca fa
    lendParts ca fa es as (r + n)
  | _, _, r => return r

/-- `BorrowByteEncode` of tuples, src/encode/impls_tuple.rs:30-44. -/
def lendTuple (es : List (Enc α)) : Enc (List α) := fun as ca fa => lendParts ca fa es as 0

/-- `BorrowByteEncode for Option<T>`, src/encode/impls_option.rs:21-31. -/
def lendOption (e : Enc α) : Enc (Option α) := fun o ca fa =>
  match o with
  | some a => e a ca fa
  | none => return 0

/-- `BorrowByteEncode for HashMap<K, V>`, src/encode/impls_hashmap.rs:60-106. -/
def lendMap (ek : Enc α) (ev : Enc β) : Enc (List (α × β)) := fun l ca fa => do
  let r ← pushCount ca fa l.length
  addAll (fun e => do
    let a ← ek e.1 ca (lentKey fa)
    let b ← ev e.2 ca (lentValue fa)
    return a + b) l r

end JBytes
