import Verif.Modifiers
/-!
# Codecs of arrays, vectors, tuples, options, sets and maps, over arbitrary element codecs

src/decode/impls_array.rs, impls_vec.rs, impls_tuple.rs, impls_option.rs, impls_hashset.rs, impls_hashmap.rs
and the same files in src/encode.  The element codec is a parameter, so user-written codecs are covered.
-/

namespace JBytes
open M

variable {α β : Type}

/-- Run the element decoder `n` times (`for _ in 0..n { list.push(T::decode_inner(..)?) }`). -/
def repeatM (m : M α) : Nat → M (List α)
  | 0 => return []
  | n + 1 => do
    let a ← m
    let as ← repeatM m n
    return a :: as

/-- Run the element decoder up to `n` times, stopping at the first error (src/decode/impls_vec.rs:33-38). -/
def tryRepeatM (m : M α) : Nat → M (List α)
  | 0 => return []
  | n + 1 => do
    match ← attempt m with
    | some a => do
      let as ← tryRepeatM m n
      return a :: as
    | none => return []

/-- The `while` loop of src/decode/impls_vec.rs:22-28, with `fuel` iterations allowed. -/
def whileStarts (p : List Byte) (m : M α) : Nat → M (List α)
  | 0 => timeout
  | fuel + 1 => do
    match ← attempt (takeBytesStarts p) with
    | some _ => do
      let a ← m
      let as ← whileStarts p m fuel
      return a :: as
    | none => return []

/-- `get_count_and_try_count`, src/decode/mod.rs:108-132. -/
def getCount (ca : Option CAttr) (fa : Option FAttr) : M (Nat × Option Nat) :=
  match fa with
  | none => do
    let n ← takeU8
    return (n.toNat, none)
  | some fr =>
    match fr.count with
    | some n => return (n, none)
    | none =>
      match fr.tryCount with
      | some n => return (0, some n)
      | none =>
        match fr.byteCountOutside with
        | some k => do
          let n ← takeUint k (getByteorder ca fa)
          return (n, none)
        | none => do
          let n ← takeU8
          return (n.toNat, none)

/-- The counted part of src/decode/impls_vec.rs:30-46 (and of sets, src/decode/impls_hashset.rs:23-39, before
the insertions). -/
def decCounted (d : Dec α) : Dec (List α) := fun ca fa => do
  let (n, t) ← getCount ca fa
  match t with
  | some t => tryRepeatM (d ca fa) t
  | none => repeatM (d ca fa) n

/-- `Vec<T>`, src/decode/impls_vec.rs:11-48. -/
def decVec (fuel : Nat) (d : Dec α) : Dec (List α) := fun ca fa =>
  match fa.bind (·.loopSkipStarts) with
  | some p => whileStarts p (d ca fa) fuel
  | none => decCounted d ca fa

/-- `[T; N]`, src/decode/impls_array.rs:9-26. -/
def decArray (n : Nat) (d : Dec α) : Dec (List α) := fun ca fa => repeatM (d ca fa) n

/-- Tuples, src/decode/impls_tuple.rs:14-24.  The components have one Lean type `α` (a sum type when the Rust
types differ). -/
def decTuple : List (Dec α) → Dec (List α)
  | [], _, _ => return []
  | d :: ds, ca, fa => do
    let a ← d ca fa
    let as ← decTuple ds ca fa
    return a :: as

/-- `Option<T>`, src/decode/impls_option.rs:8-31. -/
def decOption (d : Dec α) : Dec (Option α) := fun ca fa =>
  if fa.bind (·.length) = some 0 then return none
  else attempt (d ca fa)

/-- `HashSet::insert`: the set keeps the value already present. -/
def setInsert [DecidableEq α] (s : List α) (a : α) : List α := if a ∈ s then s else s ++ [a]

/-- `HashSet<T>`, src/decode/impls_hashset.rs:14-41: a set is a list without repetitions. -/
def decSet [DecidableEq α] (d : Dec α) : Dec (List α) := fun ca fa => do
  let l ← decCounted d ca fa
  return l.foldl setInsert []

/-- `HashMap::insert`: a new value replaces the one stored under the key. -/
def mapInsert [DecidableEq α] (m : List (α × β)) (e : α × β) : List (α × β) :=
  if e.1 ∈ m.map Prod.fst then m.map (fun x => if x.1 = e.1 then (x.1, e.2) else x) else m ++ [e]

/-- `k_fattr` of src/decode/impls_hashmap.rs:27-51, src/encode/impls_hashmap.rs:19-43. -/
def keyFattr (fa : Option FAttr) : Option FAttr :=
  match fa with
  | none => none
  | some fr => if fr.split.isSome then some { linendValue := fr.split } else fa

/-- `v_fattr` of src/decode/impls_hashmap.rs:28-52, src/encode/impls_hashmap.rs:20-44. -/
def valFattr (fa : Option FAttr) : Option FAttr :=
  match fa with
  | none => none
  | some fr =>
    if fr.linendValue.isSome then some { linendValue := fr.linendValue }
    else if fr.linend then some { linend := true }
    else fa

/-- One key followed by one value. -/
def decEntry (dk : Dec α) (dv : Dec β) (ca : Option CAttr) (fa : Option FAttr) : M (α × β) := do
  let k ← dk ca (keyFattr fa)
  let v ← dv ca (valFattr fa)
  return (k, v)

/-- The entries of a map in wire order, src/decode/impls_hashmap.rs:24, 54-70.  An error in the key or in the
value of an entry stops a `try_count` loop. -/
def decEntries (dk : Dec α) (dv : Dec β) : Dec (List (α × β)) := fun ca fa => do
  let (n, t) ← getCount ca fa
  match t with
  | some t => tryRepeatM (decEntry dk dv ca fa) t
  | none => repeatM (decEntry dk dv ca fa) n

/-- `HashMap<K, V>`, src/decode/impls_hashmap.rs:14-74: a map is a list of entries with distinct keys. -/
def decMap [DecidableEq α] (dk : Dec α) (dv : Dec β) : Dec (List (α × β)) := fun ca fa => do
  let l ← decEntries dk dv ca fa
  return l.foldl mapInsert []

/-- `for value in self { r_nbytes += value.encode_inner(..)? }`. -/
def encAll (e : α → M Nat) : List α → M Nat
  | [] => return 0
  | a :: as => do
    let n ← e a
    let m ← encAll e as
    return n + m

/-- `push_count_and_try_count`, src/encode/mod.rs:91-109. -/
def pushCount (ca : Option CAttr) (fa : Option FAttr) (n : Nat) : M Nat :=
  match fa with
  | none => pushU8 (UInt8.ofNat n)
  | some fr =>
    match fr.byteCountOutside with
    | some k => pushUint n k (getByteorder ca fa)
    | none =>
      if fr.count.isSome then return 0
      else if fr.tryCount.isSome then return 0
      else pushU8 (UInt8.ofNat n)

/-- `Vec<T>`, src/encode/impls_vec.rs:11-33. -/
def encVec (e : Enc α) : Enc (List α) := fun l ca fa =>
  match fa.bind (·.loopSkipStarts) with
  | some p => encAll (fun a => do
      let n ← push p
      let m ← e a ca fa
      return n + m) l
  | none => do
    let n ← pushCount ca fa l.length
    let m ← encAll (fun a => e a ca fa) l
    return n + m

/-- `[T; N]`, src/encode/impls_array.rs:8-20. -/
def encArray (e : Enc α) : Enc (List α) := fun l ca fa => encAll (fun a => e a ca fa) l

/-- Tuples, src/encode/impls_tuple.rs:15-58. -/
def encTuple : List (Enc α) → Enc (List α)
  | e :: es, a :: as, ca, fa => do
    let n ← e a ca fa
    let m ← encTuple es as ca fa
    return n + m
  | _, _, _, _ => return 0

/-- `Option<T>`, src/encode/impls_option.rs:8-18. -/
def encOption (e : Enc α) : Enc (Option α) := fun o ca fa =>
  match o with
  | some a => e a ca fa
  | none => return 0

/-- `HashMap<K, V>`, src/encode/impls_hashmap.rs:11-57; the list is the map in the iteration order of the
`HashMap` (arbitrary). -/
def encMap (ek : Enc α) (ev : Enc β) : Enc (List (α × β)) := fun l ca fa => do
  let n ← pushCount ca fa l.length
  let m ← encAll (fun e => do
      let a ← ek e.1 ca (keyFattr fa)
      let b ← ev e.2 ca (valFattr fa)
      return a + b) l
  return n + m

end JBytes
