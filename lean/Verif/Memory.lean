import Verif.CodecSeq
import Verif.MutRead
/-!
# The two places with `unsafe` code

src/decode/impls_array.rs fills a `MaybeUninit<[T; N]>` through a `&mut [T; N]`; src/buf_mut_traits.rs:12-16 and
43-47 read a fixed number of bytes through a pointer made from a slice.  The other modules describe what this code
returns when it is well defined (`decArray`, `takeFixed`, `untakeFixed`); here memory is explicit, so that one can
say when it is.
-/

namespace JBytes

variable {α : Type}

/-- A computation on memory: it ends, or does something Rust gives no meaning to. -/
inductive Def (β : Type) where
  | defined (b : β)
  | undefined
  deriving DecidableEq, Repr

/-! ## Storage of elements -/

/-- The memory of a function that collects elements: the places for elements (`none` is not initialised) and the
elements whose destructor has run, in this order. -/
structure Store (α : Type) where
  slots : List (Option α)
  dropped : List α
  deriving DecidableEq, Repr

/-- `*value = a` for the element at `i`: Rust drops the old value and moves the new one in.  For a type without
destructor (`glue = false`, e.g. all integers) nothing is dropped; for one with a destructor (`String`, `Vec`, ...)
dropping a place that was not initialised is undefined. -/
def Store.assign (glue : Bool) (s : Store α) (i : Nat) (a : α) : Def (Store α) :=
  match glue, s.slots[i]? with
  | false, _ => .defined { s with slots := s.slots.set i (some a) }
  | true, some (some old) => .defined { slots := s.slots.set i (some a), dropped := s.dropped ++ [old] }
  | true, _ => .undefined

/-- How a function that collects elements left: its result, the elements it dropped and the elements it neither
dropped nor returned. -/
structure Left (α : Type) where
  out : Out (List α)
  dropped : List α
  leaked : List α
  buf : Buf
  deriving DecidableEq, Repr

/-- `for value in ptr { *value = T::decode_inner(input, cattr, fattr)?; }`, src/decode/impls_array.rs:20-22 and
40-42: the `k` places from `i` on. -/
def fillSlots (glue : Bool) (m : M α) : Nat → Nat → Store α → Buf → Def (Out Unit × Store α × Buf)
  | 0, _, s, b => .defined (.ok (), s, b)
  | k + 1, i, s, b =>
    match m b with
    | (.ok a, b') =>
      match s.assign glue i a with
      | .defined s' => fillSlots glue m k (i + 1) s' b'
      | .undefined => .undefined
    | (.err e, b') => .defined (.err e, s, b')
    | (.panic, b') => .defined (.panic, s, b')
    | (.timeout, b') => .defined (.timeout, s, b')

/-- The values of the places that are initialised. -/
def Store.values (s : Store α) : List α := s.slots.filterMap id

/-- `[T; N]::decode_inner`, src/decode/impls_array.rs:9-26 and 29-46.  `assume_init` is undefined unless every place
is initialised; when the loop is left early (`?` or a panic of the element) the `MaybeUninit` is dropped, which drops
none of its elements. -/
def arrayMem (glue : Bool) (n : Nat) (m : M α) (b : Buf) : Def (Left α) :=
  match fillSlots glue m n 0 ⟨List.replicate n none, []⟩ b with
  | .undefined => .undefined
  | .defined (.ok _, s, b') =>
    if s.slots.all Option.isSome then .defined ⟨.ok s.values, s.dropped, [], b'⟩ else .undefined
  | .defined (.err e, s, b') => .defined ⟨.err e, s.dropped, s.values, b'⟩
  | .defined (.panic, s, b') => .defined ⟨.panic, s.dropped, s.values, b'⟩
  | .defined (.timeout, s, b') => .defined ⟨.timeout, s.dropped, s.values, b'⟩

/-- The same loop over a `Vec` that owns what is pushed, src/decode/impls_vec.rs:41-43: when it is left early the `Vec`
goes out of scope and drops its elements from first to last. -/
def vecMem (m : M α) : Nat → List α → Buf → Def (Left α)
  | 0, l, b => .defined ⟨.ok l, [], [], b⟩
  | k + 1, l, b =>
    match m b with
    | (.ok a, b') => vecMem m k (l ++ [a]) b'
    | (.err e, b') => .defined ⟨.err e, l, [], b'⟩
    | (.panic, b') => .defined ⟨.panic, l, [], b'⟩
    | (.timeout, b') => .defined ⟨.timeout, l, [], b'⟩

/-! ## Reads through a pointer -/

/-- `*(v as *const _ as *const [_; n])` for a slice `v`, src/buf_mut_traits.rs:15 and 46: reads `n` bytes from the
start of the slice whatever its length.  Outside the slice the pointer may not be read. -/
def readArray (n : Nat) (v : List Byte) : Def (List Byte) :=
  if n ≤ v.length then .defined (v.take n) else .undefined

/-- `$typ::$func(..)` of such a read. -/
def readNumber (o : ByteOrder) (n : Nat) (v : List Byte) : Def Nat :=
  match readArray n v with
  | .defined a => .defined (fromBytes o a)
  | .undefined => .undefined

/-- `macro_take_bytes!(self, T::f)` for `BufRead`, src/buf_mut_traits.rs:12-16. -/
def takeFixedMem (o : ByteOrder) (size : Nat) : M (Def Nat) := do
  let v ← takeBytes size
  return readNumber o size v

/-- `macro_untake_bytes!(self, T::f)` for `BufRead`, src/buf_mut_traits.rs:43-47. -/
def untakeFixedMem (o : ByteOrder) (size : Nat) : M (Def Nat) := do
  let v ← untakeBytes size
  return readNumber o size v

/-- `macro_take_bytes!(self, T::f)` for `BufReadMut`. -/
def MutImpl.takeFixedMem {σ : Type} (I : MutImpl σ) (o : ByteOrder) (size : Nat) : MS σ (Def Nat) := do
  let v ← I.takeBytes size
  return readNumber o size v

/-- `macro_untake_bytes!(self, T::f)` for `BufReadMut`. -/
def MutImpl.untakeFixedMem {σ : Type} (I : MutImpl σ) (o : ByteOrder) (size : Nat) : MS σ (Def Nat) := do
  let v ← I.untakeBytes size
  return readNumber o size v

end JBytes
