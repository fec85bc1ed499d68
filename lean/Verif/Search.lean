import Verif.Read
/-!
# Subsequence search (src/buf_traits.rs:691-755)
-/

namespace JBytes
open M

/-- `memchr::memmem::find(haystack, needle)`: index of the leftmost occurrence (external crate, modelled by
its specification; the specification itself is proved in `SearchLemmas`). -/
def findSub (needle : List Byte) : List Byte → Option Nat
  | [] => if needle = [] then some 0 else none
  | x :: xs =>
    if needle.isPrefixOf (x :: xs) then some 0
    else (findSub needle xs).map (· + 1)

/-- Length of the longest needle that is a suffix of `h`. -/
def longestSuffix (h : List Byte) : List (List Byte) → Option Nat
  | [] => none
  | n :: ns =>
    match longestSuffix h ns with
    | none => if n.isSuffixOf h then some n.length else none
    | some m => if n.isSuffixOf h ∧ m < n.length then some n.length else some m

/-- Scan of an Aho-Corasick automaton: `pre` has been consumed. -/
def acGo (needles : List (List Byte)) (pre : List Byte) : List Byte → Option (Nat × Nat)
  | [] => (longestSuffix pre needles).map fun m => (pre.length - m, pre.length)
  | x :: xs =>
    match longestSuffix pre needles with
    | some m => some (pre.length - m, pre.length)
    | none => acGo needles (pre ++ [x]) xs

/-- `AhoCorasick::new(needles)` with default `MatchKind::Standard`, then `find(haystack)`: `(start, end)` of
the match that ends first, the longest one among those (external crate, modelled by its specification;
construction of the automaton is assumed to succeed). -/
def acFind (needles : List (List Byte)) (hay : List Byte) : Option (Nat × Nat) := acGo needles [] hay

/-- `find_subsequence`, src/buf_traits.rs:693-702. -/
def findSubsequence (needle : List Byte) : M (List Byte) := do
  let p ← getPos
  let r ← remaining
  match findSub needle r with
  | some i => do
    advance (i + needle.length)
    slice p (wadd p i)
  | none => failAt p .fail

/-- `find_subsequence_needle`, src/buf_traits.rs:706-716. -/
def findSubsequenceNeedle (needle : List Byte) (incl : Bool) : M (List Byte) := do
  let p ← getPos
  let r ← remaining
  match findSub needle r with
  | some i => do
    let j := if incl then i + needle.length else i
    advance j
    slice p (wadd p j)
  | none => failAt p .fail

/-- `find_subsequences`, src/buf_traits.rs:720-735. -/
def findSubsequences (needles : List (List Byte)) : M (List Byte) := do
  let p ← getPos
  let r ← remaining
  match acFind needles r with
  | some (s, e) => do
    advance e
    slice p (wadd p s)
  | none => failAt p .fail

/-- `find_subsequences_needle`, src/buf_traits.rs:739-755. -/
def findSubsequencesNeedle (needles : List (List Byte)) (incl : Bool) : M (List Byte) := do
  let p ← getPos
  let r ← remaining
  match acFind needles r with
  | some (s, e) => do
    let j := if incl then e else s
    advance j
    slice p (wadd p j)
  | none => failAt p .fail

end JBytes
