import Verif.Stands
import Verif.PropTop
import Verif.PropRecursive
/-!
# C92: an error says where

The position in an error is the position at which the reader (or the buffer written to) stands when the error is
returned, for every method, every decoder and every encoder.  So the two never disagree, and without `offset` the
position lies in the input.
-/

namespace JBytes
open M

variable {α V : Type}

/-- **C92** for reads, from any state whatever, also past the end. -/
theorem C92_read (op : ReadOp) (b b' : Buf) (e : JErr) (h : op.run b = (.err e, b')) : e.position = b'.pos :=
  Stands.read op b e b' h

/-- **C92** for peeks. -/
theorem C92_peek (op : PeekOp) (b b' : Buf) (e : JErr) (h : op.untake b = (.err e, b')) : e.position = b'.pos :=
  Stands.peek op b e b' h

/-- **C92** for writes. -/
theorem C92_write (op : WriteOp) (b b' : Buf) (e : JErr) (h : op.run b = (.err e, b')) : e.position = b'.pos :=
  Stands.write op b e b' h

/-- **C92** for decoding, whatever the type, its modifiers, the input and the position. -/
theorem C92_decode (L : Limits) (d : Nat → Dec α) (h : Derivable L α d) (fuel : Nat) (ca : Option CAttr)
    (fa : Option FAttr) (b b' : Buf) (e : JErr) (he : d fuel ca fa b = (.err e, b')) : e.position = b'.pos :=
  DerivableIn.stands h fuel (fun _ _ h => h.elim) ca fa b e b' he

/-- **C92** for recursive types, however deep. -/
theorem C92_recursive {ι : Type} {T : ι → Type} {F : ((i : ι) → Nat → Dec (T i)) → (i : ι) → Nat → Dec (T i)}
    (L : Limits) (hF : ∀ d i, DerivableIn L (Among d) (T i) (F d i)) (depth fuel : Nat) (i : ι) (ca : Option CAttr)
    (fa : Option FAttr) (b b' : Buf) (e : JErr) (he : decRec F depth i fuel ca fa b = (.err e, b')) :
    e.position = b'.pos := by
  have key : ∀ depth i ca fa, Stands (decRec F depth i fuel ca fa) := by
    intro depth
    induction depth with
    | zero => intro i ca fa; exact Stands.timeout
    | succ k ih =>
      intro i
      refine DerivableIn.stands (hF (decRec F k) i) fuel ?_
      rintro β d ⟨j⟩
      exact ih j
  exact key depth i ca fa b e b' he

/-- **C92** with codecs written by the user (`with`, `with_decode`): a struct keeps to it if they do. -/
theorem C92_struct (S : StructDef V) (hw : S.withDecode = none)
    (hf : ∀ f ∈ S.fields, (∀ ca fa b e b', f.dec ca fa b = (.err e, b') → e.position = b'.pos) ∧
      ∀ g, f.attrs.withDecode = some g → ∀ env ca fa b e b', g env ca fa b = (.err e, b') → e.position = b'.pos)
    (ca : Option CAttr) (fa : Option FAttr) (b b' : Buf) (e : JErr) (he : decStruct S ca fa b = (.err e, b')) :
    e.position = b'.pos := by
  have h : Stands (decStruct S ca fa) := by
    unfold decStruct
    rw [hw]
    exact Stands.decFields _ _ _ _ _ fun f hfm => hf f hfm
  exact h b e b' he

/-- **C92**, the position is in the input: without `offset` an error reports a position between where decoding began
and the end of the data. -/
theorem C92_inside (d : Nat → Dec α) (h : Derivable { noOffset := true } α d) (fuel : Nat) (ca : Option CAttr)
    (fa : Option FAttr) (b : Buf) (hb : b.Ok) (e : JErr) (he : (d fuel ca fa b).1 = .err e) :
    b.pos ≤ e.position ∧ e.position ≤ b.data.length ∧ e.position = (d fuel ca fa b).2.pos := by
  have h1 := C92_decode _ d h fuel ca fa b (d fuel ca fa b).2 e (by rw [← he])
  obtain ⟨_, h2, h3⟩ := C50_stays_inside d h fuel ca fa b hb
  rw [h1]
  exact ⟨h2, h3, rfl⟩

/-- **C92** for `decode`: the position is at most the length of the input. -/
theorem C92_top (d : Nat → Dec α) (h : Derivable { noOffset := true } α d) (fuel : Nat) (input : List Byte)
    (hs : input.length ≤ isizeMax) (e : JErr) (he : decodeTop (d fuel) input = .err e) : e.position ≤ input.length :=
  (C92_inside d h fuel none none ⟨input, 0⟩ ⟨Nat.zero_le _, hs⟩ e he).2.1

/-- **C92** for encoding, whatever the type, its modifiers, the value, the buffer and the position. -/
theorem C92_encode (flush : Bool) (en : Enc α) (h : Encodable flush α en) (v : α) (ca : Option CAttr)
    (fa : Option FAttr) (b b' : Buf) (e : JErr) (he : en v ca fa b = (.err e, b')) : e.position = b'.pos :=
  h.stands v ca fa b e b' he

/-- The struct `message` of PropDerive.lean, cut off inside its last element: the error is at position 8, where that
element is missing. -/
example : decStruct (message 20) none none ⟨[2, 65, 66, 2, 0, 7, 1, 0], 0⟩ =
    (.err ⟨8, .invalidByteLength⟩, ⟨[2, 65, 66, 2, 0, 7, 1, 0], 8⟩) := by decide +kernel

example (input : List Byte) (hs : input.length ≤ isizeMax) (e : JErr)
    (he : decodeTop (decVec 7 (decInt ⟨4, false⟩)) input = .err e) : e.position ≤ input.length :=
  C92_top (fun n => decVec n (decInt ⟨4, false⟩)) (.vec (.int ⟨4, false⟩ (fun h => nomatch h))) 7 input hs e he

/-- Encoding fails on an integer wider than its type: nothing was written, the error is at position 0. -/
example : encInt ⟨2, false⟩ 5 none (some { length := some 3 }) ⟨[], 0⟩ = (.err ⟨0, .invalidByteLength⟩, ⟨[], 0⟩) := by
  decide +kernel

end JBytes
