import Verif.PropTop
import Verif.PropWrite
/-!
# C90: a buffer stands for its contents

A `Buffer` is used as a vector of bytes with reading and writing on top: it is compared, made from a vector, lent as a
slice and read from.  None of this should depend on what was done before to get the contents.
-/

namespace JBytes
open M

/-- `==` on `Buffer`, derived (src/buffer.rs:38-42): both fields are compared, also the `Cell` with the position. -/
def Buf.eqB (a b : Buf) : Bool := decide (a.data = b.data) && decide (a.pos = b.pos)

/-- `*buffer` and `buffer.as_ref()`, src/buffer.rs:80-93. -/
def Buf.deref (b : Buf) : List Byte := b.data

/-- **C90**: buffers are equal exactly if contents *and* positions are. -/
theorem C90_eq_iff (a b : Buf) : a.eqB b = true ↔ a.deref = b.deref ∧ a.pos = b.pos := by
  unfold Buf.eqB Buf.deref
  simp

/-- **C90**, contents: after any history of writes on a new buffer, the buffer lends what was written, a reader made by
`to_bytes` reads what was written and nothing more and so does the buffer itself after `reset_position`; neither
changes what the buffer holds. -/
theorem C90_contents (ops : List WriteOp) (hs : (payloads ops).length ≤ isizeMax) (n : Nat) :
    let b := (runWrites ops Buf.new).2
    b.deref = payloads ops ∧
    (n ≤ (payloads ops).length → (takeBytes n b.toBytes).1 = .ok ((payloads ops).take n) ∧
      (takeBytes n b.reset).1 = .ok ((payloads ops).take n) ∧ (takeBytes n b.reset).2.deref = payloads ops) ∧
    ((payloads ops).length < n → (takeBytes n b.toBytes).1 = .err ⟨0, .invalidByteLength⟩ ∧
      (takeBytes n b.reset).1 = .err ⟨0, .invalidByteLength⟩) := by
  have e : runWrites ops Buf.new = _ := C14_history ops hs
  rw [e]
  refine ⟨rfl, fun h => ?_, fun h => ?_⟩
  · have t : takeBytes n ⟨payloads ops, 0⟩ = (.ok ((payloads ops).take n), ⟨payloads ops, n⟩) := by
      rw [takeBytes_apply n ⟨payloads ops, 0⟩ ⟨Nat.zero_le _, hs⟩, if_neg (by simp only; omega)]
      simp
    exact ⟨congrArg Prod.fst t, congrArg Prod.fst t, congrArg (fun x => x.2.deref) t⟩
  · have t : takeBytes n ⟨payloads ops, 0⟩ = (.err ⟨0, .invalidByteLength⟩, ⟨payloads ops, 0⟩) := by
      rw [takeBytes_apply n ⟨payloads ops, 0⟩ ⟨Nat.zero_le _, hs⟩, if_pos (by simp only; omega)]
    exact ⟨congrArg Prod.fst t, congrArg Prod.fst t⟩

/-- **C90**, equality: a buffer that was written to is equal to the buffer made from the same bytes exactly if it is
empty. -/
theorem C90_from_iff (ops : List WriteOp) (hs : (payloads ops).length ≤ isizeMax) :
    (runWrites ops Buf.new).2.eqB (Buf.ofBytes (payloads ops)) = true ↔ payloads ops = [] := by
  have e : runWrites ops Buf.new = _ := C14_history ops hs
  rw [e, C90_eq_iff]
  constructor
  · intro h
    exact List.eq_nil_of_length_eq_zero h.2
  · intro h
    exact ⟨rfl, by show (payloads ops).length = 0; rw [h]; rfl⟩

/-- **C90**, equality: the same for what `encode` returns. -/
theorem C90_encode_iff (e : Enc α) (v : α) (w : List Byte) (hw : Writes (e v none none) w) (hs : w.length ≤ isizeMax) :
    ∃ b, encodeTop e v = .ok b ∧ b.deref = w ∧ (b.eqB (Buf.ofBytes w) = true ↔ w = []) := by
  obtain ⟨n, h⟩ := hw [] (by simpa using hs)
  simp only [List.length_nil, List.nil_append, Nat.zero_add] at h
  refine ⟨⟨w, w.length⟩, ?_, rfl, ?_⟩
  · simp only [encodeTop, Buf.new, h]
  · rw [C90_eq_iff]
    constructor
    · intro h
      exact List.eq_nil_of_length_eq_zero h.2
    · intro h
      exact ⟨rfl, by show w.length = 0; rw [h]; rfl⟩

/-- **C90**, writing: writing to a buffer made from bytes overwrites them from the start; the new bytes stand behind
the old ones exactly if there are no old ones or no new ones. -/
theorem C90_from_push_iff (v d : List Byte) (hs : d.length ≤ isizeMax) :
    ∃ b, push d (Buf.ofBytes v) = (.ok d.length, b) ∧ b.deref = d ++ v.drop d.length ∧
      (b.deref = v ++ d ↔ v = [] ∨ d = []) := by
  have e := push_apply d (Buf.ofBytes v) (by simpa [Buf.ofBytes] using hs) (.inr (Nat.zero_le _))
  have w : writeAt v 0 d = d ++ v.drop d.length := by simp [writeAt]
  refine ⟨_, e, w, ?_⟩
  show writeAt v 0 d = v ++ d ↔ _
  rw [w]
  constructor
  · intro h
    have l := congrArg List.length h
    simp only [List.length_append, List.length_drop] at l
    by_cases hv : v.length = 0
    · exact .inl (List.eq_nil_of_length_eq_zero hv)
    · exact .inr (List.eq_nil_of_length_eq_zero (by omega))
  · rintro (h | h) <;> subst h <;> simp

/-- **C90**, reading: a buffer that was just written to is at its end, so that nothing can be read from it without
`reset_position` or `to_bytes`. -/
theorem C90_read_behind (ops : List WriteOp) (hs : (payloads ops).length ≤ isizeMax) (n : Nat) (hn : n ≠ 0) :
    (takeBytes n (runWrites ops Buf.new).2).1 = .err ⟨(payloads ops).length, .invalidByteLength⟩ := by
  have e : runWrites ops Buf.new = _ := C14_history ops hs
  rw [e, takeBytes_apply n ⟨payloads ops, (payloads ops).length⟩ ⟨Nat.le_refl _, hs⟩, if_pos (by simp only; omega)]

/-- **C90** fails: two buffers with the contents `01` are not equal, a byte written to a buffer made from `01` replaces
it, and a byte just written cannot be read. -/
theorem C90_violated :
    (∃ a b : Buf, a.deref = b.deref ∧ a.eqB b = false ∧ (runWrites [.bytes [1]] Buf.new).2 = a ∧ b = Buf.ofBytes [1]) ∧
    (∃ b, push [2] (Buf.ofBytes [1]) = (.ok 1, b) ∧ b.deref = [2]) ∧
    (takeBytes 1 (runWrites [.bytes [1]] Buf.new).2).1 = .err ⟨1, .invalidByteLength⟩ := by
  refine ⟨⟨⟨[1], 1⟩, ⟨[1], 0⟩, rfl, by decide, ?_, rfl⟩, ?_, ?_⟩
  · exact congrArg Prod.snd (C14_history [.bytes [1]] (by decide +kernel))
  · obtain ⟨b, h1, h2, _⟩ := C90_from_push_iff [1] [2] (by decide +kernel)
    exact ⟨b, h1, h2⟩
  · exact C90_read_behind [.bytes [1]] (by decide +kernel) 1 (by decide)

-- the hypotheses are met by a history of three writes: seven bytes
example : (payloads [.bool true, .u24 0x020304 .be, .bytes [5, 6, 7]]).length ≤ isizeMax := by decide +kernel
example : payloads [.bool true, .u24 0x020304 .be, .bytes [5, 6, 7]] = [1, 2, 3, 4, 5, 6, 7] := by decide +kernel

end JBytes
