import Verif.PropDerive
import Verif.PropTop
/-!
# C91: truncated input is refused

When a message arrives in pieces, or is cut off, the decoder must neither return a value made from the part that is
there nor panic.  For types that do not adapt to where the data ends (`Limits.standalone`) there is, for every input, one
length from which on decoding succeeds.
-/

namespace JBytes
open M

variable {α : Type}

/-- **C91**: if decoding succeeds and ends at position `q`, then decoding the data cut off anywhere before `q` returns an
error. -/
theorem C91_truncated (L : Limits) (h1 : L.noOffset = true) (h2 : L.standalone = true) (h3 : L.narrow = true)
    (h4 : L.prefixes = true) (d : Nat → Dec α) (h : Derivable L α d) (fuel : Nat) (ca : Option CAttr)
    (fa : Option FAttr) (hfa : FaOk? L fa) (b b' : Buf) (hb : b.Ok) (v : α) (he : d fuel ca fa b = (.ok v, b'))
    (m : Nat) (hm : b.pos ≤ m) (hq : m < b'.pos) (hf : m - b.pos < fuel) :
    ∃ e, (d fuel ca fa ⟨b.data.take m, b.pos⟩).1 = .err e := by
  have hl := Derivable.loc h1 h2 h fuel ca fa hfa
  have hin := hl.1 b hb
  rw [he] at hin
  simp only at hin
  have hm' : m ≤ b.data.length := by omega
  have hlen : (b.data.take m).length = m := by rw [List.length_take]; omega
  have hbt : (⟨b.data.take m, b.pos⟩ : Buf).Ok := ⟨by show b.pos ≤ _; rw [hlen]; exact hm, by
    show (b.data.take m).length ≤ _; rw [hlen]; exact Nat.le_trans hm' hb.2⟩
  rcases C49_total_partial L h1 h3 h4 d h ca fa hfa ⟨b.data.take m, b.pos⟩ hbt fuel
      (by show (b.data.take m).length - b.pos < fuel; rw [hlen]; exact hf) with ⟨u, hu⟩ | hu
  · exfalso
    rcases hx : d fuel ca fa ⟨b.data.take m, b.pos⟩ with ⟨o, c⟩
    rw [hx] at hu
    simp only at hu
    subst hu
    have hc := hl.1 _ hbt
    rw [hx] at hc
    simp only [hlen] at hc
    have := hl.2 _ u c hbt hx b.data hb.2 (by omega) (by rw [List.take_take, Nat.min_eq_left hc.2.2])
    have this : d fuel ca fa b = (.ok u, ⟨b.data, c.pos⟩) := this
    rw [he] at this
    simp only [Prod.mk.injEq] at this
    have e := congrArg Buf.pos this.2
    simp only at e
    omega
  · exact hu

/-- **C91**, the threshold: if any part of a stream of bytes, from the start, can be decoded, then there is a length `q`
and a value such that every part of at least `q` bytes decodes to that value, leaving the position at `q`, and every
shorter part is refused with an error. -/
theorem C91_threshold (L : Limits) (h1 : L.noOffset = true) (h2 : L.standalone = true) (h3 : L.narrow = true)
    (h4 : L.prefixes = true) (d : Nat → Dec α) (h : Derivable L α d) (stream : List Byte)
    (hs : stream.length ≤ isizeMax) (fuel : Nat) (hf : stream.length < fuel) (v : α) (k : Nat)
    (he : decodeTop (d fuel) (stream.take k) = .ok v) :
    ∃ q ≤ k, q ≤ stream.length ∧
      (∀ m, q ≤ m → d fuel none none ⟨stream.take m, 0⟩ = (.ok v, ⟨stream.take m, q⟩)) ∧
      ∀ m < q, ∃ e, decodeTop (d fuel) (stream.take m) = .err e := by
  have hl := Derivable.loc h1 h2 h fuel none none (FaOk?.none _)
  have hlen : ∀ m, (stream.take m).length ≤ isizeMax := fun m => by rw [List.length_take]; omega
  rcases hx : d fuel none none ⟨stream.take k, 0⟩ with ⟨o, c⟩
  have ho : o = .ok v := by
    have := congrArg Prod.fst hx
    exact this.symm.trans he
  subst ho
  have hin := hl.1 ⟨stream.take k, 0⟩ ⟨Nat.zero_le _, hlen k⟩
  rw [hx] at hin
  simp only [List.length_take] at hin
  have hq := hin.2.2
  have ge : ∀ m, c.pos ≤ m → d fuel none none ⟨stream.take m, 0⟩ = (.ok v, ⟨stream.take m, c.pos⟩) := fun m hm =>
    hl.2 _ v c ⟨Nat.zero_le _, hlen k⟩ hx _ (hlen m) (by rw [List.length_take]; omega)
      (by simp only [List.take_take]; congr 1; omega)
  refine ⟨c.pos, by omega, by omega, ge, fun m hm => ?_⟩
  have hfull := ge stream.length (by omega)
  rw [List.take_length] at hfull
  have := C91_truncated L h1 h2 h3 h4 d h fuel none none (FaOk?.none _) ⟨stream, 0⟩ ⟨stream, c.pos⟩
    ⟨Nat.zero_le _, hs⟩ v hfull m (Nat.zero_le _) hm (by simp only; omega)
  exact this

/-- **C91** for what was encoded: if `encode` gives `w`, which `decode` reads back, no proper part of `w` decodes. -/
theorem C91_encoding (L : Limits) (h1 : L.noOffset = true) (h2 : L.standalone = true) (h3 : L.narrow = true)
    (h4 : L.prefixes = true) (d : Nat → Dec α) (e : Enc α) (h : Derivable L α d) (v : α) (w : List Byte)
    (hs : w.length ≤ isizeMax) (fuel : Nat) (hf : w.length < fuel) (hw : Writes (e v none none) w)
    (hr : Reads (d fuel none none) v w []) :
    ∃ b, encodeTop e v = .ok b ∧ decodeTop (d fuel) b.data = .ok v ∧
      ∀ m < b.data.length, ∃ x, decodeTop (d fuel) (b.data.take m) = .err x := by
  obtain ⟨b, hb, hd, ht, _⟩ := C53_top_roundtrip e (d fuel) v w [] hw hr (by simpa using hs)
  have r := hr [] (by simpa using hs)
  simp only [List.length_nil, List.nil_append, List.append_nil, Nat.zero_add] at r
  refine ⟨b, hb, by simpa using ht, fun m hm => ?_⟩
  rw [hd] at hm ⊢
  exact C91_truncated L h1 h2 h3 h4 d h fuel none none (FaOk?.none _) ⟨w, 0⟩ ⟨w, w.length⟩ ⟨Nat.zero_le _, hs⟩ v r m
    (Nat.zero_le _) hm (by simp only; omega)

/-- The struct `message` of PropDerive.lean (a number, a string with a counted length and a list of an enum): the first
nine bytes are a message, the first eight, seven, ... are not. -/
example (m : Nat) (hm : m < 9) :
    ∃ e, decodeTop (decStruct (message 20)) (([2, 65, 66, 2, 0, 7, 1, 0, 3, 99] : List Byte).take m) = .err e :=
  C91_truncated strict rfl rfl rfl rfl (fun fuel => decStruct (message fuel)) message_derivable 20 none none
    (FaOk?.none _) ⟨[2, 65, 66, 2, 0, 7, 1, 0, 3, 99], 0⟩ ⟨[2, 65, 66, 2, 0, 7, 1, 0, 3, 99], 9⟩
    ⟨Nat.zero_le _, by rw [isizeMax_def]; decide⟩
    [.num 2, .bytes [65, 66], .choices [(1, [.num 1]), (0, [.num 3])]] (by decide +kernel) m (Nat.zero_le _) hm
    (by simp only; omega)

/-- No proper part of the four bytes of a `u32` is a `u32`, for all values. -/
example (x : Nat) (hx : x < 4294967296) : ∃ b, encodeTop (encInt ⟨4, false⟩) x = .ok b ∧
    decodeTop (decInt ⟨4, false⟩) b.data = .ok x ∧
    ∀ m < b.data.length, ∃ e, decodeTop (decInt ⟨4, false⟩) (b.data.take m) = .err e :=
  C91_encoding strict rfl rfl rfl rfl (fun _ => decInt ⟨4, false⟩) (encInt ⟨4, false⟩)
    (.int ⟨4, false⟩ (fun _ => .inr (by decide))) x (toBytes .be 4 x)
    (by rw [toBytes_length, isizeMax_def]; decide) 5 (by rw [toBytes_length]; decide)
    (int_writes ⟨4, false⟩ (.mk _ _ (by decide)) x none none rfl rfl)
    (int_reads ⟨4, false⟩ (.mk _ _ (by decide)) x none none _ rfl rfl hx)

/-- Types that adapt to where the data ends are outside of C91: cut off, an `Option` is absent and a list with
`try_count` shorter. -/
example : decOption (decInt ⟨2, false⟩) none none ⟨[5], 0⟩ = (.ok none, ⟨[5], 0⟩) ∧
    decVec 9 (decInt ⟨1, false⟩) none (some { tryCount := some 2 }) ⟨[5], 0⟩ = (.ok [5], ⟨[5], 1⟩) := by
  decide +kernel

end JBytes
