import Verif.Final
import Verif.PropRecursive
import Verif.PropTruncate
/-!
# C99: lack of bytes and malformed bytes are told apart

A program that receives a message in pieces decodes what it has after each piece.  It must wait when bytes are missing
and drop the connection when the bytes it has are wrong, and all it has to go by is the code of the error:
`InvalidByteLength`, or another one.
-/

namespace JBytes
open M

variable {α V : Type}

/-- Any code but `InvalidByteLength`. -/
def Malformed (c : ErrCode) : Prop := c ≠ .invalidByteLength

instance : Short Malformed := ⟨fun h => h rfl⟩
instance : Short (· = .invalidValue) := ⟨fun h => nomatch h⟩

/-- **C99**, partial: for types that do not look for the end of the data or for a terminator, an error other than
`InvalidByteLength` is final: whatever bytes follow, decoding fails with the same error at the same position.  Missing:
fields that end at a terminator, where `Fail` is also returned for lack of bytes (`C99_terminator`). -/
theorem C99_final_partial (L : Limits) (h1 : L.standalone = true) (h2 : L.searchless = true) (d : Nat → Dec α)
    (h : Derivable L α d) (fuel : Nat) (ca : Option CAttr) (fa : Option FAttr) (hfa : FaOk? L fa)
    (data suf : List Byte) (p q : Nat) (e : JErr) (hp : p < usizeMod) (hs : (data ++ suf).length ≤ isizeMax)
    (he : d fuel ca fa ⟨data, p⟩ = (.err e, ⟨data, q⟩)) (hc : e.code ≠ .invalidByteLength) :
    d fuel ca fa ⟨data ++ suf, p⟩ = (.err e, ⟨data ++ suf, q⟩) :=
  ((Derivable.keeps (C := Malformed) h1 (fun _ => h2) h fuel ca fa hfa).2 data p
    (by rw [List.length_append] at hs; omega) hp e _ he hc).2 suf hs

/-- **C99**, values refused by `check_value`: `InvalidValue` is final for all types that do not look for the end of the
data, also for those with terminators. -/
theorem C99_value_final (L : Limits) (h1 : L.standalone = true) (d : Nat → Dec α)
    (h : Derivable L α d) (fuel : Nat) (ca : Option CAttr) (fa : Option FAttr) (hfa : FaOk? L fa)
    (data suf : List Byte) (p q : Nat) (e : JErr) (hp : p < usizeMod) (hs : (data ++ suf).length ≤ isizeMax)
    (he : d fuel ca fa ⟨data, p⟩ = (.err e, ⟨data, q⟩)) (hc : e.code = .invalidValue) :
    d fuel ca fa ⟨data ++ suf, p⟩ = (.err e, ⟨data ++ suf, q⟩) :=
  ((Derivable.keeps (C := (· = .invalidValue)) h1 (fun h => nomatch h) h fuel ca fa hfa).2 data p
    (by rw [List.length_append] at hs; omega) hp e _ he hc).2 suf hs

/-- **C99**, a message cut off anywhere fails with `InvalidByteLength`, so the reader waits for the rest. -/
theorem C99_cut_off_partial (L : Limits) (h1 : L.noOffset = true) (h2 : L.standalone = true) (h3 : L.narrow = true)
    (h4 : L.prefixes = true) (h5 : L.searchless = true) (d : Nat → Dec α) (h : Derivable L α d) (fuel : Nat)
    (ca : Option CAttr) (fa : Option FAttr) (hfa : FaOk? L fa) (b b' : Buf) (hb : b.Ok) (v : α)
    (he : d fuel ca fa b = (.ok v, b')) (m : Nat) (hm : b.pos ≤ m) (hq : m < b'.pos) (hf : m - b.pos < fuel) :
    ∃ pos, (d fuel ca fa ⟨b.data.take m, b.pos⟩).1 = .err ⟨pos, .invalidByteLength⟩ := by
  obtain ⟨e, hx⟩ := C91_truncated L h1 h2 h3 h4 d h fuel ca fa hfa b b' hb v he m hm hq hf
  by_cases hc : e.code = .invalidByteLength
  · exact ⟨e.position, by rw [hx, ← hc]⟩
  · exfalso
    have hlt := isizeMax_lt
    have hbl := hb.2
    have hbp := hb.1
    rcases hr : d fuel ca fa ⟨b.data.take m, b.pos⟩ with ⟨o, c⟩
    rw [hr] at hx
    simp only at hx
    subst hx
    have := ((Derivable.keeps (C := Malformed) h2 (fun _ => h5) h fuel ca fa hfa).2 _ _
      (by rw [List.length_take]; omega) (by omega) e c hr hc).2 (b.data.drop m)
      (by rw [List.take_append_drop]; omega)
    rw [List.take_append_drop] at this
    have this : d fuel ca fa b = _ := this
    rw [he] at this
    cases this

/-- **C99**, what a reader of a stream sees: of two pieces of a stream, from its start, either the shorter one gives
`InvalidByteLength` or the longer one gives the same as the shorter one.  So the answer is `InvalidByteLength` for a
while, and from then on always the same. -/
theorem C99_stream_partial (L : Limits) (h1 : L.noOffset = true) (h2 : L.standalone = true) (h3 : L.narrow = true)
    (h4 : L.prefixes = true) (h5 : L.searchless = true) (d : Nat → Dec α) (h : Derivable L α d) (stream : List Byte)
    (hs : stream.length ≤ isizeMax) (fuel : Nat) (hf : stream.length < fuel) (k m : Nat) (hkm : k ≤ m) :
    (∃ pos, decodeTop (d fuel) (stream.take k) = .err ⟨pos, .invalidByteLength⟩) ∨
      decodeTop (d fuel) (stream.take m) = decodeTop (d fuel) (stream.take k) := by
  have hlt := isizeMax_lt
  have hlen : ∀ m, (stream.take m).length ≤ isizeMax := fun m => by rw [List.length_take]; omega
  have e : stream.take k ++ (stream.take m).drop k = stream.take m := by
    have := List.take_append_drop k (stream.take m)
    rwa [List.take_take, Nat.min_eq_left hkm] at this
  have keep := Derivable.keeps (C := Malformed) h2 (fun _ => h5) h fuel none none (FaOk?.none _)
  rcases hr : d fuel none none ⟨stream.take k, 0⟩ with ⟨o, c⟩
  have hr' : decodeTop (d fuel) (stream.take k) = o := congrArg Prod.fst hr
  rcases C49_total_partial L h1 h3 h4 d h none none (FaOk?.none _) ⟨stream.take k, 0⟩ ⟨Nat.zero_le _, hlen k⟩ fuel
    (by simp only [List.length_take]; omega) with ⟨v, hv⟩ | ⟨x, hx⟩
  · rw [hr] at hv
    simp only at hv
    subst hv
    right
    have := (keep.1 _ 0 (hlen k) (by omega) v c hr).2.2 _ (by rw [e]; exact hlen m)
    rw [e] at this
    rw [hr']
    exact congrArg Prod.fst this
  · rw [hr] at hx
    simp only at hx
    subst hx
    by_cases hc : x.code = .invalidByteLength
    · exact .inl ⟨x.position, by rw [hr', ← hc]⟩
    · right
      have := (keep.2 _ 0 (hlen k) (by omega) x c hr hc).2 _ (by rw [e]; exact hlen m)
      rw [e] at this
      rw [hr']
      exact congrArg Prod.fst this

/-- **C99** for recursive types. -/
theorem C99_recursive_final_partial {ι : Type} {T : ι → Type}
    {F : ((i : ι) → Nat → Dec (T i)) → (i : ι) → Nat → Dec (T i)} (L : Limits) (h1 : L.standalone = true)
    (h2 : L.searchless = true) (hF : ∀ d i, DerivableIn L (Among d) (T i) (F d i)) (depth fuel : Nat) (i : ι)
    (ca : Option CAttr) (fa : Option FAttr) (hfa : FaOk? L fa) (data suf : List Byte) (p q : Nat) (e : JErr)
    (hp : p < usizeMod) (hs : (data ++ suf).length ≤ isizeMax)
    (he : decRec F depth i fuel ca fa ⟨data, p⟩ = (.err e, ⟨data, q⟩)) (hc : e.code ≠ .invalidByteLength) :
    decRec F depth i fuel ca fa ⟨data ++ suf, p⟩ = (.err e, ⟨data ++ suf, q⟩) := by
  have : ∀ i ca fa, FaOk? L fa → Keeps Malformed (decRec F depth i fuel ca fa) := by
    clear he hfa
    induction depth with
    | zero =>
      intro i ca fa _
      exact .quiet (Ext.never fun b v h => by cases h) fun b e h => by cases h
    | succ k ih =>
      intro i ca fa hfa
      refine (hF (decRec F k) i).keeps h1 (fun _ => h2) fuel ?_ ca fa hfa
      rintro _ _ ⟨i⟩
      exact ih i
  exact ((this i ca fa hfa).2 data p (by rw [List.length_append] at hs; omega) hp e _ he hc).2 suf hs

/-! ## Where it fails -/

/-- C99 fails for every field that ends at a terminator: as long as the terminator has not arrived the error is `Fail`,
the one for malformed bytes, although the message is complete as soon as it arrives. -/
theorem C99_terminator (x data : List Byte) (hx : x ≠ []) (hn : ∀ i, ¬ OccursAt x data i)
    (hs : (data ++ x).length ≤ isizeMax) :
    decBytes none (some { linendValue := some x }) ⟨data, 0⟩ = (.err ⟨0, .fail⟩, ⟨data, 0⟩) ∧
      ∃ v q, decBytes none (some { linendValue := some x }) ⟨data ++ x, 0⟩ = (.ok v, ⟨data ++ x, q⟩) := by
  have hd : data.length ≤ isizeMax := by rw [List.length_append] at hs; omega
  have e : ∀ b : Buf, decBytes none (some { linendValue := some x }) b = findSubsequence x b := fun b => rfl
  rw [e, e, findSubsequence_apply x _ ⟨Nat.zero_le _, hd⟩, findSubsequence_apply x _ ⟨Nat.zero_le _, hs⟩]
  constructor
  · cases hf : findSub x ((⟨data, 0⟩ : Buf).data.drop 0) with
    | none => rfl
    | some i => exact absurd (findSub_some hf).1 (hn i)
  · cases hf : findSub x ((⟨data ++ x, 0⟩ : Buf).data.drop 0) with
    | none => exact absurd ⟨data, [], by simp, rfl⟩ (findSub_none hf data.length)
    | some i => exact ⟨_, _, rfl⟩

/-- C99 fails for an unknown tag of an enum: the error is `InvalidByteLength` whatever follows, so the reader waits for
ever. -/
theorem C99_unknown_tag (E : EnumDef V) (hw : E.withDecode = none) (hm : ∀ u, E.mode ≠ .startsWith u)
    (ca : Option CAttr) (fa : Option FAttr) (data suf : List Byte) (p q : Nat) (t : Tag) (hp : p < usizeMod)
    (hs : (data ++ suf).length ≤ isizeMax) (ht : E.tagOf ca fa ⟨data, p⟩ = (.ok t, ⟨data, q⟩))
    (hn : ∀ i v n, E.IsVariant i v n → ¬ Accepts v n t) :
    decEnum E ca fa ⟨data ++ suf, p⟩ = (.err ⟨q, .invalidByteLength⟩, ⟨data ++ suf, q⟩) := by
  have hx : Ext (E.tagOf ca fa) := by
    unfold EnumDef.tagOf
    split
    · exact (Ext.takeBytes _).bind fun _ => Ext.pure _
    · exact (Ext.decTag _ _ _).bind fun _ => Ext.pure _
  have := (hx data p (by rw [List.length_append] at hs; omega) hp t _ ht).2.2 suf hs
  exact (C44_dispatch E hw hm ca fa _).2.1 t _ this hn

/-- `enum Verb { #[branch = "GET"] Get, #[branch = "PUT"] Put }`, chosen by the word at the start. -/
def verbEnum : EnumDef Val :=
  { mode := .startsWith false
    variants := [{ name := [71, 69, 84] }, { name := [80, 85, 84] }] }

/-- C99 fails: without its terminator a line is refused as malformed, and so is the first part of a word of an enum; a
tag no variant has is taken for lack of bytes. -/
theorem C99_violated :
    (decodeTop (fun ca _ => decBytes ca (some { linend := true })) [71, 69] = .err ⟨0, .fail⟩ ∧
      decodeTop (fun ca _ => decBytes ca (some { linend := true })) [71, 69, 13, 10] = .ok [71, 69]) ∧
    (decodeTop (decEnum verbEnum) [71, 69] = .err ⟨0, .fail⟩ ∧
      decodeTop (decEnum verbEnum) [71, 69, 84] = .ok (0, [])) ∧
    ∀ rest : List Byte, (9 :: rest).length ≤ isizeMax →
      decodeTop (decEnum kindEnum) (9 :: rest) = .err ⟨1, .invalidByteLength⟩ := by
  refine ⟨⟨by decide +kernel, by decide +kernel⟩, ⟨by decide +kernel, by decide +kernel⟩, fun rest hs => ?_⟩
  have hlt := isizeMax_lt
  have := C99_unknown_tag kindEnum rfl (fun u h => nomatch h) none none [9] rest 0 1 (.num 9) (by omega) hs
    (by decide +kernel) (by
      intro i v n h
      rw [← zip_get] at h
      rw [← pat_test_iff]
      rcases i with _ | _ | i
      · cases h; decide
      · cases h; decide
      · cases h)
  exact congrArg Prod.fst this

/-! ## Examples -/

/-- A string of the length given by its first byte, which is not UTF-8: `Fail` at position 3, whatever follows. -/
example (suf : List Byte) (hs : ([2, 0xC3, 0x28] ++ suf : List Byte).length ≤ isizeMax) :
    decStr none none ⟨[2, 0xC3, 0x28] ++ suf, 0⟩ = (.err ⟨3, .fail⟩, ⟨[2, 0xC3, 0x28] ++ suf, 3⟩) :=
  C99_final_partial strict rfl rfl (fun _ => decStr) .str 0 none none (FaOk?.none _) [2, 0xC3, 0x28] suf 0 3 ⟨3, .fail⟩
    (by have := isizeMax_lt; omega) hs (by decide +kernel) (fun h => nomatch h)

/-- `struct Line { #[linend = b"\r\n"] text: Vec<u8>, #[check_value = "version == 1"] version: u8 }`. -/
def lineStruct : StructDef Part := { fields := [
  ⟨{ isUse := true, linend := some [13, 10] }, fun ca fa => do
      let a ← decBytes ca fa
      return .bytes a, fun _ _ _ => return 0, .num 0, .num 0⟩,
  { lenField with attrs := { isUse := true, checkValue := some fun _ v => v == .num 1 } }] }

theorem line_derivable : Derivable { standalone := true } (List Part) (fun _ => decStruct lineStruct) := by
  refine DerivableIn.struct (fun _ => lineStruct) [fun _ ca fa => do
      let a ← decBytes ca fa
      return .bytes a, fun _ => lenField.dec] ?_ (fun _ => rfl) ?_
  · intro d hd
    simp only [List.mem_cons, List.not_mem_nil, or_false] at hd
    rcases hd with rfl | rfl
    · exact .inject Part.bytes .bytes
    · exact .inject Part.num (.int ⟨1, false⟩ fun _ => .inr (by decide))
  · intro n f hf
    simp only [lineStruct, List.mem_cons, List.not_mem_nil, or_false] at hf
    rcases hf with rfl | rfl
    · refine ⟨⟨rfl, fun _ => rfl, (fun h => nomatch h), fun _ => rfl, fun o env => ?_⟩, _, .head _, rfl⟩
      constructor <;> simp [FieldAttrs.modifiers]
    · refine ⟨⟨rfl, fun _ => rfl, (fun h => nomatch h), fun _ => rfl, fun o env => ?_⟩, _, .tail _ (.head _), rfl⟩
      constructor <;> simp [FieldAttrs.modifiers]

/-- A line and a version that is refused. -/
example (suf : List Byte) (hs : ([65, 13, 10, 2] ++ suf : List Byte).length ≤ isizeMax) :
    decStruct lineStruct none none ⟨[65, 13, 10, 2] ++ suf, 0⟩
      = (.err ⟨4, .invalidValue⟩, ⟨[65, 13, 10, 2] ++ suf, 4⟩) :=
  C99_value_final { standalone := true } rfl (fun _ => decStruct lineStruct) line_derivable 0 none none (FaOk?.none _)
    [65, 13, 10, 2] suf 0 4 ⟨4, .invalidValue⟩ (by have := isizeMax_lt; omega) hs (by decide +kernel) rfl

/-- `struct Low { #[check_value = "value < 128"] value: u8, kids: Vec<Low> }`. -/
def lowField : Field TreeVal := { valueField with attrs := { isUse := true, checkValue := some fun _ v =>
  match v with
  | .num n => n < 128
  | _ => false } }

def lowF (d : Unit → Nat → Dec (List TreeVal)) (_ : Unit) (n : Nat) : Dec (List TreeVal) :=
  decStruct { fields := [lowField, kidsField {} n (d () n) noEnc] }

theorem low_derivable (d : Unit → Nat → Dec (List TreeVal)) (i : Unit) :
    DerivableIn strict (Among d) (List TreeVal) (lowF d i) := by
  refine DerivableIn.struct (fun n => { fields := [lowField, kidsField {} n (d () n) noEnc] })
    [fun _ => valueField.dec, fun n => (kidsField {} n (d () n) noEnc).dec] ?_ (fun _ => rfl) ?_
  · intro e he
    simp only [List.mem_cons, List.not_mem_nil, or_false] at he
    rcases he with rfl | rfl
    · exact value_derivable _
    · exact .inject TreeVal.kids (.vec (.var (.mk ())))
  · intro n f hf
    simp only [List.mem_cons, List.not_mem_nil, or_false] at hf
    rcases hf with rfl | rfl
    · refine ⟨⟨rfl, fun _ => rfl, ?_, fun _ => rfl, fun o env => ?_⟩, fun _ => valueField.dec, by simp, rfl⟩
      · intro _ e env h
        cases h
      · constructor <;> simp [FieldAttrs.modifiers, lowField]
    · exact ⟨attrsOk_plain' _, fun n => (kidsField {} n (d () n) noEnc).dec, by simp, rfl⟩

unseal usizeMod isizeMax in
/-- A tree with a value that is refused inside, while the rest of the tree has not arrived. -/
example (suf : List Byte) (h : ([7, 2, 200] ++ suf).length ≤ isizeMax) :
    decRec lowF 9 () 9 none none ⟨[7, 2, 200] ++ suf, 0⟩ = (.err ⟨3, .invalidValue⟩, ⟨[7, 2, 200] ++ suf, 3⟩) :=
  C99_recursive_final_partial (T := fun _ : Unit => List TreeVal) strict rfl rfl low_derivable 9 9 () none none
    (FaOk?.none _) [7, 2, 200] suf 0 3 _ (by decide +kernel) h rfl (fun h => nomatch h)

/-- The struct `message` of PropDerive.lean: any first part of the nine bytes of a message is answered with
`InvalidByteLength`. -/
example (m : Nat) (hm : m < 9) : ∃ pos, decodeTop (decStruct (message 20))
    (([2, 65, 66, 2, 0, 7, 1, 0, 3, 99] : List Byte).take m) = .err ⟨pos, .invalidByteLength⟩ :=
  C99_cut_off_partial strict rfl rfl rfl rfl rfl (fun fuel => decStruct (message fuel)) message_derivable 20 none none
    (FaOk?.none _) ⟨[2, 65, 66, 2, 0, 7, 1, 0, 3, 99], 0⟩ ⟨[2, 65, 66, 2, 0, 7, 1, 0, 3, 99], 9⟩
    ⟨Nat.zero_le _, by rw [isizeMax_def]; decide⟩
    [.num 2, .bytes [65, 66], .choices [(1, [.num 1]), (0, [.num 3])]] (by decide +kernel) m (Nat.zero_le _) hm
    (by simp only; omega)

/-- The same for any stream of messages. -/
example (stream : List Byte) (hs : stream.length ≤ isizeMax) (k m : Nat) (hkm : k ≤ m) :
    (∃ pos, decodeTop (decStruct (message (stream.length + 1))) (stream.take k) = .err ⟨pos, .invalidByteLength⟩) ∨
      decodeTop (decStruct (message (stream.length + 1))) (stream.take m) =
        decodeTop (decStruct (message (stream.length + 1))) (stream.take k) :=
  C99_stream_partial strict rfl rfl rfl rfl rfl (fun fuel => decStruct (message fuel)) message_derivable stream hs _
    (Nat.lt_succ_self _) k m hkm

/-- A terminator of two bytes of which the first has arrived. -/
example : decBytes none (some { linendValue := some [13, 10] }) ⟨[71, 13], 0⟩ = (.err ⟨0, .fail⟩, ⟨[71, 13], 0⟩) :=
  (C99_terminator [13, 10] [71, 13] (by decide) (by
    rintro i ⟨a, c, h, rfl⟩
    rcases a with _ | ⟨x, _ | ⟨y, a⟩⟩ <;> simp at h) (by rw [isizeMax_def]; decide)).1

end JBytes
