import Verif.Renewable
import Verif.PropReencode
/-!
# C112: decoding, encoding and decoding again gives the same value
-/

namespace JBytes
open M

variable {α β V : Type}

/-- C112, the part that holds: for the types of `Renewable`, whatever is decoded - from any input, also one the
encoder would not write - is encoded, and decoding the result gives the same value and consumes all of it, wherever it
stands and whatever follows (nothing, if the type ends in a string that takes the rest, an `Option`, or a list with
`try_count` or `loop_skip_starts`).
Missing from the full statement: `untake` outside words of bit fields, `from_str`, `with` functions, `variable_name`,
`branch_starts_with` with a default variant, `Option`, `try_count` and `loop_skip_starts` with something behind them
(`C112_violated`, `C112_follow_violated` for some of these), and maps, for which see `C112_map_partial`; sets have no encoder. -/
theorem C112_renew_partial (last : Bool) (A : Option FAttr → Prop) (d : Dec α) (e : Enc α) (h : Renewable last A α d e)
    (ca : Option CAttr) (fa : Option FAttr) (hA : A fa) (b b' : Buf) (hp : b.pos ≤ b.data.length)
    (hs : b.data.length ≤ isizeMax) (v : α) (hd : d ca fa b = (.ok v, b')) :
    ∃ w, (∀ pre : List Byte, pre.length + w.length ≤ isizeMax →
        ∃ n, e v ca fa ⟨pre, pre.length⟩ = (.ok n, ⟨pre ++ w, pre.length + w.length⟩)) ∧
      ∀ pre suf : List Byte, pre.length + w.length + suf.length ≤ isizeMax → (last = true → suf = []) →
        d ca fa ⟨pre ++ (w ++ suf), pre.length⟩ = (.ok v, ⟨pre ++ (w ++ suf), pre.length + w.length⟩) := by
  obtain ⟨_, w, hw, hr⟩ := h.renews ca fa hA b v b' ⟨hp, hs⟩ hd
  exact ⟨w, hw, fun pre suf hsz hl => hr suf hl pre hsz⟩

/-- C112 (whole messages): `decode`, `encode` and `decode` again give the value of the first `decode`, and a second
`encode` gives the bytes of the first, unless they are more than a `Vec` can hold. -/
theorem C112_top_partial (last : Bool) (A : Option FAttr → Prop) (d : Dec α) (e : Enc α) (h : Renewable last A α d e)
    (hA : A none) (input : List Byte) (hs : input.length ≤ isizeMax) (v : α) (hd : decodeTop d input = .ok v) :
    ∃ w, w.length ≤ isizeMax → encodeTop e v = .ok ⟨w, w.length⟩ ∧ decodeTop d w = .ok v ∧
      ∀ v', decodeTop d w = .ok v' → encodeTop e v' = .ok ⟨w, w.length⟩ := by
  rcases hx : d none none ⟨input, 0⟩ with ⟨o, b'⟩
  have ho : o = .ok v := by
    have := congrArg Prod.fst hx
    exact this.symm.trans hd
  subst ho
  obtain ⟨w, hw, hr⟩ := C112_renew_partial last A d e h none none hA ⟨input, 0⟩ b' (Nat.zero_le _) hs v hx
  refine ⟨w, fun hl => ?_⟩
  have e1 : encodeTop e v = .ok ⟨w, w.length⟩ := by
    obtain ⟨n, hn⟩ := hw [] (by simpa using hl)
    simp only [List.length_nil, List.nil_append, Nat.zero_add] at hn
    unfold encodeTop
    rw [show Buf.new = ⟨[], 0⟩ from rfl, hn]
  have e2 : decodeTop d w = .ok v := by
    have := hr [] [] (by simpa using hl) (fun _ => rfl)
    simp only [List.length_nil, List.nil_append, List.append_nil, Nat.zero_add] at this
    show (d none none ⟨w, 0⟩).1 = _
    rw [this]
  refine ⟨e1, e2, fun v' h' => ?_⟩
  rw [e2, Out.ok.injEq] at h'
  rw [← h']
  exact e1

/-- C112 (comparing encodings): values decoded from any two inputs are equal if their encodings are, so decoded
messages can be compared by comparing what `encode` makes of them. -/
theorem C112_compare_partial (last : Bool) (A : Option FAttr → Prop) (d : Dec α) (e : Enc α) (h : Renewable last A α d e)
    (hA : A none) (x y : List Byte) (hx : x.length ≤ isizeMax) (hy : y.length ≤ isizeMax) (u v : α)
    (hu : decodeTop d x = .ok u) (hv : decodeTop d y = .ok v) :
    ∃ wu wv, (wu.length ≤ isizeMax → encodeTop e u = .ok ⟨wu, wu.length⟩) ∧
      (wv.length ≤ isizeMax → encodeTop e v = .ok ⟨wv, wv.length⟩) ∧
      (wu.length ≤ isizeMax → wv.length ≤ isizeMax → (encodeTop e u = encodeTop e v ↔ u = v)) := by
  obtain ⟨wu, hwu⟩ := C112_top_partial last A d e h hA x hx u hu
  obtain ⟨wv, hwv⟩ := C112_top_partial last A d e h hA y hy v hv
  refine ⟨wu, wv, fun l => (hwu l).1, fun l => (hwv l).1, fun l1 l2 => ⟨fun he => ?_, fun he => by rw [he]⟩⟩
  obtain ⟨a1, a2, _⟩ := hwu l1
  obtain ⟨c1, c2, _⟩ := hwv l2
  rw [a1, c1, Out.ok.injEq, Buf.mk.injEq] at he
  rw [he.1, c2, Out.ok.injEq] at a2
  exact a2.symm

/-! ## Instances -/

/-- What `bool` fields hold. -/
def truthOf : Val → Option Bool
  | .num n => some (n != 0)
  | _ => none

/-- The byte string in a value. -/
def stringOf : Val → Option (List Byte)
  | .bytes l => some l
  | _ => none

theorem num_renewable (last : Bool) (A : Option FAttr → Prop) (k : IntKind) (hk : k.Valid)
    (hb : ∀ fr, A (some fr) → fr.bits = none) : Renewable last A Val (numDec k) (numEnc k) := by
  have e : numEnc k = fun v ca fa => encOption (encInt k) (numberOf v) ca fa := by
    funext v ca fa
    cases v <;> rfl
  rw [e]
  exact .inject Val.num numberOf (fun _ => rfl) (.int k hk hb)

theorem bool_renewable (last : Bool) (A : Option FAttr → Prop) (a : FieldAttrs Val) :
    Renewable last A Val (boolField a).dec (boolField a).enc := by
  have e : (boolField a).enc = fun v ca fa => encOption encBool (truthOf v) ca fa := by
    funext v ca fa
    cases v <;> rfl
  rw [e]
  exact .inject (fun x : Bool => Val.num x.toNat) truthOf (fun x => by cases x <;> rfl) .bool

theorem bytes_renewable (last : Bool) (A : Option FAttr → Prop) (h : last = true ∨ ∀ fa, A fa → framingOf fa ≠ .rest) :
    Renewable last A Val bytesDec bytesEnc := by
  have e : bytesEnc = fun v ca fa => encOption encBytes (stringOf v) ca fa := by
    funext v ca fa
    cases v <;> rfl
  rw [e]
  exact .inject Val.bytes stringOf (fun _ => rfl) (.bytes h)

/-- `value_encode` and `value_decode` of the example: all bits of the low byte turned over. -/
def turnOver : Val → Val
  | .num n => .num (n ^^^ 0xFF)
  | v => v

/-- `ok: bool; #[linend = ";", key = ":"] name: Vec<u8>; #[bits = 0xF0, bits_start, untake] hi: u8; #[bits = 0x0F] lo: u8;
#[skip] z: u8; #[offset = 2, value_encode/decode = "^ 0xFF"] x: u16; #[remaining] rest: Vec<u8>`. -/
def parcel : StructDef Val :=
  { fields := [
      boolField {},
      bytesField { isUse := true, linend := some [59], key := some [58] },
      u8Field { isUse := true, bits := some fun _ => 0xF0, bitsStart := true, untake := true },
      u8Field { isUse := true, bits := some fun _ => 0x0F },
      u8Field { isUse := true, skip := true },
      u16Field { isUse := true, offset := some fun _ => 2, valueEncode := some fun _ => turnOver
                 valueDecode := some fun _ => turnOver },
      bytesField { isUse := true, remaining := true }] }

/-- The fields of `parcel` in runs; the last one relies on nothing following. -/
def parcelRuns : List (Bool × Stretch Val) := [
  (false, .plain parcel.fields[0]),
  (false, .plain parcel.fields[1]),
  (false, .word Val.num ⟨1, false⟩ .be [parcel.fields[2], parcel.fields[3]]
    ⟨{ bits := some 0xF0, bitsStart := true }, 4, 7, 0⟩ [⟨{ bits := some 0x0F }, 0, 7, 0⟩]),
  (false, .skip parcel.fields[4]),
  (false, .plain parcel.fields[5]),
  (true, .plain parcel.fields[6])]

/-- The modifiers `f` passes in some scope. -/
def Used (f : Field V) (fa : Option FAttr) : Prop := ∃ env, fa = ownModifiers f.attrs env

theorem turnOver_twice (v : Val) : turnOver (turnOver v) = v := by
  cases v with
  | num n => simp [turnOver, Nat.xor_assoc]
  | _ => rfl

theorem parcel_bits (a : FieldAttrs Val) (m : BitMember) (h1 : Ordinary a) (h2 : ∀ env, OrderOk a env)
    (h3 : ∀ env, ownModifiers a env = some m.fr) (h4 : a.bits.isSome = true) (h5 : a.offset = none) (h6 : a.ifExpr = none)
    (h7 : a.valueEncode = none ∧ a.valueDecode = none) (h8 : a.variableName = none) :
    IsBits Val.num ⟨1, false⟩ (u8Field a) m :=
  ⟨fun _ _ => rfl, fun _ _ _ => rfl, h1, h2, h3, h4, h5, h6, fun env x => by
    simp [sentValue, finalValue, u8Field, h7.1, h7.2], h8⟩

theorem parcel_runs_fine : ∀ p ∈ parcelRuns, p.2.Fine none Used := by
  intro p hp
  simp only [parcelRuns, List.mem_cons, List.not_mem_nil, or_false] at hp
  rcases hp with rfl | rfl | rfl | rfl | rfl | rfl
  · exact ⟨⟨⟨rfl, rfl, rfl, rfl, rfl, rfl⟩, rfl, rfl, (fun _ e h => by cases h), fun _ _ => rfl⟩, fun env => ⟨env, rfl⟩, .inl rfl, .inl rfl⟩
  · exact ⟨⟨⟨rfl, rfl, rfl, rfl, rfl, rfl⟩, rfl, rfl, (fun _ e h => by cases h), fun _ _ => rfl⟩, fun env => ⟨env, rfl⟩, .inl rfl, .inl rfl⟩
  · refine ⟨.mk _ _ (by decide), by decide, rfl, ?_, ?_, rfl, ?_, ?_⟩
    · exact ⟨parcel_bits _ _ ⟨rfl, rfl, rfl, rfl, rfl, rfl⟩ (fun _ e h => by cases h) (fun _ => rfl) rfl rfl rfl ⟨rfl, rfl⟩ rfl, rfl,
        parcel_bits _ _ ⟨rfl, rfl, rfl, rfl, rfl, rfl⟩ (fun _ e h => by cases h) (fun _ => rfl) rfl rfl rfl ⟨rfl, rfl⟩ rfl, rfl⟩
    · intro y hy
      simp only [List.mem_cons, List.not_mem_nil, or_false] at hy
      rcases hy with rfl | rfl <;> exact ⟨rfl, rfl, rfl, by simp [BitMember.mask]⟩
    · intro y hy
      simp only [List.mem_cons, List.not_mem_nil, or_false] at hy
      subst hy
      rfl
    · simp [BitMember.mask]
  · exact ⟨rfl, rfl, rfl, rfl, rfl, fun _ e h => by cases h⟩
  · refine ⟨⟨⟨rfl, rfl, rfl, rfl, rfl, rfl⟩, rfl, rfl, (fun _ e h => by cases h), fun _ v => turnOver_twice v⟩, fun env => ⟨env, rfl⟩, .inl rfl, .inr ⟨rfl, ?_⟩⟩
    intro env b h1 h2 v b' he
    have : takeBytes 2 b = _ := takeBytes_past 2 b h1 h2
    have e : numDec ⟨2, false⟩ none none b = (.err ⟨b.pos, .invalidByteLength⟩, b) := by
      show (mapM' Val.num (decInt ⟨2, false⟩ none none)) b = _
      rw [mapM'_apply]
      have : decInt ⟨2, false⟩ none none b = (.err ⟨b.pos, .invalidByteLength⟩, b) := by
        rw [((C19_byteorder none none _ rfl).1 ⟨2, false⟩ 0 rfl rfl).1]
        show (takeBytes 2 >>= _) b = _
        rw [bind_apply, takeBytes_past 2 b h1 h2]
        rfl
      rw [this]
    exact absurd (e.symm.trans he) (by simp)
  · exact ⟨⟨⟨rfl, rfl, rfl, rfl, rfl, rfl⟩, rfl, rfl, (fun _ e h => by cases h), fun _ _ => rfl⟩, fun env => ⟨env, rfl⟩, .inl rfl, .inl rfl⟩

theorem parcel_renewable (A : Option FAttr → Prop) :
    Renewable true A (List Val) (decStruct parcel) (encStruct parcel) := by
  refine .struct parcel Used parcelRuns rfl rfl (fun h => nomatch h) rfl ⟨rfl, rfl, rfl, rfl, rfl, fun _ => rfl⟩ parcel_runs_fine ?_
  intro p hp f hf
  simp only [parcelRuns, List.mem_cons, List.not_mem_nil, or_false] at hp
  rcases hp with rfl | rfl | rfl | rfl | rfl | rfl <;> cases hf
  · exact bool_renewable _ _ _
  · exact bytes_renewable _ _ (.inr fun fa ⟨env, h⟩ => by subst h; exact fun h => Framing.noConfusion h)
  · refine num_renewable _ _ _ (.mk _ _ (by decide)) ?_
    rintro fr ⟨env, h⟩
    cases h
  · exact bytes_renewable _ _ (.inl rfl)

/-- An input that is not what `encode` writes: 9 for true, bytes before the key, bytes jumped over. -/
def parcelInput : List Byte := [9, 1, 2, 58, 65, 66, 59, 0x3C, 7, 7, 0, 5, 1, 2, 3]

unseal isizeMax in
example : decodeTop (decStruct parcel) parcelInput =
      .ok [.num 1, .bytes [65, 66], .num 3, .num 12, .num 0, .num 250, .bytes [1, 2, 3]] ∧
    (encodeTop (encStruct parcel) [.num 1, .bytes [65, 66], .num 3, .num 12, .num 0, .num 250, .bytes [1, 2, 3]]) =
      .ok ⟨[1, 58, 65, 66, 59, 0x3C, 0, 0, 0, 5, 1, 2, 3], 13⟩ := by decide +kernel

example (input : List Byte) (hs : input.length ≤ isizeMax) (v : List Val)
    (hd : decodeTop (decStruct parcel) input = .ok v) :
    ∃ w, w.length ≤ isizeMax → encodeTop (encStruct parcel) v = .ok ⟨w, w.length⟩ ∧
      decodeTop (decStruct parcel) w = .ok v ∧
      ∀ v', decodeTop (decStruct parcel) w = .ok v' → encodeTop (encStruct parcel) v' = .ok ⟨w, w.length⟩ :=
  C112_top_partial true (fun _ => True) _ _ (parcel_renewable _) trivial input hs v hd

/-- An enum with a range and a default variant: `#[branch_range = "3..=5"] A { x: bool }, B = 9,
#[branch_default] Other`. -/
def reply : EnumDef Val :=
  { variants := [{ branchRange := some (3, 5, true), fields := [boolField {}] }, { disc := some 9 }, { branchDefault := true }] }

theorem reply_tags (ca : Option CAttr) : TagsBack reply ca none := by
  intro i v num hv
  refine .inr ?_
  have hz := (zip_get reply i v num).mpr hv
  have hl : i < 3 := by
    have := (List.getElem?_eq_some_iff.mp hv.1).1
    exact this
  have wire : ∀ (n : Nat) (v : Variant Val), n < 256 → TagWire reply v n ca none (.num n) [UInt8.ofNat n] := fun n v h =>
    .byte rfl rfl rfl rfl rfl h
  rcases i with _ | _ | _ | i
  · cases hz
    exact ⟨_, _, wire _ _ (by decide), (findArm_selects reply _ _ _).mp rfl⟩
  · cases hz
    exact ⟨_, _, wire _ _ (by decide), (findArm_selects reply _ _ _).mp rfl⟩
  · cases hz
    exact ⟨_, _, wire _ _ (by decide), (findArm_selects reply _ _ _).mp rfl⟩
  · omega

theorem reply_renewable : Renewable false (· = none) (Nat × List Val) (decEnum reply) (encEnum reply) := by
  refine .enum reply Used (fun v => v.fields.map fun f => (false, .plain f)) rfl (fun u h => nomatch h)
    (fun ca fa h => by subst h; exact reply_tags ca) ?_ ?_ ?_ ?_
  all_goals
    intro v hv
    simp only [reply, List.mem_cons, List.not_mem_nil, or_false] at hv
  · rcases hv with rfl | rfl | rfl <;> exact ⟨rfl, rfl, rfl, by simp [NoLeak]⟩
  · rcases hv with rfl | rfl | rfl <;> exact ⟨rfl, by simp [Flags]⟩
  · rcases hv with rfl | rfl | rfl
    · intro p hp
      simp only [List.map_cons, List.map_nil, List.mem_singleton] at hp
      subst hp
      exact ⟨⟨⟨rfl, rfl, rfl, rfl, rfl, rfl⟩, rfl, rfl, (fun _ e h => by cases h), fun _ _ => rfl⟩, fun env => ⟨env, rfl⟩, .inl rfl, .inl rfl⟩
    · intro p hp; simp at hp
    · intro p hp; simp at hp
  · rcases hv with rfl | rfl | rfl
    · intro p hp f hf
      simp only [List.map_cons, List.map_nil, List.mem_singleton] at hp
      subst hp
      cases hf
      exact bool_renewable _ _ _
    · intro p hp; simp at hp
    · intro p hp; simp at hp

/-- Tag 4 comes back as 5, tag 77 as 10: the values are the same. -/
example : decodeTop (decEnum reply) [4, 8] = .ok (0, [.num 1]) ∧
    encodeTop (encEnum reply) (0, [.num 1]) = .ok ⟨[5, 1], 2⟩ ∧
    decodeTop (decEnum reply) [77] = .ok (2, []) ∧ encodeTop (encEnum reply) (2, []) = .ok ⟨[10], 1⟩ := by decide +kernel

/-- C112 fails outside these types.  Each line: an input, what it decodes to, what that is encoded to, and what that
decodes to.
1. a default variant is written with its number, here that of a variant that comes earlier.
2. a range without its end is written as its end, which no variant accepts.
3. an `untake` field is not written, and the last one is then missing.
4. a default variant under `branch_starts_with` is written with its name, which is then data. -/
theorem C112_violated :
    (decodeTop (decEnum { variants := [{ disc := some 7 }, { disc := some 6 }, { branchDefault := true }] }) [9] = .ok (2, ([] : List Val)) ∧
      encodeTop (encEnum { variants := [{ disc := some 7 }, { disc := some 6 }, { branchDefault := true }] }) (2, ([] : List Val)) = .ok ⟨[7], 1⟩ ∧
      decodeTop (decEnum { variants := [{ disc := some 7 }, { disc := some 6 }, { branchDefault := true }] }) [7] = .ok (0, ([] : List Val))) ∧
    (decodeTop (decEnum { variants := [{ branchRange := some (2, 5, false) }] }) [3] = .ok (0, ([] : List Val)) ∧
      encodeTop (encEnum { variants := [{ branchRange := some (2, 5, false) }] }) (0, ([] : List Val)) = .ok ⟨[5], 1⟩ ∧
      decodeTop (decEnum (V := Val) { variants := [{ branchRange := some (2, 5, false) }] }) [5] = .err ⟨1, .invalidByteLength⟩) ∧
    (decodeTop (decStruct { fields := [u8Field {}, u8Field { isUse := true, untake := true }] }) [5, 6] = .ok [.num 5, .num 6] ∧
      encodeTop (encStruct { fields := [u8Field {}, u8Field { isUse := true, untake := true }] }) [.num 5, .num 6] = .ok ⟨[5], 1⟩ ∧
      decodeTop (decStruct { fields := [u8Field {}, u8Field { isUse := true, untake := true }] }) [5]
        = .err ⟨1, .invalidByteLength⟩) ∧
    (decodeTop (decEnum { mode := .startsWith false, variants := [{ branchValue := some (.bytes [82]) },
        { name := [117], branchDefault := true, fields := [u8Field {}] }] }) [9] = .ok (1, [.num 9]) ∧
      encodeTop (encEnum { mode := .startsWith false, variants := [{ branchValue := some (.bytes [82]) },
        { name := [117], branchDefault := true, fields := [u8Field {}] }] }) (1, [.num 9]) = .ok ⟨[117, 9], 2⟩ ∧
      decodeTop (decEnum { mode := .startsWith false, variants := [{ branchValue := some (.bytes [82]) },
        { name := [117], branchDefault := true, fields := [u8Field {}] }] }) [117, 9] = .ok (1, [.num 117])) := by
  refine ⟨⟨?_, ?_, ?_⟩, ⟨?_, ?_, ?_⟩, ⟨?_, ?_, ?_⟩, ⟨?_, ?_, ?_⟩⟩ <;> decide +kernel

end JBytes
