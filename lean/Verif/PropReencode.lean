import Verif.Reencode
import Verif.PropDerive
import Verif.PropTop
/-!
# C63: decoding, then encoding
-/

namespace JBytes
open M

variable {α V : Type}

/-- C63, partial: for every type whose decoder forgets nothing, whatever is decoded, from any position of any data, is
encoded again as exactly the bytes that were consumed.  Missing: `bool`, sets, maps, `bits`, `offset`, `key`, `split`,
`try_count`, default and range variants, options of a type that moves the position when it fails, and transformed values
(`C63_violated`). -/
theorem C63_reencode_partial (A : Option FAttr → Prop) (d : Dec α) (e : Enc α) (h : Faithful A α d e)
    (ca : Option CAttr) (fa : Option FAttr) (hA : A fa) (pre rest : List Byte)
    (hs : pre.length + rest.length ≤ isizeMax) (v : α) (b' : Buf)
    (hd : d ca fa ⟨pre ++ rest, pre.length⟩ = (.ok v, b')) :
    ∃ w suf, rest = w ++ suf ∧ b' = ⟨pre ++ rest, pre.length + w.length⟩ ∧ Appends (e v ca fa) w := by
  obtain ⟨h1, h2, h3, h4⟩ := h.re ca fa hA ⟨pre ++ rest, pre.length⟩
    ⟨by simp, by simp only [List.length_append]; exact hs⟩ v b' hd
  simp only [List.drop_left, List.length_append] at h1 h2 h3 h4
  refine ⟨_, rest.drop (b'.pos - pre.length), (List.take_append_drop _ _).symm, ?_, h4⟩
  obtain ⟨data, pos⟩ := b'
  simp only at h1 h2 h3 ⊢
  rw [h1, List.length_take]
  congr 1
  omega

/-- C63 for `jbytes::decode` and `jbytes::encode`: `encode(decode(input)?)?` is the part of the input that was read. -/
theorem C63_top_partial (A : Option FAttr → Prop) (d : Dec α) (e : Enc α) (h : Faithful A α d e) (hA : A none)
    (input : List Byte) (hs : input.length ≤ isizeMax) (v : α) (hd : decodeTop d input = .ok v) :
    ∃ b, encodeTop e v = .ok b ∧ b.data <+: input := by
  rcases hx : d none none ⟨[] ++ input, [].length⟩ with ⟨o, b'⟩
  have ho : o = .ok v := by
    have := congrArg Prod.fst hx
    exact this.symm.trans hd
  subst ho
  obtain ⟨w, suf, h1, -, h3⟩ := C63_reencode_partial A d e h none none hA [] input (by simpa using hs) v b' hx
  have hw : w.length ≤ isizeMax := by
    rw [h1, List.length_append] at hs; omega
  have := h3 [] (by simpa using hw)
  refine ⟨⟨w, w.length⟩, ?_, suf, h1.symm⟩
  simp only [List.length_nil, List.nil_append, Nat.zero_add] at this
  simp only [encodeTop, Buf.new, this]

/-- C63, hence: no two byte strings are read as the same value. -/
theorem C63_one_encoding_partial (A : Option FAttr → Prop) (d : Dec α) (e : Enc α) (h : Faithful A α d e)
    (ca : Option CAttr) (fa : Option FAttr) (hA : A fa) (w w' : List Byte) (hw : w.length ≤ isizeMax)
    (hw' : w'.length ≤ isizeMax) (v : α) (hd : d ca fa ⟨w, 0⟩ = (.ok v, ⟨w, w.length⟩))
    (hd' : d ca fa ⟨w', 0⟩ = (.ok v, ⟨w', w'.length⟩)) : w = w' := by
  have key : ∀ w : List Byte, w.length ≤ isizeMax → d ca fa ⟨w, 0⟩ = (.ok v, ⟨w, w.length⟩) →
      (e v ca fa ⟨[], 0⟩).2.data = w := by
    intro w hw hd
    obtain ⟨x, suf, h1, h2, h3⟩ := C63_reencode_partial A d e h ca fa hA [] w (by simpa using hw) v _ hd
    have : x = w := by
      have h4 : w.length = x.length := by simpa using congrArg Buf.pos h2
      have h5 := congrArg List.length h1
      rw [List.length_append] at h5
      have h6 : suf = [] := List.eq_nil_of_length_eq_zero (by omega)
      rw [h1, h6, List.append_nil]
    subst this
    have := h3 [] (by simpa using hw)
    simp only [List.length_nil, List.nil_append, Nat.zero_add] at this
    rw [this]
  rw [← key w hw hd, key w' hw' hd']

/-- `bool` field. -/
def boolField (a : FieldAttrs Val) : Field Val :=
  ⟨a, fun ca fa => do
      let x ← decBool ca fa
      return .num x.toNat,
    fun v ca fa => encOption encBool (match v with | .num n => some (n != 0) | _ => none) ca fa, .num 0, .absent⟩

/-- C63 fails outside these types.  Each line: input, decoded and encoded again.
1. `bool`: every byte but 0 is true, written as 1.
2. a default variant takes every tag and writes its own number.
3. a range takes every tag in it and writes its end.
4. `offset`: the bytes jumped over are replaced by the fill byte.
5. a map with a key twice keeps one entry.
6. `key` is searched for: what stands before it is lost.
7. bits that belong to no member of a word are lost.
8. an option whose element failed half way has consumed what it read of it. -/
theorem C63_violated :
    (decStruct { fields := [boolField {}] } none none ⟨[2], 0⟩ = (.ok [.num 1], ⟨[2], 1⟩) ∧
      encStruct { fields := [boolField {}] } [.num 1] none none ⟨[], 0⟩ = (.ok 1, ⟨[1], 1⟩)) ∧
    (decEnum { variants := [{ branchDefault := true }] } none none ⟨[9], 0⟩ = (.ok (0, ([] : List Val)), ⟨[9], 1⟩) ∧
      encEnum { variants := [{ branchDefault := true }] } (0, ([] : List Val)) none none ⟨[], 0⟩
        = (.ok 1, ⟨[0], 1⟩)) ∧
    (decEnum { variants := [{ branchRange := some (3, 5, true) }] } none none ⟨[4], 0⟩
        = (.ok (0, ([] : List Val)), ⟨[4], 1⟩) ∧
      encEnum { variants := [{ branchRange := some (3, 5, true) }] } (0, ([] : List Val)) none none ⟨[], 0⟩
        = (.ok 1, ⟨[5], 1⟩)) ∧
    (decStruct { fields := [u8Field { isUse := true, offset := some fun _ => 1 }] } none none ⟨[7, 8], 0⟩
        = (.ok [.num 8], ⟨[7, 8], 2⟩) ∧
      (encStruct { fields := [u8Field { isUse := true, offset := some fun _ => 1 }] } [.num 8] none none ⟨[], 0⟩).2
        = ⟨[0, 8], 2⟩) ∧
    (decMap (decInt ⟨1, false⟩) (decInt ⟨1, false⟩) none none ⟨[2, 1, 5, 1, 6], 0⟩
        = (.ok [(1, 6)], ⟨[2, 1, 5, 1, 6], 5⟩) ∧
      encMap (encInt ⟨1, false⟩) (encInt ⟨1, false⟩) [(1, 6)] none none ⟨[], 0⟩ = (.ok 3, ⟨[1, 1, 6], 3⟩)) ∧
    (decBytes none (some { key := some [7], length := some 1 }) ⟨[3, 7, 5], 0⟩ = (.ok [5], ⟨[3, 7, 5], 3⟩) ∧
      encBytes [5] none (some { key := some [7], length := some 1 }) ⟨[], 0⟩ = (.ok 2, ⟨[7, 5], 2⟩)) ∧
    (decStruct { fields := [u8Field { isUse := true, bits := some fun _ => 0xF0, bitsStart := true }] } none none
        ⟨[0x12], 0⟩ = (.ok [.num 1], ⟨[0x12], 1⟩) ∧
      encStruct { fields := [u8Field { isUse := true, bits := some fun _ => 0xF0, bitsStart := true }] } [.num 1]
        none none ⟨[], 0⟩ = (.ok 1, ⟨[0x10], 1⟩)) ∧
    (decOption (decStruct { fields := [u8Field {}, u8Field {}] }) none none ⟨[7], 0⟩ = (.ok none, ⟨[7], 1⟩) ∧
      encOption (encStruct { fields := [u8Field {}, u8Field {}] }) none none none ⟨[], 0⟩ = (.ok 0, ⟨[], 0⟩)) := by
  refine ⟨⟨?_, ?_⟩, ⟨?_, ?_⟩, ⟨?_, ?_⟩, ⟨?_, ?_⟩, ⟨?_, ?_⟩, ⟨?_, ?_⟩, ⟨?_, ?_⟩, ⟨?_, ?_⟩⟩ <;> decide +kernel

/-! ## Instances -/

/-- The modifiers of `f` for some scope. -/
def Given (f : Field V) (fa : Option FAttr) : Prop := fa = none ∨ ∃ o env, fa = some (f.attrs.modifiers o env)

theorem passes_given {f : Field V} (h : f.attrs.ifExpr = none) : Passes (Given f) f :=
  ⟨.inl rfl, fun o env => .inr ⟨o, env, rfl⟩, .inl h⟩

theorem Given.all {f : Field V} {P : FAttr → Prop} (h : ∀ o env, P (f.attrs.modifiers o env)) :
    ∀ fr, Given f (some fr) → P fr := by
  rintro fr (e | ⟨o, env, e⟩)
  · cases e
  · cases e; exact h o env

/-- The number in a value. -/
def numberOf : Val → Option Nat
  | .num n => some n
  | _ => none

theorem num_faithful (A : Option FAttr → Prop) (k : IntKind) (hk : k.Valid) (hb : ∀ fr, A (some fr) → fr.bits = none) :
    Faithful A Val (numDec k) (numEnc k) := by
  have e : numEnc k = fun v ca fa => encOption (encInt k) (numberOf v) ca fa := by
    funext v ca fa
    cases v <;> rfl
  rw [e]
  exact .inject Val.num numberOf (fun _ => rfl) (.int k hk hb)

theorem kind_faithful (A : Option FAttr → Prop) : Faithful A (Nat × List Val) (decEnum kindEnum) (encEnum kindEnum) := by
  refine Faithful.enum kindEnum Given rfl ⟨rfl, ?_, fun _ _ => .inr rfl⟩ ?_ ?_ ?_ ?_ ?_
  · intro v hv
    simp only [kindEnum, List.mem_cons, List.not_mem_nil, or_false] at hv
    rcases hv with rfl | rfl <;> exact ⟨rfl, rfl, rfl, fun _ _ => .inl rfl⟩
  · intro v hv
    simp only [kindEnum, List.mem_cons, List.not_mem_nil, or_false] at hv
    rcases hv with rfl | rfl <;> exact ⟨rfl, rfl⟩
  · intro v hv
    simp only [kindEnum, List.mem_cons, List.not_mem_nil, or_false] at hv
    rcases hv with rfl | rfl <;> exact ⟨List.pairwise_singleton _ _, .inl rfl⟩
  · intro v hv f hf
    simp only [kindEnum, List.mem_cons, List.not_mem_nil, or_false] at hv
    rcases hv with rfl | rfl <;>
      (simp only [List.mem_cons, List.not_mem_nil, or_false] at hf; subst hf
       exact ⟨rfl, rfl, rfl, rfl, rfl, rfl, rfl, rfl, .inr rfl⟩)
  · intro v hv f hf
    simp only [kindEnum, List.mem_cons, List.not_mem_nil, or_false] at hv
    rcases hv with rfl | rfl <;>
      (simp only [List.mem_cons, List.not_mem_nil, or_false] at hf; subst hf; exact passes_given rfl)
  · intro v hv f hf
    simp only [kindEnum, List.mem_cons, List.not_mem_nil, or_false] at hv
    rcases hv with rfl | rfl
    · simp only [List.mem_cons, List.not_mem_nil, or_false] at hf; subst hf
      exact num_faithful _ _ (.mk 1 false (by omega)) (Given.all fun _ _ => rfl)
    · simp only [List.mem_cons, List.not_mem_nil, or_false] at hf; subst hf
      exact num_faithful _ _ (.mk 2 false (by omega)) (Given.all fun _ _ => rfl)

theorem message_faithful (A : Option FAttr → Prop) (n : Nat) :
    Faithful A (List Part) (decStruct (message n)) (encStruct (message n)) := by
  refine Faithful.struct (message n) Given rfl rfl (fun h => by cases h) ?_ ?_ ?_
  · intro f hf
    simp only [message, List.mem_cons, List.not_mem_nil, or_false] at hf
    rcases hf with rfl | rfl | rfl <;> exact ⟨rfl, rfl, rfl, rfl, rfl, rfl, rfl, rfl, .inr rfl⟩
  · intro f hf
    simp only [message, List.mem_cons, List.not_mem_nil, or_false] at hf
    rcases hf with rfl | rfl | rfl <;> exact passes_given rfl
  · intro f hf
    simp only [message, List.mem_cons, List.not_mem_nil, or_false] at hf
    rcases hf with rfl | rfl | rfl
    · exact .inject Part.num _ (fun _ => rfl) (.int _ (.mk 1 false (by omega)) (Given.all fun _ _ => rfl))
    · exact .inject Part.bytes _ (fun _ => rfl) (.bytes (Given.all fun _ _ => ⟨rfl, rfl, rfl⟩))
    · exact .inject Part.choices _ (fun _ => rfl) (.vec n (Given.all fun _ _ => ⟨rfl, .inl rfl⟩) (kind_faithful _))

/-- C63 on `message`: every message in every input. -/
example (fuel : Nat) (input : List Byte) (hs : input.length ≤ isizeMax) (v : List Part)
    (hd : decodeTop (decStruct (message fuel)) input = .ok v) :
    ∃ b, encodeTop (encStruct (message fuel)) v = .ok b ∧ b.data <+: input :=
  C63_top_partial (fun _ => True) _ _ (message_faithful _ fuel) trivial input hs v hd

example : decodeTop (decStruct (message 9)) [2, 65, 66, 2, 0, 7, 1, 0, 3, 99]
    = .ok [.num 2, .bytes [65, 66], .choices [(1, [.num 1]), (0, [.num 3])]] := by decide +kernel

/-- C63 on an optional number at the end of the input, with and without the number. -/
example (input : List Byte) (hs : input.length ≤ isizeMax) (v : Option Nat)
    (hd : decodeTop (decOption (decInt ⟨2, false⟩)) input = .ok v) :
    ∃ b, encodeTop (encOption (encInt ⟨2, false⟩)) v = .ok b ∧ b.data <+: input := by
  refine C63_top_partial (fun fa => fa = none) _ _ (.option ?_ (.int _ (.mk 2 false (by omega)) fun fr h => by cases h))
    rfl input hs v hd
  rintro ca fa rfl
  exact (tame_decInt ⟨2, false⟩ ca none fun _ => .inl (by decide)).restores

end JBytes
