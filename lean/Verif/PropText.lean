import Verif.Text
import Verif.NumLemmas
/-!
# Text forms: C39, C40, C41
-/

namespace JBytes

/-! ## Specification of the digits -/

/-- The value of a hexadecimal digit, upper or lower case, stated by listing the digits. -/
def hexDigits : List (Byte × Nat) :=
  [(0x30, 0), (0x31, 1), (0x32, 2), (0x33, 3), (0x34, 4), (0x35, 5), (0x36, 6), (0x37, 7), (0x38, 8), (0x39, 9),
   (0x61, 10), (0x62, 11), (0x63, 12), (0x64, 13), (0x65, 14), (0x66, 15),
   (0x41, 10), (0x42, 11), (0x43, 12), (0x44, 13), (0x45, 14), (0x46, 15)]

/-- `c` is a hexadecimal digit. -/
def IsHexDigit (c : Byte) : Prop := ∃ v, (c, v) ∈ hexDigits

/-- Statements about all bytes follow from those about all numbers below 256. -/
theorem forall_byte {p : Byte → Prop} (h : ∀ n : Fin 256, p (UInt8.ofNat n.val)) (c : Byte) : p c := by
  have := h ⟨c.toNat, UInt8.toNat_lt c⟩
  simpa using this

theorem isHex_iff (c : Byte) (v : Nat) : isHex c = some v ↔ (c, v) ∈ hexDigits := by
  have h1 : ∀ c : Byte, ∀ v, isHex c = some v → (c, v) ∈ hexDigits := by
    refine forall_byte ?_
    have : ∀ n : Fin 256, ∀ v ∈ isHex (UInt8.ofNat n.val), (UInt8.ofNat n.val, v) ∈ hexDigits := by decide +kernel
    exact this
  have h2 : ∀ p ∈ hexDigits, isHex p.1 = some p.2 := by decide +kernel
  exact ⟨h1 c v, fun h => h2 _ h⟩

theorem isHex_lt {c : Byte} {v : Nat} (h : isHex c = some v) : v < 16 := by
  have h2 : ∀ p ∈ hexDigits, p.2 < 16 := by decide +kernel
  exact h2 _ ((isHex_iff c v).mp h)

theorem isHex_isSome (c : Byte) : (isHex c).isSome = true ↔ IsHexDigit c := by
  unfold IsHexDigit
  rw [Option.isSome_iff_exists]
  simp only [isHex_iff]

theorem hexPair_spec (x : Byte) : ∃ a b u v, hexPair hexLower x = [a, b] ∧ isHex a = some u ∧ isHex b = some v ∧
    x.toNat = 16 * u + v ∧ a ≠ 0x3A ∧ b ≠ 0x3A ∧ a ≠ 0x2B := by
  have key : ∀ x : Byte, (hexPair hexLower x = [(hexPair hexLower x).getD 0 0, (hexPair hexLower x).getD 1 0]) ∧
      isHex ((hexPair hexLower x).getD 0 0) = some (x.toNat / 16) ∧
      isHex ((hexPair hexLower x).getD 1 0) = some (x.toNat % 16) ∧
      (hexPair hexLower x).getD 0 0 ≠ 0x3A ∧ (hexPair hexLower x).getD 1 0 ≠ 0x3A ∧
      (hexPair hexLower x).getD 0 0 ≠ 0x2B := by
    refine forall_byte ?_
    decide +kernel
  obtain ⟨h1, h2, h3, h4, h5, h6⟩ := key x
  exact ⟨_, _, _, _, h1, h2, h3, by omega, h4, h5, h6⟩

theorem hexPairUpper_spec (x : Byte) : ∃ a b u v, hexPair hexUpper x = [a, b] ∧ isHex a = some u ∧
    isHex b = some v ∧ x.toNat = 16 * u + v := by
  have key : ∀ x : Byte, (hexPair hexUpper x = [(hexPair hexUpper x).getD 0 0, (hexPair hexUpper x).getD 1 0]) ∧
      isHex ((hexPair hexUpper x).getD 0 0) = some (x.toNat / 16) ∧
      isHex ((hexPair hexUpper x).getD 1 0) = some (x.toNat % 16) := by
    refine forall_byte ?_
    decide +kernel
  obtain ⟨h1, h2, h3⟩ := key x
  exact ⟨_, _, _, _, h1, h2, h3, by omega⟩

theorem shl4_or {u v : Nat} (hu : u < 16) (hv : v < 16) : u <<< 4 ||| v = 16 * u + v := by
  have key : ∀ u v : Fin 16, u.val <<< 4 ||| v.val = 16 * u.val + v.val := by decide +kernel
  exact key ⟨u, hu⟩ ⟨v, hv⟩

/-! ## C41 -/

/-- What hex text denotes: pairs of digits, first the high one. -/
inductive HexText : List Byte → List Byte → Prop
  | nil : HexText [] []
  | cons {a b : Byte} {u v : Nat} {s d : List Byte} : (a, u) ∈ hexDigits → (b, v) ∈ hexDigits → HexText s d →
      HexText (a :: b :: s) (UInt8.ofNat (16 * u + v) :: d)

theorem hexParse_iff (s : List Byte) : ∀ d, hexParse s = some d ↔ HexText s d := by
  induction s using hexParse.induct with
  | case1 =>
    intro d
    rw [hexParse]
    constructor
    · intro h
      injection h with h
      subst h
      exact .nil
    · intro h
      cases h
      rfl
  | case2 x =>
    intro d
    rw [hexParse]
    exact ⟨fun h => (nomatch h), fun h => nomatch h⟩
  | case3 a b rest ha =>
    intro d
    rw [hexParse]
    simp only [ha]
    refine ⟨fun h => (nomatch h), fun h => ?_⟩
    cases h with
    | cons h1 _ _ =>
      rw [← isHex_iff, ha] at h1
      cases h1
  | case4 a b rest u ha hb =>
    intro d
    rw [hexParse]
    simp only [ha, hb]
    refine ⟨fun h => (nomatch h), fun h => ?_⟩
    cases h with
    | cons _ h2 _ =>
      rw [← isHex_iff, hb] at h2
      cases h2
  | case5 a b rest u ha v hb ih =>
    intro d
    rw [hexParse]
    simp only [ha, hb]
    rw [shl4_or (isHex_lt ha) (isHex_lt hb), Option.map_eq_some_iff]
    constructor
    · rintro ⟨d', h1, rfl⟩
      exact .cons ((isHex_iff _ _).mp ha) ((isHex_iff _ _).mp hb) ((ih d').mp h1)
    · intro h
      cases h with
      | cons h1 h2 h3 =>
        rw [← isHex_iff, ha] at h1
        rw [← isHex_iff, hb] at h2
        injection h1 with h1
        injection h2 with h2
        subst h1 h2
        exact ⟨_, (ih _).mpr h3, rfl⟩

theorem HexText.even {s d : List Byte} (h : HexText s d) : s.length = 2 * d.length := by
  induction h with
  | nil => rfl
  | cons _ _ _ ih => simp only [List.length_cons, ih]; omega

theorem hexFromStr_iff (s d : List Byte) : hexFromStr s = some d ↔ HexText s d := by
  unfold hexFromStr
  split
  · rename_i h
    refine ⟨fun h => (nomatch h), fun h' => ?_⟩
    have := h'.even
    omega
  · exact hexParse_iff s d

/-- C41: parsing hex text gives the bytes it denotes, and fails if it denotes none. -/
theorem C41_hex_parse (s d : List Byte) : hexFromStr s = some d ↔ HexText s d := hexFromStr_iff s d

/-- C41: exactly the even-length texts of hexadecimal digits are accepted. -/
theorem C41_hex_accepts (s : List Byte) :
    (∃ d, hexFromStr s = some d) ↔ s.length % 2 = 0 ∧ ∀ c ∈ s, IsHexDigit c := by
  simp only [hexFromStr_iff]
  constructor
  · rintro ⟨d, h⟩
    refine ⟨by have := h.even; omega, ?_⟩
    induction h with
    | nil => simp
    | cons h1 h2 _ ih =>
      intro c hc
      rcases List.mem_cons.mp hc with rfl | hc
      · exact ⟨_, h1⟩
      · rcases List.mem_cons.mp hc with rfl | hc
        · exact ⟨_, h2⟩
        · exact ih c hc
  · induction s using hexParse.induct with
    | case1 => exact fun _ => ⟨[], .nil⟩
    | case2 x => rintro ⟨h, _⟩; simp at h
    | case3 a b rest ha =>
      rintro ⟨_, h⟩
      have := (isHex_isSome a).mpr (h a (by simp))
      rw [ha] at this
      cases this
    | case4 a b rest u ha hb =>
      rintro ⟨_, h⟩
      have := (isHex_isSome b).mpr (h b (by simp))
      rw [hb] at this
      cases this
    | case5 a b rest u ha v hb ih =>
      rintro ⟨hl, h⟩
      obtain ⟨d, hd⟩ := ih ⟨by simp only [List.length_cons] at hl; omega, fun c hc => h c (by simp [hc])⟩
      exact ⟨_, .cons ((isHex_iff _ _).mp ha) ((isHex_iff _ _).mp hb) hd⟩

/-- ASCII upper case. -/
def upperByte (c : Byte) : Byte := if 0x61 ≤ c.toNat ∧ c.toNat ≤ 0x7A then UInt8.ofNat (c.toNat - 32) else c

/-- C41: formatting bytes as lower or upper case hex and parsing gives the bytes back; two digits per byte; the lower
case text has no capital letter, and the upper case text is its upper case. -/
theorem C41_hex_roundtrip (d : List Byte) :
    hexFromStr (toHexLower d) = some d ∧ hexFromStr (toHexUpper d) = some d ∧
    (toHexLower d).length = 2 * d.length ∧ (toHexUpper d).length = 2 * d.length ∧
    toHexUpper d = (toHexLower d).map upperByte ∧ ∀ c ∈ toHexLower d, ¬ (0x41 ≤ c.toNat ∧ c.toNat ≤ 0x5A) := by
  have key : HexText (toHexLower d) d ∧ HexText (toHexUpper d) d := by
    induction d with
    | nil => exact ⟨.nil, .nil⟩
    | cons x d ih =>
      constructor
      · obtain ⟨a, b, u, v, h1, h2, h3, h4, _⟩ := hexPair_spec x
        have hx : x = UInt8.ofNat (16 * u + v) := by rw [← h4, UInt8.ofNat_toNat]
        unfold toHexLower
        rw [List.flatMap_cons, h1, hx]
        exact .cons ((isHex_iff _ _).mp h2) ((isHex_iff _ _).mp h3) ih.1
      · obtain ⟨a, b, u, v, h1, h2, h3, h4⟩ := hexPairUpper_spec x
        have hx : x = UInt8.ofNat (16 * u + v) := by rw [← h4, UInt8.ofNat_toNat]
        unfold toHexUpper
        rw [List.flatMap_cons, h1, hx]
        exact .cons ((isHex_iff _ _).mp h2) ((isHex_iff _ _).mp h3) ih.2
  refine ⟨(hexFromStr_iff _ _).mpr key.1, (hexFromStr_iff _ _).mpr key.2, key.1.even, key.2.even, ?_, ?_⟩
  · have hx : ∀ x : Byte, hexPair hexUpper x = (hexPair hexLower x).map upperByte := by
      refine forall_byte ?_
      decide +kernel
    unfold toHexUpper toHexLower
    rw [List.map_flatMap]
    exact congrArg (fun f => List.flatMap f d) (funext hx)
  · have hx : ∀ x : Byte, ∀ c ∈ hexPair hexLower x, ¬ (0x41 ≤ c.toNat ∧ c.toNat ≤ 0x5A) := by
      refine forall_byte ?_
      decide +kernel
    intro c hc
    obtain ⟨x, -, h⟩ := List.mem_flatMap.mp hc
    exact hx x c h

/-- C41: parsing does not depend on the case of the digits. -/
theorem C41_hex_case (s : List Byte) : hexFromStr (s.map upperByte) = hexFromStr s := by
  have hup : ∀ c : Byte, isHex (upperByte c) = isHex c := by
    refine forall_byte ?_
    decide +kernel
  have hp : hexParse (s.map upperByte) = hexParse s := by
    induction s using hexParse.induct with
    | case1 => rfl
    | case2 x => rfl
    | case3 a b rest ha => simp only [List.map_cons, hexParse, hup, ha]
    | case4 a b rest u ha hb => simp only [List.map_cons, hexParse, hup, ha, hb]
    | case5 a b rest u ha v hb ih => simp only [List.map_cons, hexParse, hup, ha, hb, ih]
  unfold hexFromStr
  rw [hp, List.length_map]

example : HexText [0x30, 0x61, 0x41, 0x46] [0x0a, 0xaf] ∧ toHexLower [0x0a, 0xaf] = [0x30, 0x61, 0x61, 0x66] ∧
    hexFromStr [0x30, 0x67] = none := by
  refine ⟨?_, by decide +kernel, by decide +kernel⟩
  exact .cons (u := 0) (v := 10) (by decide) (by decide) (.cons (u := 10) (v := 15) (by decide) (by decide) .nil)

/-! ## C39, C40 -/

/-- Texts joined by colons. -/
def joinColon : List (List Byte) → List Byte
  | [] => []
  | [g] => g
  | g :: gs => g ++ 0x3A :: joinColon gs

theorem splitColon_ne_nil (s : List Byte) : splitColon s ≠ [] := by
  cases s with
  | nil => simp [splitColon]
  | cons c s =>
    rw [splitColon]
    split
    · simp
    · split <;> simp

theorem splitColon_join (s : List Byte) : joinColon (splitColon s) = s := by
  induction s with
  | nil => rfl
  | cons c s ih =>
    rw [splitColon]
    by_cases hc : c = 0x3A
    · rw [if_pos hc]
      cases hs : splitColon s with
      | nil => exact absurd hs (splitColon_ne_nil s)
      | cons g gs =>
        rw [hs] at ih
        rw [joinColon, ih, hc]
        · rfl
        · simp
    · rw [if_neg hc]
      cases hs : splitColon s with
      | nil => exact absurd hs (splitColon_ne_nil s)
      | cons g gs =>
        rw [hs] at ih
        simp only
        cases gs with
        | nil =>
          simp only [joinColon] at ih ⊢
          rw [ih]
        | cons g' gs =>
          simp only [joinColon] at ih ⊢
          rw [List.cons_append, ih]

theorem splitColon_of_join : ∀ gs : List (List Byte), gs ≠ [] → (∀ g ∈ gs, (0x3A : Byte) ∉ g) →
    splitColon (joinColon gs) = gs := by
  have happ : ∀ g : List Byte, (0x3A : Byte) ∉ g → ∀ s, splitColon (g ++ 0x3A :: s) = g :: splitColon s := by
    intro g
    induction g with
    | nil => intro _ s; rw [List.nil_append, splitColon, if_pos rfl]
    | cons c g ih =>
      intro h s
      simp only [List.mem_cons, not_or] at h
      rw [List.cons_append, splitColon, if_neg (fun e => h.1 e.symm), ih h.2]
  have hone : ∀ g : List Byte, (0x3A : Byte) ∉ g → splitColon g = [g] := by
    intro g
    induction g with
    | nil => intro _; rfl
    | cons c g ih =>
      intro h
      simp only [List.mem_cons, not_or] at h
      rw [splitColon, if_neg (fun e => h.1 e.symm), ih h.2]
  intro gs
  induction gs with
  | nil => intro h; exact absurd rfl h
  | cons g gs ih =>
    intro _ h
    cases gs with
    | nil => exact hone g (h g (by simp))
    | cons g' gs =>
      rw [joinColon, happ g (h g (by simp)), ih (by simp) (fun g hg => h g (by simp [hg]))]
      simp

/-- A group as the parser understands it: two hexadecimal digits, or a plus sign and one digit. -/
inductive Group : List Byte → Nat → Prop
  | pair {a b : Byte} {u v : Nat} : (a, u) ∈ hexDigits → (b, v) ∈ hexDigits → Group [a, b] (16 * u + v)
  | plus {b : Byte} {v : Nat} : (b, v) ∈ hexDigits → Group [0x2B, b] v

theorem plus_not_hex : isHex 0x2B = none := by decide +kernel

theorem group_iff (g : List Byte) (x : Nat) : g.length = 2 ∧ u8FromRadix16 g = some x ↔ Group g x := by
  constructor
  · rintro ⟨hl, h⟩
    match g, hl with
    | [a, b], _ =>
      rw [u8FromRadix16] at h
      · by_cases ha : a = 0x2B
        · rw [if_pos ha] at h
          subst ha
          cases hb : isHex b with
          | none => simp [radix16Digits, hb] at h
          | some v =>
            have := isHex_lt hb
            have hv : v = x := by
              simp only [radix16Digits, hb] at h
              rw [if_neg (by omega)] at h
              injection h with h
              omega
            subst hv
            exact .plus ((isHex_iff _ _).mp hb)
        · rw [if_neg ha] at h
          cases ha' : isHex a with
          | none => simp [radix16Digits, ha'] at h
          | some u =>
            cases hb : isHex b with
            | none =>
              have := isHex_lt ha'
              simp only [radix16Digits, ha', hb] at h
              rw [if_neg (by omega)] at h
              cases h
            | some v =>
              have h1 := isHex_lt ha'
              have h2 := isHex_lt hb
              have hv : 16 * u + v = x := by
                simp only [radix16Digits, ha', hb] at h
                rw [if_neg (by omega), if_neg (by omega)] at h
                injection h with h
                omega
              subst hv
              exact .pair ((isHex_iff _ _).mp ha') ((isHex_iff _ _).mp hb)
      · simp
  · intro h
    cases h with
    | @pair a b u v ha hb =>
      rw [← isHex_iff] at ha hb
      have h1 := isHex_lt ha
      have h2 := isHex_lt hb
      refine ⟨rfl, ?_⟩
      have hne : a ≠ 0x2B := by
        rintro rfl
        rw [plus_not_hex] at ha
        cases ha
      rw [u8FromRadix16, if_neg hne]
      · simp only [radix16Digits, ha, hb]
        rw [if_neg (by omega), if_neg (by omega)]
        congr 1
        omega
      · simp
    | @plus b v hb =>
      rw [← isHex_iff] at hb
      have h2 := isHex_lt hb
      refine ⟨rfl, ?_⟩
      rw [u8FromRadix16, if_pos rfl]
      · simp only [radix16Digits, hb]
        rw [if_neg (by omega)]
        congr 1
        omega
      · simp

/-- Groups and their values, one after the other. -/
inductive Groups : List (List Byte) → List Byte → Prop
  | nil : Groups [] []
  | cons {g : List Byte} {x : Nat} {gs : List (List Byte)} {d : List Byte} : Group g x → Groups gs d →
      Groups (g :: gs) (UInt8.ofNat x :: d)

theorem Groups.length {gs : List (List Byte)} {d : List Byte} (h : Groups gs d) : gs.length = d.length := by
  induction h with
  | nil => rfl
  | cons _ _ ih => simp [ih]

theorem macParse_iff (gs : List (List Byte)) : ∀ (done rest : List Byte), (done ++ rest).length = 6 →
    ∀ m, (macParse done.length (done ++ rest) gs = some m ↔
      ∃ d, Groups gs d ∧ d.length ≤ rest.length ∧ m = done ++ d ++ rest.drop d.length) := by
  induction gs with
  | nil =>
    intro done rest _ m
    rw [macParse]
    constructor
    · intro h
      injection h with h
      exact ⟨[], .nil, by simp, by simp [h]⟩
    · rintro ⟨d, hd, _, rfl⟩
      cases hd
      simp
  | cons g gs ih =>
    intro done rest hl m
    have hlen : done.length + rest.length = 6 := by simpa using hl
    rw [macParse]
    by_cases hc : 5 < done.length ∨ g.length ≠ 2
    · rw [if_pos hc]
      refine ⟨fun h => (nomatch h), ?_⟩
      rintro ⟨d, hd, hdl, _⟩
      cases hd with
      | cons hg hgs =>
        simp only [List.length_cons] at hdl
        rcases hc with hc | hc
        · omega
        · exact absurd ((group_iff _ _).mpr hg).1 hc
    · rw [if_neg hc]
      have hc1 : ¬ 5 < done.length := fun h => hc (.inl h)
      have hc2 : g.length = 2 := by
        by_cases h : g.length = 2
        · exact h
        · exact absurd (.inr h) hc
      obtain ⟨r, rest', rfl⟩ : ∃ r rest', rest = r :: rest' := by
        cases rest with
        | nil => simp at hlen; omega
        | cons r rest' => exact ⟨r, rest', rfl⟩
      cases hu : u8FromRadix16 g with
      | none =>
        refine ⟨fun h => (nomatch h), ?_⟩
        rintro ⟨d, hd, _, _⟩
        cases hd with
        | cons hg _ =>
          have := ((group_iff _ _).mpr hg).2
          rw [hu] at this
          cases this
      | some x =>
        simp only
        have hset : (done ++ r :: rest').set done.length (UInt8.ofNat x) = done ++ [UInt8.ofNat x] ++ rest' := by
          rw [List.set_append_right _ _ (Nat.le_refl _)]
          simp
        have hi := ih (done ++ [UInt8.ofNat x]) rest' (by simp at hl ⊢; omega) m
        rw [hset]
        rw [List.length_append, List.length_singleton] at hi
        rw [hi]
        constructor
        · rintro ⟨d, hd, hdl, rfl⟩
          exact ⟨UInt8.ofNat x :: d, .cons ((group_iff _ _).mp ⟨hc2, hu⟩) hd, by simpa using hdl, by simp⟩
        · rintro ⟨d, hd, hdl, rfl⟩
          cases hd with
          | cons hg hgs =>
            have := ((group_iff _ _).mpr hg).2
            rw [hu] at this
            injection this with this
            subst this
            exact ⟨_, hgs, by simpa using hdl, by simp⟩

theorem macFromStr_iff (s m : List Byte) : macFromStr s = some m ↔
    ∃ d, Groups (splitColon s) d ∧ d.length ≤ 6 ∧ m = d ++ List.replicate (6 - d.length) 0 := by
  unfold macFromStr
  have h := macParse_iff (splitColon s) [] (List.replicate 6 0) (by simp) m
  simp only [List.length_nil, List.nil_append, List.length_replicate, List.drop_replicate] at h
  exact h

theorem group_no_colon {g : List Byte} {x : Nat} (h : Group g x) : (0x3A : Byte) ∉ g := by
  have hd : ∀ p ∈ hexDigits, p.1 ≠ 0x3A := by decide +kernel
  cases h with
  | pair ha hb =>
    have h1 := hd _ ha
    have h2 := hd _ hb
    simp only [List.mem_cons, List.not_mem_nil, or_false, not_or]
    exact ⟨fun e => h1 e.symm, fun e => h2 e.symm⟩
  | plus hb =>
    have h2 := hd _ hb
    simp only [List.mem_cons, List.not_mem_nil, or_false, not_or]
    exact ⟨by decide, fun e => h2 e.symm⟩

theorem groups_no_colon {gs : List (List Byte)} {d : List Byte} (h : Groups gs d) : ∀ g ∈ gs, (0x3A : Byte) ∉ g := by
  induction h with
  | nil => simp
  | cons hg _ ih =>
    intro g' hg'
    rcases List.mem_cons.mp hg' with rfl | hg'
    · exact group_no_colon hg
    · exact ih g' hg'

/-- C40, what the parser accepts exactly: one to six groups joined by colons, each two hexadecimal digits or a
plus sign and a digit; missing groups are zero. -/
theorem C40_mac_parse_exact (s m : List Byte) : macFromStr s = some m ↔
    ∃ gs d, s = joinColon gs ∧ 1 ≤ gs.length ∧ gs.length ≤ 6 ∧ Groups gs d ∧
      m = d ++ List.replicate (6 - d.length) 0 := by
  rw [macFromStr_iff]
  constructor
  · rintro ⟨d, hd, hl, rfl⟩
    refine ⟨splitColon s, d, (splitColon_join s).symm, ?_, by rw [hd.length]; exact hl, hd, rfl⟩
    exact List.length_pos_iff.mpr (splitColon_ne_nil s)
  · rintro ⟨gs, d, rfl, h1, h6, hd, rfl⟩
    refine ⟨d, ?_, by rw [← hd.length]; exact h6, rfl⟩
    rw [splitColon_of_join gs (List.length_pos_iff.mp h1) (groups_no_colon hd)]
    exact hd

/-- C40, the part that holds: six colon-separated pairs of hexadecimal digits are accepted and give their values;
a text with more than six groups, an empty group, a group of another length or with a byte that is neither a digit
nor a plus sign is rejected.  Missing from the full statement: shorter texts and groups with a plus sign, which are
accepted too (`C40_violated`). -/
theorem C40_mac_parse_partial (s : List Byte) :
    (∀ ps : List (Byte × Nat × Byte × Nat), ps.length = 6 →
      (∀ p ∈ ps, (p.1, p.2.1) ∈ hexDigits ∧ (p.2.2.1, p.2.2.2) ∈ hexDigits) →
      s = joinColon (ps.map fun p => [p.1, p.2.2.1]) →
      macFromStr s = some (ps.map fun p => UInt8.ofNat (16 * p.2.1 + p.2.2.2))) ∧
    (∀ gs, s = joinColon gs → (∀ g ∈ gs, (0x3A : Byte) ∉ g) → gs ≠ [] →
      (6 < gs.length ∨ ∃ g ∈ gs, g.length ≠ 2 ∨ ∃ c ∈ g, ¬ IsHexDigit c ∧ c ≠ 0x2B) → macFromStr s = none) := by
  constructor
  · intro ps hl hp hs
    have hg : ∀ l : List (Byte × Nat × Byte × Nat), (∀ p ∈ l, (p.1, p.2.1) ∈ hexDigits ∧ (p.2.2.1, p.2.2.2) ∈ hexDigits) →
        Groups (l.map fun p => [p.1, p.2.2.1]) (l.map fun p => UInt8.ofNat (16 * p.2.1 + p.2.2.2)) := by
      intro l
      induction l with
      | nil => intro _; exact .nil
      | cons p l ih =>
        intro h
        have := h p (by simp)
        exact .cons (.pair this.1 this.2) (ih fun q hq => h q (by simp [hq]))
    rw [C40_mac_parse_exact]
    exact ⟨_, _, hs, by simp [hl], by simp [hl], hg ps hp, by simp [hl]⟩
  · intro gs hs hno hne hbad
    cases hm : macFromStr s with
    | none => rfl
    | some m =>
      exfalso
      obtain ⟨d, hd, hl, _⟩ := (macFromStr_iff s m).mp hm
      rw [hs, splitColon_of_join gs hne hno] at hd
      rcases hbad with h | ⟨g, hg, h⟩
      · rw [hd.length] at h
        omega
      · have hgr : ∀ {gs d}, Groups gs d → ∀ g ∈ gs, ∃ x, Group g x := by
          intro gs d h
          induction h with
          | nil => intro g hg; simp at hg
          | cons hg _ ih =>
            intro g' hg'
            rcases List.mem_cons.mp hg' with rfl | hg'
            · exact ⟨_, hg⟩
            · exact ih g' hg'
        obtain ⟨x, hx⟩ := hgr hd g hg
        rcases h with h | ⟨c, hc, h1, h2⟩
        · exact h ((group_iff _ _).mpr hx).1
        · cases hx with
          | pair ha hb =>
            simp only [List.mem_cons, List.not_mem_nil, or_false] at hc
            rcases hc with rfl | rfl
            · exact h1 ⟨_, ha⟩
            · exact h1 ⟨_, hb⟩
          | plus hb =>
            simp only [List.mem_cons, List.not_mem_nil, or_false] at hc
            rcases hc with rfl | rfl
            · exact h2 rfl
            · exact h1 ⟨_, hb⟩

/-- C40 fails: `"aa:bb"` and `"+1:bb:cc:dd:ee:ff"` are accepted. -/
theorem C40_violated :
    macFromStr [0x61, 0x61, 0x3A, 0x62, 0x62] = some [0xaa, 0xbb, 0, 0, 0, 0] ∧
    macFromStr [0x2B, 0x31, 0x3A, 0x62, 0x62, 0x3A, 0x63, 0x63, 0x3A, 0x64, 0x64, 0x3A, 0x65, 0x65, 0x3A, 0x66, 0x66]
      = some [1, 0xbb, 0xcc, 0xdd, 0xee, 0xff] := by decide +kernel

theorem macToStr_join (m : List Byte) : macToStr m = joinColon (m.map (hexPair hexLower)) := by
  induction m with
  | nil => rfl
  | cons x m ih =>
    cases m with
    | nil => rfl
    | cons y m =>
      simp only [macToStr, List.map_cons, joinColon] at ih ⊢
      rw [ih]

/-- C39: formatting a MAC address and parsing the text returns the address. -/
theorem C39_mac_text (m : List Byte) (hm : m.length = 6) : macFromStr (macToStr m) = some m := by
  rw [C40_mac_parse_exact]
  refine ⟨_, m, macToStr_join m, by simp [hm], by simp [hm], ?_, by simp [hm]⟩
  clear hm
  induction m with
  | nil => exact .nil
  | cons x m ih =>
    obtain ⟨a, b, u, v, h1, h2, h3, h4, _⟩ := hexPair_spec x
    have hx : x = UInt8.ofNat (16 * u + v) := by rw [← h4, UInt8.ofNat_toNat]
    rw [List.map_cons, h1]
    conv => arg 2; rw [hx]
    exact .cons (.pair ((isHex_iff _ _).mp h2) ((isHex_iff _ _).mp h3)) ih

/-- C39: the text is 17 bytes long and determines the address. -/
theorem C39_mac_text_injective (m m' : List Byte) (hm : m.length = 6) (hm' : m'.length = 6)
    (h : macToStr m = macToStr m') : m = m' ∧ (macToStr m).length = 17 := by
  have h1 := C39_mac_text m hm
  have h2 := C39_mac_text m' hm'
  rw [h, h2] at h1
  injection h1 with h1
  refine ⟨h1.symm, ?_⟩
  match m, hm with
  | [a, b, c, d, e, f], _ => simp [macToStr, hexPair]

example : macToStr [0xaa, 0xbb, 0, 1, 0x0f, 0xf0] =
    [0x61, 0x61, 0x3A, 0x62, 0x62, 0x3A, 0x30, 0x30, 0x3A, 0x30, 0x31, 0x3A, 0x30, 0x66, 0x3A, 0x66, 0x30] := by
  decide +kernel

end JBytes
