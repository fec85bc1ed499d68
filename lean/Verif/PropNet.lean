import Verif.NetText
import Verif.PropText
import Verif.PropAddr
import Verif.Utf8
/-!
# Text of network addresses, hex of texts: C58, C59, C60
-/

namespace JBytes

/-! ## C58: `hex_string::encode` and `hex_string::decode` -/

/-- What is known of `String::from_utf8_lossy`: it returns text, and text unchanged. -/
structure IsLossy (lossy : List Byte → List Byte) : Prop where
  text : ∀ d, ∃ cs : List Char, lossy d = utf8Of cs
  same : ∀ cs : List Char, lossy (utf8Of cs) = utf8Of cs

/-- C58: decoding the hex text of `d` never fails; it gives back `d` exactly when `d` is UTF-8 text. -/
theorem C58_hex_text (lossy : List Byte → List Byte) (hl : IsLossy lossy) (d : List Byte) :
    (∃ t, hexDecodeText lossy (hexEncodeText d) = some t) ∧
    (hexDecodeText lossy (hexEncodeText d) = some d ↔ ∃ cs : List Char, d = utf8Of cs) := by
  have e : hexDecodeText lossy (hexEncodeText d) = some (lossy d) := by
    unfold hexDecodeText hexEncodeText hexShow
    rw [(C41_hex_roundtrip d).1]
    rfl
  rw [e]
  refine ⟨⟨_, rfl⟩, ?_, ?_⟩
  · intro h
    obtain ⟨cs, hc⟩ := hl.text d
    exact ⟨cs, by rw [← hc]; exact (Option.some.inj h).symm⟩
  · rintro ⟨cs, rfl⟩
    rw [hl.same]

/-- C58: in the other direction, hex text that denotes UTF-8 text is given back in lower case; all texts with an odd
length or another character are refused. -/
theorem C58_hex_normal (lossy : List Byte → List Byte) (hl : IsLossy lossy) (s : List Byte) :
    (hexDecodeText lossy s = none ↔ ¬ (s.length % 2 = 0 ∧ ∀ c ∈ s, IsHexDigit c)) ∧
    ∀ cs : List Char, HexText s (utf8Of cs) → hexDecodeText lossy s = some (utf8Of cs) ∧
      (hexEncodeText (utf8Of cs)).map upperByte = s.map upperByte := by
  refine ⟨?_, ?_⟩
  · rw [← C41_hex_accepts]
    unfold hexDecodeText
    cases hexFromStr s <;> simp
  · intro cs h
    refine ⟨?_, ?_⟩
    · unfold hexDecodeText hexShow
      rw [(C41_hex_parse s _).mpr h, Option.map_some, hl.same]
    · generalize utf8Of cs = d at h
      unfold hexEncodeText toHexLower
      induction h with
      | nil => rfl
      | cons h1 h2 _ ih =>
        rename_i a b s d u v h3
        have key : ∀ p ∈ hexDigits, ∀ q ∈ hexDigits, (hexPair hexLower (UInt8.ofNat (16 * p.2 + q.2))).map upperByte
          = [upperByte p.1, upperByte q.1] := by decide +kernel
        rw [List.flatMap_cons, List.map_append, ih, key _ h1 _ h2]
        rfl

/-- A function with the laws of `from_utf8_lossy` exists. -/
theorem isLossy_sample : IsLossy (fun d => if utf8Valid d then d else utf8Of ['?']) := by
  refine ⟨fun d => ?_, fun cs => ?_⟩
  · split
    · exact (utf8Valid_iff d).mp ‹_›
    · exact ⟨_, rfl⟩
  · rw [if_pos ((utf8Valid_iff _).mpr ⟨cs, rfl⟩)]

example : hexDecodeText (fun d => if utf8Valid d then d else utf8Of ['?']) [0x36, 0x41, 0x36, 0x31] = some [0x6a, 0x61] ∧
    hexDecodeText (fun d => if utf8Valid d then d else utf8Of ['?']) [0x66, 0x66] = some [0x3f] := by decide +kernel

/-! ## C59: text of `NetAddress` -/

/-- What is known of the standard library's texts of IP addresses: printing and parsing are inverse, an IPv4 text has a
dot and no colon, an IPv6 text a colon, and what parses as IPv6 has `::` or at least six colons (eight groups, the last
two of which may be written as an IPv4 address). -/
structure IpText.Lawful (T : IpText) : Prop where
  back4 : ∀ a, a.length = 4 → T.parse4 (T.show4 a) = some a
  dot4 : ∀ a, a.length = 4 → (0x2E : Byte) ∈ T.show4 a ∧ (0x3A : Byte) ∉ T.show4 a
  back6 : ∀ a, a.length = 16 → T.parse6 (T.show6 a) = some a
  colon6 : ∀ a, a.length = 16 → (0x3A : Byte) ∈ T.show6 a
  form6 : ∀ s a, T.parse6 s = some a → [0x3A, 0x3A] <:+: s ∨ 6 ≤ s.count 0x3A

/-- A value of the Rust type. -/
def NetAddr.Valid : NetAddr → Prop
  | .v4 o => o.length = 4
  | .v6 o => o.length = 16
  | .mac o => o.length = 6
  | .usize n => n < usizeMod

/-- The text is digits with this value in base ten. -/
inductive DecimalText : List Byte → Nat → Prop
  | one (d : Nat) : d < 10 → DecimalText [UInt8.ofNat (0x30 + d)] d
  | snoc {s : List Byte} {n : Nat} (d : Nat) : DecimalText s n → d < 10 →
      DecimalText (s ++ [UInt8.ofNat (0x30 + d)]) (10 * n + d)

theorem decimal_text (n : Nat) : DecimalText (decimal n) n := by
  induction n using decimal.induct with
  | case1 n h =>
    rw [decimal.eq_def, if_pos h]
    exact .one n h
  | case2 n h ih =>
    rw [decimal.eq_def, if_neg h]
    have := DecimalText.snoc (n % 10) ih (by omega)
    rw [show 10 * (n / 10) + n % 10 = n by omega] at this
    exact this

theorem digit_toNat {d : Nat} (h : d < 10) : (UInt8.ofNat (0x30 + d)).toNat = 0x30 + d :=
  UInt8.toNat_ofNat_of_lt' (by show 0x30 + d < 256; omega)

theorem DecimalText.digits {s : List Byte} {n : Nat} (h : DecimalText s n) :
    s ≠ [] ∧ ∀ c ∈ s, 0x30 ≤ c.toNat ∧ c.toNat ≤ 0x39 := by
  induction h with
  | one d hd => exact ⟨by simp, by intro c hc; rw [List.mem_singleton.mp hc, digit_toNat hd]; omega⟩
  | snoc d _ hd ih =>
    refine ⟨by simp, ?_⟩
    intro c hc
    rcases List.mem_append.mp hc with hc | hc
    · exact ih.2 c hc
    · rw [List.mem_singleton.mp hc, digit_toNat hd]; omega

theorem radix10_append (s t : List Byte) : ∀ acc, radix10Digits acc (s ++ t)
    = (radix10Digits acc s).bind fun x => radix10Digits x t := by
  induction s with
  | nil => intro acc; rfl
  | cons c s ih =>
    intro acc
    simp only [List.cons_append, radix10Digits]
    split
    · split
      · rfl
      · exact ih _
    · rfl

theorem radix10_singleton (acc d : Nat) (hd : d < 10) : radix10Digits acc [UInt8.ofNat (0x30 + d)]
    = if usizeMod ≤ 10 * acc + d then none else some (10 * acc + d) := by
  simp only [radix10Digits, digit_toNat hd]
  rw [if_pos (by omega), show acc * 10 + (48 + d - 48) = 10 * acc + d by omega]

theorem radix10_of_text {s : List Byte} {n : Nat} (h : DecimalText s n) :
    radix10Digits 0 s = if usizeMod ≤ n then none else some n := by
  induction h with
  | one d hd =>
    rw [radix10_singleton 0 d hd]
    simp
  | snoc d _ hd ih =>
    rename_i s n _
    rw [radix10_append, ih]
    split
    · rw [if_pos (by omega)]
      rfl
    · rw [Option.bind_some, radix10_singleton n d hd]

theorem text_of_digits (s : List Byte) : s ≠ [] → (∀ c ∈ s, 0x30 ≤ c.toNat ∧ c.toNat ≤ 0x39) → ∃ n, DecimalText s n := by
  rw [← s.reverse_reverse]
  induction s.reverse with
  | nil => intro h; exact absurd rfl h
  | cons c r ih =>
    rw [List.reverse_cons]
    generalize r.reverse = s at ih ⊢
    intro _ h
    obtain ⟨h1, h2⟩ := h c (by simp)
    have hc : c = UInt8.ofNat (0x30 + (c.toNat - 0x30)) := by
      rw [show 0x30 + (c.toNat - 0x30) = c.toNat by omega]
      simp
    rw [hc]
    by_cases hs : s = []
    · subst hs
      exact ⟨_, .one _ (by omega)⟩
    · obtain ⟨n, hn⟩ := ih hs (fun x hx => h x (by simp [hx]))
      exact ⟨_, .snoc _ hn (by omega)⟩

theorem radix10_none {s : List Byte} {acc : Nat} (h : ¬ ∀ c ∈ s, 0x30 ≤ c.toNat ∧ c.toNat ≤ 0x39) :
    radix10Digits acc s = none := by
  induction s generalizing acc with
  | nil => exact absurd (by simp) h
  | cons c s ih =>
    simp only [radix10Digits]
    split
    · split
      · rfl
      · rename_i hc _
        exact ih (fun h' => h (by intro x hx; rcases List.mem_cons.mp hx with rfl | hx; exact hc; exact h' x hx))
    · rfl

theorem radix10_iff (s : List Byte) (hs : s ≠ []) (n : Nat) :
    radix10Digits 0 s = some n ↔ DecimalText s n ∧ n < usizeMod := by
  by_cases h : ∀ c ∈ s, 0x30 ≤ c.toNat ∧ c.toNat ≤ 0x39
  · obtain ⟨m, hm⟩ := text_of_digits s hs h
    rw [radix10_of_text hm]
    constructor
    · intro e
      split at e
      · cases e
      · obtain rfl := Option.some.inj e
        exact ⟨hm, by omega⟩
    · rintro ⟨h1, h2⟩
      have e1 := radix10_of_text h1
      rw [radix10_of_text hm, if_neg (by omega : ¬ usizeMod ≤ n)] at e1
      exact e1
  · rw [radix10_none h]
    exact ⟨fun h => (nomatch h), fun h' => absurd h'.1.digits.2 h⟩

/-- `parse::<usize>`: decimal digits, perhaps after a plus sign, of a number that fits. -/
theorem usizeFromStr_iff (s : List Byte) (n : Nat) : usizeFromStr s = some n ↔
    ∃ t, (s = t ∨ s = 0x2B :: t) ∧ DecimalText t n ∧ n < usizeMod := by
  have nodigit : ∀ {c : Byte} {t : List Byte} {n : Nat}, c = 0x2B ∨ c = 0x2D → ¬ DecimalText (c :: t) n := by
    intro c t n hc h
    have := (h.digits.2 c (by simp))
    rcases hc with rfl | rfl <;> revert this <;> decide
  have nonil : ∀ {n : Nat}, ¬ DecimalText [] n := fun h => h.digits.1 rfl
  unfold usizeFromStr
  match s with
  | [] =>
    refine ⟨fun h => (nomatch h), ?_⟩
    rintro ⟨t, rfl | h, h1, _⟩
    · exact absurd h1 nonil
    · cases h
  | [c] =>
    simp only
    split
    · rename_i hc
      refine ⟨fun h => (nomatch h), ?_⟩
      rintro ⟨t, rfl | h, h1, _⟩
      · exact absurd h1 (nodigit hc)
      · cases h; exact absurd h1 nonil
    · rename_i hc
      rw [radix10_iff [c] (by simp)]
      constructor
      · intro h; exact ⟨_, .inl rfl, h⟩
      · rintro ⟨t, rfl | h, h1⟩
        · exact h1
        · cases h; exact absurd h1.1 nonil
  | c :: d :: cs =>
    simp only
    split
    · rename_i hc
      subst hc
      rw [radix10_iff (d :: cs) (by simp)]
      constructor
      · intro h; exact ⟨_, .inr rfl, h⟩
      · rintro ⟨t, rfl | h, h1⟩
        · exact absurd h1.1 (nodigit (.inl rfl))
        · cases h; exact h1
    · rename_i hc
      rw [radix10_iff (c :: d :: cs) (by simp)]
      constructor
      · intro h; exact ⟨_, .inl rfl, h⟩
      · rintro ⟨t, rfl | h, h1⟩
        · exact h1
        · cases h; exact absurd rfl hc

theorem DecimalText.no {s : List Byte} {n : Nat} (h : DecimalText s n) : (0x3A : Byte) ∉ s ∧ (0x2E : Byte) ∉ s := by
  constructor <;> intro hc <;> have := h.digits.2 _ hc <;> revert this <;> decide

theorem macText_colons (m : List Byte) : (macToStr m).count 0x3A = m.length - 1 ∧ ¬ [0x3A, 0x3A] <:+: macToStr m ∧
    ∀ r, macToStr m ≠ 0x3A :: r := by
  induction m with
  | nil => exact ⟨rfl, by simp [macToStr], by simp [macToStr]⟩
  | cons x m ih =>
    obtain ⟨a, b, u, v, h1, -, -, -, ha, hb, -⟩ := hexPair_spec x
    cases m with
    | nil =>
      rw [macToStr, h1]
      refine ⟨?_, ?_, ?_⟩
      · simp [ha, hb, List.count_cons]
      · rintro ⟨p, q, h⟩
        have : (0x3A : Byte) ∈ [a, b] := by rw [← h]; simp
        simp only [List.mem_cons, List.not_mem_nil, or_false] at this
        rcases this with h | h
        · exact ha h.symm
        · exact hb h.symm
      · rintro r h; cases h; exact ha rfl
    | cons y m =>
      have e : macToStr (x :: y :: m) = a :: b :: 0x3A :: macToStr (y :: m) := by rw [macToStr, h1]; rfl; simp
      rw [e]
      refine ⟨?_, ?_, ?_⟩
      · rw [List.count_cons, List.count_cons, List.count_cons, ih.1]
        simp [ha, hb]
      · intro h
        rw [List.infix_cons_iff, List.infix_cons_iff, List.infix_cons_iff] at h
        rcases h with h | h | h | h
        · obtain ⟨t, h⟩ := h; cases h; exact ha rfl
        · obtain ⟨t, h⟩ := h; cases h; exact hb rfl
        · obtain ⟨t, h⟩ := h
          simp only [List.cons_append, List.nil_append, List.cons.injEq, true_and] at h
          exact ih.2.2 _ h.symm
        · exact ih.2.1 h
      · rintro r h; cases h; exact ha rfl

/-- C59: the text of every address parses back to that address, of the same kind. -/
theorem C59_net_text (T : IpText) (hT : T.Lawful) (a : NetAddr) (ha : a.Valid) :
    netFromStr T (netToStr T a) = some a := by
  unfold netFromStr
  cases a with
  | v4 o =>
    obtain ⟨h1, h2⟩ := hT.dot4 o ha
    simp only [netToStr, if_neg h2, if_pos h1, hT.back4 o ha]
  | v6 o => simp only [netToStr, if_pos (hT.colon6 o ha), hT.back6 o ha]
  | usize n =>
    obtain ⟨h1, h2⟩ := (decimal_text n).no
    simp only [netToStr, if_neg h1, if_neg h2,
      (usizeFromStr_iff (decimal n) n).mpr ⟨_, .inl rfl, decimal_text n, ha⟩]
  | mac m =>
    have hm : m.length = 6 := ha
    obtain ⟨h1, h2, -⟩ := macText_colons m
    have h3 : (0x3A : Byte) ∈ macToStr m := by
      apply List.count_pos_iff.mp
      rw [h1, hm]
      decide
    have h6 : T.parse6 (macToStr m) = none := by
      cases h : T.parse6 (macToStr m) with
      | none => rfl
      | some a =>
        rcases hT.form6 _ _ h with h | h
        · exact absurd h h2
        · rw [h1, hm] at h; omega
    simp only [netToStr, if_pos h3, h6, C39_mac_text m hm]

/-- C59: no two addresses have the same text. -/
theorem C59_net_text_injective (T : IpText) (hT : T.Lawful) (a b : NetAddr) (ha : a.Valid) (hb : b.Valid)
    (h : netToStr T a = netToStr T b) : a = b := by
  have h1 := C59_net_text T hT a ha
  rw [h, C59_net_text T hT b hb] at h1
  exact (Option.some.inj h1).symm

/-- C59: which texts are read as numbers, and as MAC addresses. -/
theorem C59_net_parse (T : IpText) (s : List Byte) :
    (∀ n, netFromStr T s = some (.usize n) ↔ ∃ t, (s = t ∨ s = 0x2B :: t) ∧ DecimalText t n ∧ n < usizeMod) ∧
    (∀ m, netFromStr T s = some (.mac m) ↔ (0x3A : Byte) ∈ s ∧ T.parse6 s = none ∧ macFromStr s = some m) ∧
    (∀ o, netFromStr T s = some (.v6 o) ↔ (0x3A : Byte) ∈ s ∧ T.parse6 s = some o) ∧
    (∀ o, netFromStr T s = some (.v4 o) ↔ (0x3A : Byte) ∉ s ∧ (0x2E : Byte) ∈ s ∧ T.parse4 s = some o) := by
  have plus : ∀ t n, DecimalText t n → (0x3A : Byte) ∉ (0x2B :: t : List Byte) ∧ (0x2E : Byte) ∉ (0x2B :: t : List Byte) := by
    intro t n h
    refine ⟨fun hc => ?_, fun hc => ?_⟩ <;> rcases List.mem_cons.mp hc with hc | hc
    · revert hc; decide
    · exact h.no.1 hc
    · revert hc; decide
    · exact h.no.2 hc
  have hno : ∀ n, (∃ t, (s = t ∨ s = 0x2B :: t) ∧ DecimalText t n ∧ n < usizeMod) →
      (0x3A : Byte) ∉ s ∧ (0x2E : Byte) ∉ s := by
    rintro n ⟨t, rfl | rfl, h, -⟩
    · exact h.no
    · exact plus _ _ h
  unfold netFromStr
  by_cases h1 : (0x3A : Byte) ∈ s
  · simp only [if_pos h1, h1, true_and, not_true, false_and]
    refine ⟨fun n => ⟨?_, fun h => absurd h1 (hno n h).1⟩, ?_⟩
    · cases T.parse6 s <;> cases macFromStr s <;> simp
    · cases T.parse6 s <;> cases macFromStr s <;> simp
  · simp only [if_neg h1, h1, false_and, not_false_eq_true, true_and]
    by_cases h2 : (0x2E : Byte) ∈ s
    · simp only [if_pos h2, h2, true_and]
      refine ⟨fun n => ⟨?_, fun h => absurd h2 (hno n h).2⟩, ?_⟩
      · cases T.parse4 s <;> simp
      · cases T.parse4 s <;> simp
    · simp only [if_neg h2, h2, false_and]
      refine ⟨fun n => ?_, ?_⟩
      · rw [← usizeFromStr_iff]
        cases usizeFromStr s <;> simp
      · cases usizeFromStr s <;> simp

/-- C59 inherits the fault of C40: `aa:bb` is read as the MAC address aa:bb:00:00:00:00. -/
theorem C59_short_mac (T : IpText) (hT : T.Lawful) :
    netFromStr T [0x61, 0x61, 0x3A, 0x62, 0x62] = some (.mac [0xaa, 0xbb, 0, 0, 0, 0]) := by
  refine ((C59_net_parse T _).2.1 _).mpr ⟨by decide, ?_, by decide +kernel⟩
  cases h : T.parse6 [0x61, 0x61, 0x3A, 0x62, 0x62] with
  | none => rfl
  | some a =>
    rcases hT.form6 _ _ h with h | h
    · have : ¬ ([0x3A, 0x3A] : List Byte) <:+: [0x61, 0x61, 0x3A, 0x62, 0x62] := by decide
      exact absurd h this
    · have : ¬ 6 ≤ ([0x61, 0x61, 0x3A, 0x62, 0x62] : List Byte).count 0x3A := by decide
      exact absurd h this

/-- Functions with the laws exist. -/
def sampleText : IpText where
  show4 o := 0x2E :: toHexLower o
  parse4 s := match s with
    | 0x2E :: s => hexFromStr s
    | _ => none
  show6 o := 0x3A :: 0x3A :: toHexLower o
  parse6 s := match s with
    | 0x3A :: 0x3A :: s => hexFromStr s
    | _ => none

theorem sampleText_lawful : sampleText.Lawful := by
  have nc : ∀ d : List Byte, (0x3A : Byte) ∉ toHexLower d := by
    intro d h
    obtain ⟨x, -, hx⟩ := List.mem_flatMap.mp h
    obtain ⟨a, b, u, v, h1, -, -, -, ha, hb, -⟩ := hexPair_spec x
    rw [h1] at hx
    simp only [List.mem_cons, List.not_mem_nil, or_false] at hx
    rcases hx with h | h
    · exact ha h.symm
    · exact hb h.symm
  refine ⟨fun a _ => (C41_hex_roundtrip a).1, fun a _ => ⟨by simp [sampleText], ?_⟩, fun a _ => (C41_hex_roundtrip a).1,
    fun a _ => by simp [sampleText], ?_⟩
  · simp only [sampleText, List.mem_cons, not_or]
    exact ⟨by decide, nc a⟩
  · intro s a h
    left
    unfold sampleText at h
    simp only at h
    split at h
    · rename_i s
      exact ⟨[], s, rfl⟩
    · cases h

example : netFromStr sampleText [0x2B, 0x34, 0x32] = some (.usize 42) ∧ decimal 65535 = [54, 53, 53, 51, 53] := by
  decide +kernel

/-! ## C60: predicates of `NetAddress` -/

/-- C60: the predicates in terms of the octets. -/
theorem C60_predicates (a : NetAddr) (ha : a.Valid) :
    (netIsBroadcast a = true ↔ a = .v4 (List.replicate 4 255) ∨ a = .mac (List.replicate 6 255)) ∧
    (netIsMulticast a = true ↔
      (∃ o, a = .v4 o ∧ 224 ≤ (o.getD 0 0).toNat ∧ (o.getD 0 0).toNat < 240) ∨
      (∃ o, a = .v6 o ∧ o.getD 0 0 = 255) ∨ (∃ o, a = .mac o ∧ (o.getD 0 0).toNat % 2 = 1)) := by
  cases a with
  | v4 o =>
    refine ⟨?_, ?_⟩
    · simp [netIsBroadcast, v4IsBroadcast, List.replicate]
    · simp only [netIsMulticast, v4IsMulticast, Bool.and_eq_true, decide_eq_true_eq, reduceCtorEq, false_and,
        exists_const, or_false, NetAddr.v4.injEq]
      constructor
      · intro h; exact ⟨o, rfl, h.1, by omega⟩
      · rintro ⟨_, rfl, h⟩; omega
  | v6 o =>
    refine ⟨by simp [netIsBroadcast], ?_⟩
    have hl : o.length = 16 := ha
    obtain ⟨x, y, r, rfl⟩ : ∃ x y r, o = x :: y :: r := by
      match o, hl with
      | x :: y :: r, _ => exact ⟨x, y, r, rfl⟩
    have key : ∀ x y : Byte, (beVal [x, y] &&& 0xff00 == 0xff00) = (x == 255) := by
      intro x y
      have e : beVal [x, y] &&& 0xff00 = x.toNat * 256 := by
        have hy := UInt8.toNat_lt y
        have hx := UInt8.toNat_lt x
        have e1 : beVal [x, y] = 2 ^ 8 * x.toNat + y.toNat := by
          rw [beVal_cons, beVal_cons]
          simp [beVal]
          omega
        rw [e1, show (0xff00 : Nat) = 2 ^ 8 * 0xff + 0 from rfl]
        apply Nat.eq_of_testBit_eq
        intro i
        rw [Nat.testBit_and, Nat.testBit_two_pow_mul_add _ (by omega), Nat.testBit_two_pow_mul_add _ (by omega),
          Nat.mul_comm x.toNat 256, show (256 : Nat) = 2 ^ 8 from rfl, Nat.testBit_two_pow_mul]
        by_cases hi : i < 8
        · simp [hi]; omega
        · simp only [hi, if_false]
          rw [show (0xff : Nat) = 2 ^ 8 - 1 from rfl, Nat.testBit_two_pow_sub_one]
          by_cases h2 : i - 8 < 8
          · simp [h2]; omega
          · have : x.toNat.testBit (i - 8) = false :=
              Nat.testBit_lt_two_pow (Nat.lt_of_lt_of_le hx (Nat.pow_le_pow_right (by omega) (by omega : 8 ≤ i - 8)))
            simp [this]
      rw [e, Bool.eq_iff_iff, beq_iff_eq, beq_iff_eq]
      constructor
      · intro h
        have : x.toNat = 255 := by omega
        exact UInt8.toNat_inj.mp this
      · rintro rfl; rfl
    simp only [netIsMulticast, v6IsMulticast, List.take, key]
    simp
  | mac o =>
    have hl : o.length = 6 := ha
    obtain ⟨h1, -, h3, -⟩ := C38_predicates o hl
    refine ⟨?_, ?_⟩
    · simp [netIsBroadcast, h3]
    · simp [netIsMulticast, h1]
  | usize n => simp [netIsBroadcast, netIsMulticast]

example : netIsMulticast (.v6 (0xff :: 2 :: List.replicate 14 0)) = true ∧ netIsMulticast (.v4 [224, 0, 0, 1]) = true ∧
    netIsMulticast (.v4 [255, 255, 255, 255]) = false ∧ netIsBroadcast (.v4 [255, 255, 255, 255]) = true := by
  decide +kernel

end JBytes
