import Verif.AttrText
/-!
# Properties of attribute texts: C65 - C69
-/

namespace JBytes

variable {V : Type}

/-! ## C65: numbers -/

/-- Digit `c` has value `d`. -/
def Digit (radix : Nat) (c : Char) (d : Nat) : Prop :=
  d < radix ∧ ("0123456789abcdef".toList[d]? = some c ∨ "0123456789ABCDEF".toList[d]? = some c)

instance (radix : Nat) (c : Char) (d : Nat) : Decidable (Digit radix c d) := by unfold Digit; infer_instance

/-- A numeral and its value. -/
inductive Numeral (radix : Nat) : Text → Nat → Prop
  | digit {c : Char} {d : Nat} : Digit radix c d → Numeral radix [c] d
  | cons {c : Char} {d : Nat} {s : Text} {n : Nat} : Digit radix c d → Numeral radix s n →
      Numeral radix (c :: s) (d * radix ^ s.length + n)

theorem digits_table : (∀ d : Fin 10, digitOf 10 (Char.ofNat (48 + d)) = some d.val ∧
      "0123456789abcdef".toList[d.val]? = some (Char.ofNat (48 + d)) ∧
      "0123456789ABCDEF".toList[d.val]? = some (Char.ofNat (48 + d))) ∧
    (∀ d : Fin 10, digitOf 16 (Char.ofNat (48 + d)) = some d.val) ∧
    (∀ d : Fin 6, digitOf 16 (Char.ofNat (97 + d)) = some (10 + d.val) ∧
      "0123456789abcdef".toList[10 + d.val]? = some (Char.ofNat (97 + d))) ∧
    (∀ d : Fin 6, digitOf 16 (Char.ofNat (65 + d)) = some (10 + d.val) ∧
      "0123456789ABCDEF".toList[10 + d.val]? = some (Char.ofNat (65 + d))) := by
  decide +kernel

theorem char_of_toNat {c : Char} {n : Nat} (h : c.toNat = n) : c = Char.ofNat n := by
  rw [← h, Char.ofNat_toNat]

theorem digitOf_iff (radix : Nat) (hr : radix = 10 ∨ radix = 16) (c : Char) (d : Nat) :
    digitOf radix c = some d ↔ Digit radix c d := by
  obtain ⟨t1, t2, t3, t4⟩ := digits_table
  constructor
  · intro h
    have key : ∀ lo hi : Char, lo ≤ c ∧ c ≤ hi → lo.toNat ≤ c.toNat ∧ c.toNat ≤ hi.toNat := fun lo hi h =>
      ⟨UInt32.le_iff_toNat_le.1 h.1, UInt32.le_iff_toNat_le.1 h.2⟩
    unfold digitOf at h
    split at h
    next h1 =>
      have h1 := key _ _ h1
      simp only [Option.filter, decide_eq_true_eq] at h
      split at h <;> cases h
      have hc : c = Char.ofNat (48 + (⟨c.toNat - 48, by have := h1.2; simp at this; omega⟩ : Fin 10)) :=
        char_of_toNat (by have := h1.1; simp at this; simp; omega)
      have := (t1 ⟨c.toNat - 48, by have := h1.2; simp at this; omega⟩).2.1
      rw [← hc] at this
      exact ⟨by assumption, .inl this⟩
    next h0 =>
      split at h
      next h1 =>
        have h1 := key _ _ h1
        simp only [Option.filter, decide_eq_true_eq] at h
        split at h <;> cases h
        have h97 : 97 ≤ c.toNat := h1.1
        have hl : c.toNat - 97 < 6 := by rcases hr with rfl | rfl <;> omega
        have hc : c = Char.ofNat (97 + (⟨c.toNat - 97, hl⟩ : Fin 6)) := char_of_toNat (by simp; omega)
        have := (t3 ⟨c.toNat - 97, hl⟩).2
        rw [← hc] at this
        rw [Nat.add_comm] at this
        exact ⟨by assumption, .inl this⟩
      next =>
        split at h
        next h1 =>
          have h1 := key _ _ h1
          simp only [Option.filter, decide_eq_true_eq] at h
          split at h <;> cases h
          have h65 : 65 ≤ c.toNat := h1.1
          have hl : c.toNat - 65 < 6 := by rcases hr with rfl | rfl <;> omega
          have hc : c = Char.ofNat (65 + (⟨c.toNat - 65, hl⟩ : Fin 6)) := char_of_toNat (by simp; omega)
          have := (t4 ⟨c.toNat - 65, hl⟩).2
          rw [← hc] at this
          rw [Nat.add_comm] at this
          exact ⟨by assumption, .inr this⟩
        next => cases h
  · rintro ⟨hd, h⟩
    by_cases h10 : d < 10
    · have hc : c = Char.ofNat (48 + (⟨d, h10⟩ : Fin 10)) := by
        rcases h with h | h
        · rw [(t1 ⟨d, h10⟩).2.1] at h; exact (Option.some.inj h).symm
        · rw [(t1 ⟨d, h10⟩).2.2] at h; exact (Option.some.inj h).symm
      rw [hc]
      rcases hr with rfl | rfl
      · exact (t1 ⟨d, h10⟩).1
      · exact t2 ⟨d, h10⟩
    · have hr : radix = 16 := by omega
      subst hr
      have h6 : d - 10 < 6 := by omega
      have e : d = 10 + (⟨d - 10, h6⟩ : Fin 6).val := by simp; omega
      rcases h with h | h
      · rw [e, (t3 ⟨d - 10, h6⟩).2] at h
        rw [← Option.some.inj h, (t3 ⟨d - 10, h6⟩).1, ← e]
      · rw [e, (t4 ⟨d - 10, h6⟩).2] at h
        rw [← Option.some.inj h, (t4 ⟨d - 10, h6⟩).1, ← e]

theorem radixDigits_numeral (radix : Nat) (hr : radix = 10 ∨ radix = 16) {s : Text} {n : Nat} (h : Numeral radix s n) :
    ∀ acc, acc * radix ^ s.length + n < usizeMod → radixDigits radix acc s = some (acc * radix ^ s.length + n) := by
  induction h with
  | digit hd =>
    intro acc ha
    simp only [List.length_singleton, Nat.pow_one] at ha ⊢
    simp only [radixDigits, (digitOf_iff radix hr _ _).2 hd, if_pos ha]
  | @cons c d s n hd _ ih =>
    intro acc ha
    have e : acc * radix ^ (c :: s).length + (d * radix ^ s.length + n) = (acc * radix + d) * radix ^ s.length + n := by
      rw [List.length_cons, Nat.pow_succ, Nat.add_mul, Nat.mul_assoc acc radix, Nat.mul_comm radix, Nat.add_assoc]
    rw [e] at ha ⊢
    have hp : 1 ≤ radix ^ s.length := Nat.pow_pos (by omega)
    have : acc * radix + d < usizeMod := by
      have := Nat.le_mul_of_pos_right (acc * radix + d) hp
      omega
    simp only [radixDigits, (digitOf_iff radix hr _ _).2 hd, if_pos this]
    exact ih _ ha

theorem numeral_of_radixDigits (radix : Nat) (hr : radix = 10 ∨ radix = 16) : ∀ (s : Text) (acc n : Nat), s ≠ [] →
    acc < usizeMod → radixDigits radix acc s = some n →
    n < usizeMod ∧ ∃ m, Numeral radix s m ∧ n = acc * radix ^ s.length + m
  | [], _, _, h, _, _ => absurd rfl h
  | c :: s, acc, n, _, hacc, h => by
    simp only [radixDigits] at h
    cases hd : digitOf radix c with
    | none => rw [hd] at h; cases h
    | some d =>
      rw [hd] at h
      simp only at h
      split at h
      next hlt =>
        have hd := (digitOf_iff radix hr _ _).1 hd
        by_cases hs : s = []
        · subst hs
          simp only [radixDigits, Option.some.injEq] at h
          subst h
          exact ⟨hlt, d, .digit hd, by simp⟩
        · obtain ⟨h1, m, h2, h3⟩ := numeral_of_radixDigits radix hr s _ n hs hlt h
          refine ⟨h1, _, .cons hd h2, ?_⟩
          rw [h3, List.length_cons, Nat.pow_succ, Nat.add_mul, Nat.mul_assoc acc radix, Nat.mul_comm radix,
            Nat.add_assoc]
      next => cases h

theorem Numeral.ne_nil {radix : Nat} {s : Text} {n : Nat} (h : Numeral radix s n) : s ≠ [] := by
  cases h <;> exact List.cons_ne_nil _ _

/-- Characters that are not digits. -/
def notDigits : List Char := ['+', 'x', '"', '\\', ',', ' ', '.', '=']

/-- The characters of a numeral are digits. -/
theorem Numeral.chars {radix : Nat} {s : Text} {n : Nat} (hr : radix = 10 ∨ radix = 16) (h : Numeral radix s n) :
    ∀ c ∈ s, c ∉ notDigits := by
  have key : ∀ c d, Digit radix c d → c ∉ notDigits := by
    intro c d hd hc
    have hd := (digitOf_iff radix hr _ _).2 hd
    have e : ∀ x ∈ notDigits, digitOf 10 x = none ∧ digitOf 16 x = none := by decide +kernel
    rcases hr with rfl | rfl
    · rw [(e c hc).1] at hd; cases hd
    · rw [(e c hc).2] at hd; cases hd
  induction h with
  | digit hd =>
    intro c hc
    rw [List.mem_singleton] at hc
    subst hc
    exact key _ _ hd
  | cons hd _ ih =>
    intro c hc
    rcases List.mem_cons.1 hc with rfl | hc
    · exact key _ _ hd
    · exact ih c hc

theorem usizeFromRadix_cons (radix : Nat) {c : Char} (hc : c ≠ '+') (s : Text) :
    usizeFromRadix radix (c :: s) = radixDigits radix 0 (c :: s) := by
  unfold usizeFromRadix
  split
  next h => cases h
  next h => cases h; exact absurd rfl hc
  next h => cases h; exact absurd rfl hc
  next => rfl

/-- An optional `+` and a numeral: what `usize::from_str_radix` accepts. -/
theorem usizeFromRadix_iff (radix : Nat) (hr : radix = 10 ∨ radix = 16) (s : Text) (n : Nat) :
    usizeFromRadix radix s = some n ↔ n < usizeMod ∧
      ∃ sign digits, s = sign ++ digits ∧ (sign = [] ∨ sign = ['+']) ∧ Numeral radix digits n := by
  have h0 : 0 < usizeMod := by rw [usizeMod_def]; decide
  have hrev : ∀ (t : Text), t ≠ [] → radixDigits radix 0 t = some n → n < usizeMod ∧ Numeral radix t n := by
    intro t ht h
    obtain ⟨h1, m, h2, h3⟩ := numeral_of_radixDigits radix hr t 0 n ht h0 h
    rw [Nat.zero_mul, Nat.zero_add] at h3
    subst h3
    exact ⟨h1, h2⟩
  constructor
  · intro h
    cases s with
    | nil => cases h
    | cons c s =>
      by_cases hc : c = '+'
      · subst hc
        cases s with
        | nil => simp [usizeFromRadix] at h
        | cons c' s =>
          obtain ⟨h1, h2⟩ := hrev (c' :: s) (by simp) h
          exact ⟨h1, ['+'], c' :: s, rfl, .inr rfl, h2⟩
      · rw [usizeFromRadix_cons radix hc] at h
        obtain ⟨h1, h2⟩ := hrev (c :: s) (by simp) h
        exact ⟨h1, [], c :: s, rfl, .inl rfl, h2⟩
  · rintro ⟨hn, sign, digits, rfl, hs, hd⟩
    have := radixDigits_numeral radix hr hd 0 (by simpa using hn)
    rw [Nat.zero_mul, Nat.zero_add] at this
    have hne := hd.ne_nil
    cases digits with
    | nil => exact absurd rfl hne
    | cons c s =>
      rcases hs with rfl | rfl
      · have hc : c ≠ '+' := fun h => hd.chars hr c List.mem_cons_self (by rw [h]; decide)
        exact (usizeFromRadix_cons radix hc s).trans this
      · exact this

/-- `k` times `0x`. -/
def hexPrefix (k : Nat) : Text := (List.replicate k ['0', 'x']).flatten

theorem trimHex_prefix (k : Nat) (s : Text) (h : startsHex s = false) : trimHex (hexPrefix k ++ s) = s := by
  induction k with
  | zero =>
    show trimHex s = s
    unfold trimHex
    split
    next => simp [startsHex, List.isPrefixOf] at h
    next => rfl
  | succ k ih =>
    show trimHex ('0' :: 'x' :: (hexPrefix k ++ s)) = s
    rw [trimHex, ih]

theorem trimHex_spec : ∀ s : Text, ∃ k, s = hexPrefix k ++ trimHex s ∧ startsHex (trimHex s) = false ∧
    (startsHex s = true ↔ k ≠ 0)
  | '0' :: 'x' :: s => by
    obtain ⟨k, h1, h2, h3⟩ := trimHex_spec s
    refine ⟨k + 1, ?_, ?_, ?_⟩
    · show '0' :: 'x' :: s = '0' :: 'x' :: (hexPrefix k ++ trimHex ('0' :: 'x' :: s))
      rw [trimHex, ← h1]
    · rw [trimHex]; exact h2
    · simp [startsHex, List.isPrefixOf]
  | [] => ⟨0, rfl, rfl, by simp [startsHex, List.isPrefixOf]⟩
  | [c] => by
    refine ⟨0, ?_, ?_, ?_⟩
    · simp [trimHex, hexPrefix]
    · simp [trimHex, startsHex, List.isPrefixOf]
    · simp [startsHex, List.isPrefixOf]
  | c :: c' :: s => by
    by_cases h : c = '0' ∧ c' = 'x'
    · obtain ⟨rfl, rfl⟩ := h
      obtain ⟨k, h1, h2, h3⟩ := trimHex_spec s
      refine ⟨k + 1, ?_, ?_, ?_⟩
      · show '0' :: 'x' :: s = '0' :: 'x' :: (hexPrefix k ++ trimHex ('0' :: 'x' :: s))
        rw [trimHex, ← h1]
      · rw [trimHex]; exact h2
      · simp [startsHex, List.isPrefixOf]
    · have e : trimHex (c :: c' :: s) = c :: c' :: s := by
        unfold trimHex
        split
        next heq =>
          cases heq
          exact absurd ⟨rfl, rfl⟩ h
        next => rfl
      have hs : startsHex (c :: c' :: s) = false := by
        simp only [startsHex, List.isPrefixOf, Bool.and_true]
        cases hc : ('0' == c) with
        | false => rfl
        | true =>
          cases hc' : ('x' == c') with
          | false => rfl
          | true => exact absurd ⟨(beq_iff_eq.1 hc).symm, (beq_iff_eq.1 hc').symm⟩ h
      exact ⟨0, by rw [e]; rfl, by rw [e]; exact hs, by rw [hs]; simp⟩

/-- What `number_of` accepts, exactly. -/
theorem numberText_iff (v : Text) (n : Nat) : numberText v = some n ↔ n < usizeMod ∧ ∃ k sign digits,
    v = hexPrefix k ++ (sign ++ digits) ∧ (sign = [] ∨ sign = ['+']) ∧ Numeral (if k = 0 then 10 else 16) digits n := by
  constructor
  · intro h
    obtain ⟨k, h1, h2, h3⟩ := trimHex_spec v
    have e : (if startsHex v = true then 16 else 10) = (if k = 0 then 10 else 16 : Nat) := by
      by_cases hk : k = 0
      · rw [if_pos hk, if_neg (fun h => (h3.1 h) hk)]
      · rw [if_neg hk, if_pos (h3.2 hk)]
    unfold numberText at h
    rw [e] at h
    obtain ⟨hn, sign, digits, e1, e2, e3⟩ := (usizeFromRadix_iff _ (by split <;> simp) _ _).1 h
    exact ⟨hn, k, sign, digits, by rw [← e1]; exact h1, e2, e3⟩
  · rintro ⟨hn, k, sign, digits, rfl, hs, hd⟩
    have hr : (if k = 0 then 10 else 16 : Nat) = 10 ∨ (if k = 0 then 10 else 16 : Nat) = 16 := by split <;> simp
    have hno : startsHex (sign ++ digits) = false := by
      have hx : 'x' ∉ sign ++ digits := by
        intro hx
        rcases List.mem_append.1 hx with hx | hx
        · rcases hs with rfl | rfl
          · cases hx
          · rw [List.mem_singleton] at hx
            exact absurd hx (by decide)
        · exact hd.chars hr _ hx (by decide)
      cases hp : startsHex (sign ++ digits) with
      | false => rfl
      | true =>
        obtain ⟨t, ht⟩ := List.isPrefixOf_iff_prefix.1 hp
        rw [← ht] at hx
        exact absurd (by simp) hx
    unfold numberText
    have e : (if startsHex (hexPrefix k ++ (sign ++ digits)) = true then 16 else 10) = (if k = 0 then 10 else 16 : Nat) := by
      cases k with
      | zero =>
        show (if startsHex (sign ++ digits) = true then 16 else 10) = (10 : Nat)
        rw [hno]; rfl
      | succ k => rfl
    rw [e, trimHex_prefix k _ hno]
    exact (usizeFromRadix_iff _ hr _ _).2 ⟨hn, sign, digits, rfl, hs, hd⟩

/-- A number as written in Rust, decimal or hexadecimal (without underscores and suffix). -/
inductive RustNumber : Text → Nat → Prop
  | dec {s : Text} {n : Nat} : Numeral 10 s n → RustNumber s n
  | hex {s : Text} {n : Nat} : Numeral 16 s n → RustNumber ('0' :: 'x' :: s) n

theorem RustNumber.chars {s : Text} {n : Nat} (h : RustNumber s n) : '"' ∉ s ∧ '\\' ∉ s := by
  cases h with
  | dec h => exact ⟨fun hc => h.chars (.inl rfl) _ hc (by decide), fun hc => h.chars (.inl rfl) _ hc (by decide)⟩
  | hex h =>
    constructor
    · intro hc
      simp only [List.mem_cons] at hc
      rcases hc with hc | hc | hc
      · exact absurd hc (by decide)
      · exact absurd hc (by decide)
      · exact h.chars (.inr rfl) _ hc (by decide)
    · intro hc
      simp only [List.mem_cons] at hc
      rcases hc with hc | hc | hc
      · exact absurd hc (by decide)
      · exact absurd hc (by decide)
      · exact h.chars (.inr rfl) _ hc (by decide)

theorem unescapeQuotes_cons {c : Char} (h : c ≠ '\\') (s : Text) : unescapeQuotes (c :: s) = c :: unescapeQuotes s := by
  rw [unescapeQuotes.eq_def]
  split
  next heq => cases heq; exact absurd rfl h
  next heq => cases heq; rfl
  next heq => cases heq

/-- A literal without backslashes is left as it is. -/
theorem unescapeQuotes_plain : ∀ s : Text, '\\' ∉ s → unescapeQuotes s = s
  | [], _ => rfl
  | c :: s, h => by
    rw [unescapeQuotes_cons (fun e => h (by rw [e]; exact List.mem_cons_self)),
      unescapeQuotes_plain s (fun hc => h (List.mem_cons_of_mem _ hc))]

theorem litText_bare (s : Text) (hb : '\\' ∉ s) (hq : s.head? ≠ some '"') : litText s = s := by
  unfold litText
  rw [unescapeQuotes_plain s hb]
  simp only [hq, false_and, if_false]

theorem litText_quoted (v src : Text) (h : unescapeQuotes ('"' :: (src ++ ['"'])) = '"' :: (v ++ ['"'])) :
    litText ('"' :: (src ++ ['"'])) = v := by
  unfold litText
  rw [h]
  simp only [List.head?_cons, true_and]
  rw [if_pos (by rw [← List.cons_append, List.getLast?_append]; rfl)]
  simp

/-- C65: numbers in attributes, exactly: `0x` any number of times, an optional `+`, and a numeral below 2^64. -/
theorem C65_number_exact (lit : Text) (n : Nat) : parseUsize lit = .usize n ↔ n < usizeMod ∧ ∃ k sign digits,
    litText lit = hexPrefix k ++ (sign ++ digits) ∧ (sign = [] ∨ sign = ['+']) ∧
      Numeral (if k = 0 then 10 else 16) digits n := by
  rw [← numberText_iff]
  unfold parseUsize
  cases h : numberText (litText lit) with
  | some m => simp
  | none => simp

/-- C65: a decimal or hexadecimal number below 2^64, quoted or not, has the value it has in Rust. -/
theorem C65_number (s : Text) (n : Nat) (h : RustNumber s n) (hn : n < usizeMod) :
    parseUsize s = .usize n ∧ parseUsize ('"' :: (s ++ ['"'])) = .usize n := by
  obtain ⟨h1, h2⟩ := h.chars
  have e1 : litText s = s := litText_bare s h2 fun hq => h1 (List.mem_of_mem_head? hq)
  have e2 : litText ('"' :: (s ++ ['"'])) = s := litText_quoted s s (unescapeQuotes_plain _ (by simp [h2]))
  have : numberText s = some n := by
    refine (numberText_iff s n).2 ⟨hn, ?_⟩
    cases h with
    | dec h => exact ⟨0, [], s, rfl, .inl rfl, h⟩
    | hex h => exact ⟨1, [], _, rfl, .inl rfl, h⟩
  unfold parseUsize
  rw [e1, e2, this]
  exact ⟨rfl, rfl⟩

/-- C65: whatever is not such a number stays the expression that was written. -/
theorem C65_expression (lit : Text) (h : ∀ n, parseUsize lit ≠ .usize n) : parseUsize lit = .var (litText lit) := by
  unfold parseUsize at h ⊢
  cases he : numberText (litText lit) with
  | some m => rw [he] at h; exact absurd rfl (h m)
  | none => rfl

/-- C65: in particular names, and anything with a character that is neither a digit nor `x` nor `+`. -/
theorem C65_name_kept (lit : Text) (c : Char) (hc : c ∈ litText lit) (hx : c ≠ 'x' ∧ c ≠ '+' ∧ digitOf 16 c = none) :
    parseUsize lit = .var (litText lit) := by
  refine C65_expression lit fun n hn => ?_
  obtain ⟨-, k, sign, digits, e, hs, hd⟩ := (C65_number_exact lit n).1 hn
  have hex : ∀ {d v}, Numeral (if k = 0 then 10 else 16) d v → ∀ x ∈ d, digitOf 16 x ≠ none := by
    intro d v hnum
    have step : ∀ x w, Digit (if k = 0 then 10 else 16) x w → digitOf 16 x ≠ none := by
      intro x w hw
      have : Digit 16 x w := ⟨by have := hw.1; split at this <;> omega, hw.2⟩
      rw [(digitOf_iff 16 (.inr rfl) _ _).2 this]
      simp
    induction hnum with
    | digit h => intro x hx; rw [List.mem_singleton] at hx; subst hx; exact step _ _ h
    | cons h _ ih =>
      intro x hx
      rcases List.mem_cons.1 hx with rfl | hx
      · exact step _ _ h
      · exact ih x hx
  rw [e] at hc
  rcases List.mem_append.1 hc with hc | hc
  · simp only [hexPrefix, List.mem_flatten, List.mem_replicate] at hc
    obtain ⟨l, ⟨-, rfl⟩, hl⟩ := hc
    simp only [List.mem_cons, List.not_mem_nil, or_false] at hl
    rcases hl with rfl | rfl
    · exact absurd hx.2.2 (by decide +kernel)
    · exact hx.1 rfl
  · rcases List.mem_append.1 hc with hc | hc
    · rcases hs with rfl | rfl
      · cases hc
      · rw [List.mem_singleton] at hc
        exact hx.2.1 hc
    · exact hex hd c hc hx.2.2

example : parseUsize ['1', '6'] = .usize 16 ∧ parseUsize ['"', '0', 'x', '1', 'F', '"'] = .usize 31 :=
  ⟨(C65_number _ 16 (.dec (.cons (d := 1) (by decide +kernel) (.digit (d := 6) (by decide +kernel)))) (by
      rw [usizeMod_def]; decide)).1,
   (C65_number ['0', 'x', '1', 'F'] 31 (.hex (.cons (d := 1) (by decide +kernel) (.digit (d := 15) (by decide +kernel)))) (by
      rw [usizeMod_def]; decide)).2⟩

example : parseUsize "\"head.len\"".toList = .var "head.len".toList :=
  C65_name_kept _ 'h' (by decide +kernel) (by decide +kernel)

/-- C65 fails: texts that are not numbers in Rust are taken as numbers. -/
theorem C65_violated : parseUsize "\"0x0x10\"".toList = .usize 16 ∧ (∀ n, ¬ RustNumber "0x0x10".toList n) ∧
    parseUsize "\"0x+10\"".toList = .usize 16 ∧ ∀ n, ¬ RustNumber "0x+10".toList n := by
  have d1 : Numeral 16 ['1', '0'] 16 := .cons (d := 1) (by decide +kernel) (.digit (d := 0) (by decide +kernel))
  refine ⟨(C65_number_exact _ 16).2 ⟨by rw [usizeMod_def]; decide, 2, [], ['1', '0'], by decide +kernel, .inl rfl, d1⟩,
    fun n h => ?_,
    (C65_number_exact _ 16).2 ⟨by rw [usizeMod_def]; decide, 1, ['+'], ['1', '0'], by decide +kernel, .inr rfl, d1⟩,
    fun n h => ?_⟩
  · generalize hs : "0x0x10".toList = s at h
    cases h with
    | dec h => exact h.chars (.inl rfl) 'x' (by rw [← hs]; decide) (by decide)
    | hex h =>
      refine h.chars (.inr rfl) 'x' ?_ (by decide)
      have := congrArg (List.drop 2) hs
      simp only [List.drop_succ_cons, List.drop_zero] at this
      rw [← this]
      decide
  · generalize hs : "0x+10".toList = s at h
    cases h with
    | dec h => exact h.chars (.inl rfl) 'x' (by rw [← hs]; decide) (by decide)
    | hex h =>
      refine h.chars (.inr rfl) '+' ?_ (by decide)
      have := congrArg (List.drop 2) hs
      simp only [List.drop_succ_cons, List.drop_zero] at this
      rw [← this]
      decide

/-! ## C66: string literals -/

/-- The source text between the quotes of a string literal and the string it denotes, with the given escapes. -/
inductive Escaped (escapes : List (Char × Char)) : Text → Text → Prop
  | nil : Escaped escapes [] []
  | plain {c : Char} {s v : Text} : c ≠ '"' → c ≠ '\\' → Escaped escapes s v → Escaped escapes (c :: s) (c :: v)
  | escape {e c : Char} {s v : Text} : (e, c) ∈ escapes → Escaped escapes s v →
      Escaped escapes ('\\' :: e :: s) (c :: v)

/-- The simple escapes of Rust string literals. -/
def rustEscapes : List (Char × Char) :=
  [('n', '\n'), ('r', '\r'), ('t', '\t'), ('\\', '\\'), ('0', '\x00'), ('\'', '\''), ('"', '"')]

/-- C66, partial: a string literal whose only escape is `\"` is taken for the string it denotes.  Missing: the other
escapes (`C66_violated`). -/
theorem C66_string_partial (src v : Text) (h : Escaped [('"', '"')] src v) : litText ('"' :: (src ++ ['"'])) = v := by
  refine litText_quoted v src ?_
  rw [unescapeQuotes_cons (by decide)]
  congr 1
  induction h with
  | nil => rfl
  | plain _ h2 _ ih => rw [List.cons_append, unescapeQuotes_cons h2, ih]; rfl
  | escape he _ ih =>
    simp only [List.mem_cons, List.not_mem_nil, or_false, Prod.mk.injEq] at he
    obtain ⟨rfl, rfl⟩ := he
    show unescapeQuotes ('\\' :: '"' :: _) = _
    rw [unescapeQuotes]
    exact congrArg _ ih

/-- C66: literals that are not strings, such as numbers and byte strings, are taken as they are written (when they
contain no backslash). -/
theorem C66_bare (s : Text) (hb : '\\' ∉ s) (hq : s.head? ≠ some '"') : litText s = s := litText_bare s hb hq

example : litText "\"name == \\\"a b\\\"\"".toList = "name == \"a b\"".toList ∧
    litText "b\"\x00\"".toList = "b\"\x00\"".toList := by decide +kernel

/-- C66 fails for the other escapes: the literal `"a\\b"` denotes a text with one backslash and is taken for
one with two, and `"\n"` is taken
for a backslash and an `n`. -/
theorem C66_violated : Escaped rustEscapes ['a', '\\', '\\', 'b'] ['a', '\\', 'b'] ∧
    litText ['"', 'a', '\\', '\\', 'b', '"'] ≠ ['a', '\\', 'b'] ∧ Escaped rustEscapes ['\\', 'n'] ['\n'] ∧
    litText ['"', '\\', 'n', '"'] ≠ ['\n'] := by
  refine ⟨.plain (by decide) (by decide) (.escape (by decide) (.plain (by decide) (by decide) .nil)), by decide +kernel,
    .escape (by decide) .nil, by decide +kernel⟩

/-! ## C67: lists of modifiers -/

section
variable {σ : Type} [DecidableEq σ] (writes : AttrItem → Option (List (σ × AttrVal)))

/-- The fields an item assigns. -/
def targets (i : AttrItem) : List σ := ((writes i).getD []).map Prod.fst

/-- The value of the last of the assignments to `s`. -/
def lastTo (s : σ) (ws : List (σ × AttrVal)) : Option AttrVal := ((ws.filter fun w => s = w.1).getLast?).map Prod.snd

theorem assign_get (s : σ) : ∀ (ws : List (σ × AttrVal)) (g : σ → Option AttrVal),
    assign g ws s = (lastTo s ws).or (g s)
  | [], g => rfl
  | w :: ws, g => by
    show assign (fun s => if s = w.1 then some w.2 else g s) ws s = _
    rw [assign_get s ws]
    unfold lastTo
    by_cases h : s = w.1
    · rw [if_pos h, List.filter_cons_of_pos (by simpa using h)]
      cases hl : (ws.filter fun w => s = w.1) with
      | nil => rfl
      | cons a l =>
        rw [List.getLast?_cons_cons]
        cases h2 : (a :: l).getLast? with
        | none => simp at h2
        | some x => rfl
    · rw [if_neg h, List.filter_cons_of_neg (by simpa using h)]

theorem lastTo_none {s : σ} {ws : List (σ × AttrVal)} (h : s ∉ ws.map Prod.fst) : lastTo s ws = none := by
  unfold lastTo
  rw [List.filter_eq_nil_iff.2 (fun w hw he => h (List.mem_map.2 ⟨w, hw, (of_decide_eq_true he).symm⟩))]
  rfl

theorem assign_comm {a b : List (σ × AttrVal)} (h : ∀ s ∈ a.map Prod.fst, s ∉ b.map Prod.fst)
    (g : σ → Option AttrVal) : assign (assign g a) b = assign (assign g b) a := by
  funext s
  rw [assign_get, assign_get, assign_get, assign_get]
  by_cases hs : s ∈ a.map Prod.fst
  · rw [lastTo_none (h s hs)]
    cases lastTo s a <;> rfl
  · rw [lastTo_none hs]
    cases lastTo s b <;> rfl

theorem assignItems_perm {is js : List AttrItem} (hp : is.Perm js) :
    is.Pairwise (fun i j => ∀ s ∈ targets writes i, s ∉ targets writes j) →
    ∀ g, assignItems writes g is = assignItems writes g js := by
  induction hp with
  | nil => exact fun _ _ => rfl
  | cons i _ ih =>
    intro hd g
    simp only [assignItems]
    congr 1
    funext ws
    exact ih (List.pairwise_cons.1 hd).2 _
  | swap i j l =>
    intro hd g
    have hd := (List.pairwise_cons.1 hd).1 i List.mem_cons_self
    simp only [assignItems]
    cases hi : writes i with
    | none => cases writes j <;> rfl
    | some a =>
      cases hj : writes j with
      | none => rfl
      | some b =>
        simp only [Option.bind_some]
        rw [assign_comm]
        intro s hs hs'
        exact hd s (by rw [targets, hj]; exact hs) (by rw [targets, hi]; exact hs')
  | trans h1 _ ih1 ih2 =>
    intro hd g
    rw [ih1 hd g]
    refine ih2 (h1.pairwise hd ?_) g
    intro a b hab s hs hs'
    exact hab s hs' hs

theorem assignItems_some : ∀ (items : List AttrItem) (g : σ → Option AttrVal),
    (∀ i ∈ items, (writes i).isSome = true) →
    ∃ f, assignItems writes g items = some f ∧
      ∀ s, f s = (lastTo s (items.flatMap fun i => (writes i).getD [])).or (g s)
  | [], g, _ => ⟨g, rfl, fun s => rfl⟩
  | i :: is, g, h => by
    obtain ⟨ws, hw⟩ := Option.isSome_iff_exists.1 (h i List.mem_cons_self)
    obtain ⟨f, h1, h2⟩ := assignItems_some is (assign g ws) (fun j hj => h j (List.mem_cons_of_mem _ hj))
    refine ⟨f, by rw [assignItems, hw]; exact h1, fun s => ?_⟩
    rw [h2, assign_get, List.flatMap_cons, hw, Option.getD_some]
    unfold lastTo
    rw [List.filter_append, List.getLast?_append]
    cases (List.filter (fun w => decide (s = w.1)) (is.flatMap fun i => (writes i).getD [])).getLast? <;> rfl

theorem assignItems_none : ∀ (items : List AttrItem) (g : σ → Option AttrVal),
    (∃ i ∈ items, writes i = none) → assignItems writes g items = none
  | [], _, h => by obtain ⟨i, hi, _⟩ := h; cases hi
  | j :: is, g, h => by
    obtain ⟨i, hi, hw⟩ := h
    simp only [assignItems]
    cases hj : writes j with
    | none => rfl
    | some ws =>
      rcases List.mem_cons.1 hi with rfl | hi
      · rw [hw] at hj; cases hj
      · exact assignItems_none is _ ⟨i, hi, hw⟩

end

/-- C67, partial: a list of modifiers is rejected exactly when one of them is unknown, and otherwise every field of the result
has the value that the last modifier for it gives, and no other.  Missing: modifiers in a second attribute
(`C67_violated`). -/
theorem C67_items_partial (items : List AttrItem) :
    (fieldText [.jbytes items] = none ↔ ∃ i ∈ items, i.writes = none) ∧
    ∀ t, fieldText [.jbytes items] = some t → t.isUse = !items.isEmpty ∧
      ∀ s, t.get s = lastTo s (items.flatMap fun i => i.writes.getD []) := by
  by_cases h : ∃ i ∈ items, i.writes = none
  · have e := assignItems_none AttrItem.writes items (fun _ => none) h
    have e : fieldText [.jbytes items] = none := by
      simp only [fieldText, getAttribute, Attribute.field, parseItems, e, Option.map_none]
    exact ⟨⟨fun _ => h, fun _ => e⟩, fun t ht => by rw [e] at ht; cases ht⟩
  · have hs : ∀ i ∈ items, i.writes.isSome = true := fun i hi => by
      cases hw : i.writes with
      | none => exact absurd ⟨i, hi, hw⟩ h
      | some _ => rfl
    obtain ⟨f, h1, h2⟩ := assignItems_some AttrItem.writes items (fun _ => none) hs
    have e : fieldText [.jbytes items] = some ⟨!items.isEmpty, f⟩ := by
      simp only [fieldText, getAttribute, Attribute.field, parseItems, h1, Option.map_some, Option.getD_some]
    refine ⟨⟨fun hn => (by rw [e] at hn; cases hn), fun h' => absurd h' h⟩, fun t ht => ?_⟩
    rw [e] at ht
    cases ht
    exact ⟨rfl, fun s => (h2 s).trans (by simp)⟩

/-- C67: the order of the modifiers of a field does not matter, as long as no two set the same thing. -/
theorem C67_order (items items' : List AttrItem) (hp : items.Perm items')
    (hd : items.Pairwise fun i j => ∀ s ∈ targets AttrItem.writes i, s ∉ targets AttrItem.writes j)
    (as : List Attribute) : fieldText (.jbytes items :: as) = fieldText (.jbytes items' :: as) := by
  have h1 : items.isEmpty = items'.isEmpty := by
    have := hp.length_eq
    cases items <;> cases items' <;> simp_all
  simp only [fieldText, getAttribute, Attribute.field, parseItems, assignItems_perm AttrItem.writes hp hd, h1]

/-- C67: the same for the modifiers of a type. -/
theorem C67_order_container (items items' : List AttrItem) (hp : items.Perm items')
    (hd : items.Pairwise fun i j => ∀ s ∈ targets AttrItem.containerWrites i, s ∉ targets AttrItem.containerWrites j)
    (as : List Attribute) : containerText (.jbytes items :: as) = containerText (.jbytes items' :: as) := by
  have h1 : items.isEmpty = items'.isEmpty := by
    have := hp.length_eq
    cases items <;> cases items' <;> simp_all
  simp only [containerText, getAttribute, Attribute.container, parseItems,
    assignItems_perm AttrItem.containerWrites hp hd, h1]

/-- Names for the same modifier. -/
def aliases : List (String × String) :=
  [("starts_with", "key"), ("end_with", "linend"), ("byte_size", "byte_count"), ("byte_size_outside", "byte_count_outside"),
    ("default_value", "default"), ("encode_value", "value_encode"), ("decode_value", "value_decode"),
    ("encode_with", "with_encode"), ("decode_with", "with_decode")]

/-- C67: a modifier may be replaced by another name for it. -/
theorem C67_aliases (a b : String) (h : (a, b) ∈ aliases) (lit : Text) (before after : List AttrItem)
    (as : List Attribute) : fieldText (.jbytes (before ++ .prop a lit :: after) :: as) =
      fieldText (.jbytes (before ++ .prop b lit :: after) :: as) := by
  have hw : propWrites a lit = propWrites b lit := by
    simp only [aliases, List.mem_cons, List.not_mem_nil, or_false, Prod.mk.injEq] at h
    rcases h with ⟨rfl, rfl⟩ | ⟨rfl, rfl⟩ | ⟨rfl, rfl⟩ | ⟨rfl, rfl⟩ | ⟨rfl, rfl⟩ | ⟨rfl, rfl⟩ | ⟨rfl, rfl⟩ | ⟨rfl, rfl⟩ |
      ⟨rfl, rfl⟩ <;> rfl
  have key : ∀ (l : List AttrItem) g, assignItems AttrItem.writes g (l ++ .prop a lit :: after) =
      assignItems AttrItem.writes g (l ++ .prop b lit :: after) := by
    intro l
    induction l with
    | nil =>
      intro g
      simp only [List.nil_append, assignItems, AttrItem.writes, hw]
    | cons i l ih =>
      intro g
      simp only [List.cons_append, assignItems]
      congr 1
      funext ws
      exact ih _
  simp only [fieldText, getAttribute, Attribute.field, parseItems, key]
  have he : (before ++ .prop a lit :: after).isEmpty = (before ++ .prop b lit :: after).isEmpty := by
    cases before <;> rfl
  rw [he]

/-- The modifiers with a number, and what they set. -/
def numberModifiers (V : Type) : List (String × ((Env V → Nat) → FieldAttrs V)) :=
  [("length", fun e => { length := some e }), ("offset", fun e => { offset := some e }),
    ("count", fun e => { count := some e }), ("try_count", fun e => { tryCount := some e }),
    ("branch", fun e => { branch := some e }), ("byte_count", fun e => { byteCount := some e }),
    ("byte_count_outside", fun e => { byteCountOutside := some e }), ("bits", fun e => { bits := some e }),
    ("bits_start", fun e => { bits := some e, bitsStart := true })]

/-- The modifiers with a byte string, and what they set. -/
def bytesModifiers (V : Type) : List (String × (List Byte → FieldAttrs V)) :=
  [("key", fun b => { key := some b }), ("split", fun b => { split := some b }), ("linend", fun b => { linend := some b }),
    ("loop_skip_starts", fun b => { loopSkipStarts := some b })]

/-- The modifiers with an expression, and what they set. -/
def codeModifiers (I : Interp V) : List (String × (Text → FieldAttrs V)) :=
  [("value_encode", fun e => { valueEncode := some (I.conv e) }), ("value_decode", fun e => { valueDecode := some (I.conv e) }),
    ("if_expr", fun e => { ifExpr := some (I.cond e) }), ("check_value", fun e => { checkValue := some (I.equal e) }),
    ("from_str", fun e => { fromStr := some (I.fromStr (some e)) }),
    ("with_decode", fun e => { withDecode := some (I.decoder e none) }),
    ("with_encode", fun e => { withEncode := some (I.encoder e none) }),
    ("with", fun e => { withDecode := some (I.decoderOf e none), withEncode := some (I.encoderOf e none) })]

/-- The modifiers without a value, and what they set. -/
def flagModifiers (I : Interp V) : List (String × FieldAttrs V) :=
  [("untake", { untake := true }), ("bits_start", { bitsStart := true }), ("skip", { skip := true }),
    ("skip_encode", { skipEncode := true }), ("skip_decode", { skipDecode := true }), ("remaining", { remaining := true }),
    ("from_str", { fromStr := some (I.fromStr none) })]

/-- The names of the byte orders. -/
def orderNames : List (Text × ByteOrder) :=
  [(['B', 'E'], .be), (['>'], .be), (['0'], .be), (['L', 'E'], .le), (['<'], .le), (['1'], .le)]

/-- The meaning of a field with the single modifier `i`. -/
def meaningOf (I : Interp V) (i : AttrItem) : Option (FieldAttrs V) := (fieldText [.jbytes [i]]).map (·.meaning I)

/-- C67: a modifier with a number, with or without quotes, sets what its name says, to this number. -/
theorem C67_number (I : Interp V) (k : String) (f : (Env V → Nat) → FieldAttrs V) (h : (k, f) ∈ numberModifiers V)
    (s : Text) (n : Nat) (hs : RustNumber s n) (hn : n < usizeMod) :
    meaningOf I (.prop k s) = some { f (fun _ => n) with isUse := true } ∧
    meaningOf I (.prop k ('"' :: (s ++ ['"']))) = some { f (fun _ => n) with isUse := true } := by
  have key : ∀ lit, parseUsize lit = .usize n → meaningOf I (.prop k lit) = some { f (fun _ => n) with isUse := true } := by
    intro lit hl
    simp only [numberModifiers, List.mem_cons, List.not_mem_nil, or_false, Prod.mk.injEq] at h
    rcases h with ⟨rfl, rfl⟩ | ⟨rfl, rfl⟩ | ⟨rfl, rfl⟩ | ⟨rfl, rfl⟩ | ⟨rfl, rfl⟩ | ⟨rfl, rfl⟩ | ⟨rfl, rfl⟩ | ⟨rfl, rfl⟩ |
      ⟨rfl, rfl⟩ <;>
    · simp only [meaningOf, fieldText, getAttribute, Attribute.field, parseItems, assignItems, AttrItem.writes, propWrites,
        hl, Option.bind_some, Option.map_some, Option.getD_some]
      rfl
  exact ⟨key _ (C65_number s n hs hn).1, key _ (C65_number s n hs hn).2⟩

/-- C67: with anything else it is the value of the expression. -/
theorem C67_expression (I : Interp V) (k : String) (f : (Env V → Nat) → FieldAttrs V) (h : (k, f) ∈ numberModifiers V)
    (lit : Text) (hl : ∀ n, parseUsize lit ≠ .usize n) :
    meaningOf I (.prop k lit) = some { f (I.num (litText lit)) with isUse := true } := by
  have hl := C65_expression lit hl
  simp only [numberModifiers, List.mem_cons, List.not_mem_nil, or_false, Prod.mk.injEq] at h
  rcases h with ⟨rfl, rfl⟩ | ⟨rfl, rfl⟩ | ⟨rfl, rfl⟩ | ⟨rfl, rfl⟩ | ⟨rfl, rfl⟩ | ⟨rfl, rfl⟩ | ⟨rfl, rfl⟩ | ⟨rfl, rfl⟩ |
    ⟨rfl, rfl⟩ <;>
  · simp only [meaningOf, fieldText, getAttribute, Attribute.field, parseItems, assignItems, AttrItem.writes, propWrites,
      hl, Option.bind_some, Option.map_some, Option.getD_some]
    rfl

/-- C67: likewise for modifiers with byte strings. -/
theorem C67_bytes (I : Interp V) (k : String) (f : List Byte → FieldAttrs V) (h : (k, f) ∈ bytesModifiers V) (lit : Text) :
    meaningOf I (.prop k lit) = some { f (I.bytes (litText lit)) with isUse := true } := by
  simp only [bytesModifiers, List.mem_cons, List.not_mem_nil, or_false, Prod.mk.injEq] at h
  rcases h with ⟨rfl, rfl⟩ | ⟨rfl, rfl⟩ | ⟨rfl, rfl⟩ | ⟨rfl, rfl⟩ <;> rfl

/-- C67: likewise for modifiers with expressions. -/
theorem C67_code (I : Interp V) (k : String) (f : Text → FieldAttrs V) (h : (k, f) ∈ codeModifiers I) (lit : Text) :
    meaningOf I (.prop k lit) = some { f (litText lit) with isUse := true } := by
  simp only [codeModifiers, List.mem_cons, List.not_mem_nil, or_false, Prod.mk.injEq] at h
  rcases h with ⟨rfl, rfl⟩ | ⟨rfl, rfl⟩ | ⟨rfl, rfl⟩ | ⟨rfl, rfl⟩ | ⟨rfl, rfl⟩ | ⟨rfl, rfl⟩ | ⟨rfl, rfl⟩ | ⟨rfl, rfl⟩ <;> rfl

/-- C67: likewise for modifiers without a value. -/
theorem C67_flags (I : Interp V) (k : String) (a : FieldAttrs V) (h : (k, a) ∈ flagModifiers I) :
    meaningOf I (.tag k) = some { a with isUse := true } := by
  simp only [flagModifiers, List.mem_cons, List.not_mem_nil, or_false, Prod.mk.injEq] at h
  rcases h with ⟨rfl, rfl⟩ | ⟨rfl, rfl⟩ | ⟨rfl, rfl⟩ | ⟨rfl, rfl⟩ | ⟨rfl, rfl⟩ | ⟨rfl, rfl⟩ | ⟨rfl, rfl⟩ <;> rfl

/-- C67: a byte order may be given by each of its names; anything else is an expression. -/
theorem C67_byteorder (I : Interp V) (lit : Text) :
    (∀ o, (litText lit, o) ∈ orderNames →
      meaningOf I (.prop "byteorder" lit) = some { byteorder := some (.lit o), isUse := true }) ∧
    ((∀ o, (litText lit, o) ∉ orderNames) →
      meaningOf I (.prop "byteorder" lit) = some { byteorder := some (.expr (I.int (litText lit))), isUse := true }) := by
  have key : meaningOf I (.prop "byteorder" lit) =
      some { byteorder := some ((parseByteorder lit).order I), isUse := true } := rfl
  rw [key]
  unfold parseByteorder
  generalize litText lit = s
  constructor
  · intro o ho
    simp only [orderNames, List.mem_cons, List.not_mem_nil, or_false, Prod.mk.injEq] at ho
    rcases ho with ⟨rfl, rfl⟩ | ⟨rfl, rfl⟩ | ⟨rfl, rfl⟩ | ⟨rfl, rfl⟩ | ⟨rfl, rfl⟩ | ⟨rfl, rfl⟩ <;> rfl
  · intro ho
    rw [if_neg]
    · rfl
    · intro hs
      simp only [List.mem_cons, List.not_mem_nil, or_false] at hs
      rcases hs with hs | hs | hs | hs | hs | hs
      · exact ho .be (by rw [hs]; decide +kernel)
      · exact ho .le (by rw [hs]; decide +kernel)
      · exact ho .be (by rw [hs]; decide +kernel)
      · exact ho .le (by rw [hs]; decide +kernel)
      · exact ho .be (by rw [hs]; decide +kernel)
      · exact ho .le (by rw [hs]; decide +kernel)

/-- `#[jbytes(length=16)]` and `#[jbytes(length="0x10")]` -/
example (I : Interp V) : meaningOf I (.prop "length" ['1', '6']) = some { length := some fun _ => 16, isUse := true } ∧
    meaningOf I (.prop "length" ['"', '0', 'x', '1', '0', '"']) = some { length := some fun _ => 16, isUse := true } :=
  ⟨(C67_number I "length" _ List.mem_cons_self ['1', '6'] 16
      (.dec (.cons (d := 1) (by decide +kernel) (.digit (d := 6) (by decide +kernel)))) (by rw [usizeMod_def]; decide)).1,
    (C67_number I "length" _ List.mem_cons_self ['0', 'x', '1', '0'] 16
      (.hex (.cons (d := 1) (by decide +kernel) (.digit (d := 0) (by decide +kernel))))
      (by rw [usizeMod_def]; decide)).2⟩

/-- C67: attributes for other macros do not matter. -/
theorem C67_others (as : List Attribute) (h : ∀ a ∈ as, a = .other ∨ ∃ items, a = .repr items) (a : Attribute)
    (bs : List Attribute) : fieldText (as ++ a :: bs) = fieldText (a :: bs) := by
  induction as with
  | nil => rfl
  | cons b as ih =>
    have ih := ih fun x hx => h x (List.mem_cons_of_mem _ hx)
    simp only [fieldText] at ih ⊢
    rcases h b List.mem_cons_self with rfl | ⟨items, rfl⟩ <;> exact ih

/-- C67 fails when modifiers are spread over several attributes: only the first counts.  Here `byteorder` is ignored
for a field, and for a type with `#[repr(u16)]`. -/
theorem C67_violated :
    (∃ t, fieldText [.jbytes [.prop "length" ['2']], .jbytes [.prop "byteorder" ['L', 'E']]] = some t ∧
      t.get .byteorder = none) ∧
    (∃ t, fieldText [.jbytes [.prop "length" ['2'], .prop "byteorder" ['L', 'E']]] = some t ∧
      t.get .byteorder = some (.str ['L', 'E'])) ∧
    ∃ t, containerText [.repr [.tag "u16"], .jbytes [.prop "byteorder" ['L', 'E']]] = some t ∧
      t.get .byteorder = none := by
  refine ⟨⟨_, rfl, rfl⟩, ⟨_, rfl, ?_⟩, ⟨_, rfl, rfl⟩⟩
  rfl

/-- `#[jbytes(length=2, byteorder="LE")]` and `#[jbytes(byteorder="LE", length=2)]` -/
example : fieldText [.jbytes [.prop "length" ['2'], .prop "byteorder" ['L', 'E']]] =
    fieldText [.jbytes [.prop "byteorder" ['L', 'E'], .prop "length" ['2']]] :=
  C67_order _ _ (.swap _ _ _) (by
    simp only [List.pairwise_cons, List.mem_singleton, List.not_mem_nil, false_imp_iff, implies_true, List.Pairwise.nil,
      and_true]
    rintro j rfl s hs
    simp only [targets, AttrItem.writes, propWrites, Option.getD_some, List.map_cons, List.map_nil,
      List.mem_singleton] at hs ⊢
    rw [hs]
    decide) []

/-! ## C68: lists of variable names -/

/-- Names with commas between them. -/
def joinComma : List Text → Text
  | [] => []
  | [g] => g
  | g :: gs => g ++ ',' :: joinComma gs

theorem splitComma_append (g : Text) (h : ',' ∉ g) (s : Text) : splitComma (g ++ ',' :: s) = g :: splitComma s := by
  induction g with
  | nil => simp [splitComma]
  | cons c g ih =>
    rw [List.cons_append, splitComma, if_neg (fun e => h (by rw [e]; exact List.mem_cons_self)),
      ih (fun hc => h (List.mem_cons_of_mem _ hc))]

theorem splitComma_single (g : Text) (h : ',' ∉ g) : splitComma g = [g] := by
  induction g with
  | nil => rfl
  | cons c g ih =>
    rw [splitComma, if_neg (fun e => h (by rw [e]; exact List.mem_cons_self)),
      ih (fun hc => h (List.mem_cons_of_mem _ hc))]

theorem splitComma_join : ∀ gs : List Text, gs ≠ [] → (∀ g ∈ gs, ',' ∉ g) → splitComma (joinComma gs) = gs
  | [], h, _ => absurd rfl h
  | [g], _, h => splitComma_single g (h g List.mem_cons_self)
  | g :: g' :: gs, _, h => by
    show splitComma (g ++ ',' :: joinComma (g' :: gs)) = _
    rw [splitComma_append g (h g List.mem_cons_self),
      splitComma_join (g' :: gs) (by simp) (fun x hx => h x (List.mem_cons_of_mem _ hx))]

/-- A name: no comma, quote or backslash, and not a number. -/
structure IsName (g : Text) : Prop where
  comma : ',' ∉ g
  quote : '"' ∉ g
  backslash : '\\' ∉ g
  number : numberText g = none

theorem joinComma_chars : ∀ gs : List Text, (∀ g ∈ gs, IsName g) → '"' ∉ joinComma gs ∧ '\\' ∉ joinComma gs
  | [], _ => ⟨by simp [joinComma], by simp [joinComma]⟩
  | [g], h => ⟨(h g List.mem_cons_self).quote, (h g List.mem_cons_self).backslash⟩
  | g :: g' :: gs, h => by
    obtain ⟨h1, h2⟩ := joinComma_chars (g' :: gs) (fun x hx => h x (List.mem_cons_of_mem _ hx))
    have hg := h g List.mem_cons_self
    show _ ∉ g ++ ',' :: joinComma (g' :: gs) ∧ _ ∉ g ++ ',' :: joinComma (g' :: gs)
    constructor
    · simp only [List.mem_append, List.mem_cons, not_or]
      exact ⟨hg.quote, by decide, h1⟩
    · simp only [List.mem_append, List.mem_cons, not_or]
      exact ⟨hg.backslash, by decide, h2⟩

theorem parseList_names (gs : List Text) (hne : gs ≠ []) (h : ∀ g ∈ gs, IsName g) :
    parseList ('"' :: (joinComma gs ++ ['"'])) = .list (gs.map .str) := by
  unfold parseList
  have hc := joinComma_chars gs h
  rw [litText_quoted (joinComma gs) (joinComma gs) (unescapeQuotes_plain _ (by simp [hc.2])),
    splitComma_join gs hne fun g hg => (h g hg).comma]
  congr 1
  clear hne hc
  induction gs with
  | nil => rfl
  | cons g gs ih =>
    rw [List.flatMap_cons, ih fun x hx => h x (List.mem_cons_of_mem _ hx)]
    simp [listEntries, (h g List.mem_cons_self).number]

/-- C68, partial: the names written with commas (and without spaces) between them are the names under which the values
of these variables are stored, and the names under which they are looked up.  Missing: spaces (`C68_violated`). -/
theorem C68_names_partial (gs : List Text) (hne : gs ≠ []) (h : ∀ g ∈ gs, IsName g) (I : Interp V) :
    (∃ t, fieldText [.jbytes [.prop "variable_name" ('"' :: (joinComma gs ++ ['"']))]] = some t ∧
      (t.meaning I).variableName = some (gs.map fun g => (String.ofList g, I.num g))) ∧
    ∃ t, containerText [.jbytes [.prop "get_variable_name" ('"' :: (joinComma gs ++ ['"']))]] = some t ∧
      t.getVars = gs.map String.ofList := by
  constructor
  · refine ⟨_, rfl, ?_⟩
    show ((some (parseList ('"' :: (joinComma gs ++ ['"'])))).map fun v => v.pieces.map fun p =>
      (String.ofList p.text, I.num p.text)) = _
    rw [parseList_names gs hne h]
    simp [AttrVal.pieces, AttrVal.text, Function.comp_def]
  · refine ⟨_, rfl, ?_⟩
    show (((some (parseList ('"' :: (joinComma gs ++ ['"'])))).map fun v => v.pieces.map fun p =>
      String.ofList p.text).getD []) = _
    rw [parseList_names gs hne h]
    simp [AttrVal.pieces, AttrVal.text, Function.comp_def]

example : (∀ g ∈ [['a'], ['l', 'e', 'n']], IsName g) := by
  intro g hg
  simp only [List.mem_cons, List.not_mem_nil, or_false] at hg
  rcases hg with rfl | rfl <;> exact ⟨by decide, by decide, by decide, by decide +kernel⟩

/-- A text without the spaces around it. -/
def trimmed (g : Text) : Text := ((g.dropWhile (· = ' ')).reverse.dropWhile (· = ' ')).reverse

/-- C68, exactly when it holds: variables are stored and looked up under the names written, without the spaces around
them, precisely when there are no such spaces. -/
theorem C68_iff (gs : List Text) (hne : gs ≠ []) (h : ∀ g ∈ gs, IsName g) (I : Interp V) :
    (∃ t, fieldText [.jbytes [.prop "variable_name" ('"' :: (joinComma gs ++ ['"']))]] = some t ∧
      ((t.meaning I).variableName.map (·.map (·.1)) = some (gs.map fun g => String.ofList (trimmed g)) ↔
        ∀ g ∈ gs, trimmed g = g)) ∧
    ∃ t, containerText [.jbytes [.prop "get_variable_name" ('"' :: (joinComma gs ++ ['"']))]] = some t ∧
      (t.getVars = (gs.map fun g => String.ofList (trimmed g)) ↔ ∀ g ∈ gs, trimmed g = g) := by
  obtain ⟨⟨t, ht, hv⟩, ⟨t', ht', hv'⟩⟩ := C68_names_partial gs hne h I
  have key : gs.map String.ofList = (gs.map fun g => String.ofList (trimmed g)) ↔ ∀ g ∈ gs, trimmed g = g := by
    rw [List.map_inj_left]
    constructor
    · intro h g hg
      exact (String.ofList_injective (h g hg)).symm
    · intro h g hg
      rw [h g hg]
  refine ⟨⟨t, ht, ?_⟩, ⟨t', ht', ?_⟩⟩
  · rw [hv, ← key]
    simp [Function.comp_def]
  · rw [hv', key]

example : trimmed [' ', 'b'] ≠ [' ', 'b'] ∧ IsName [' ', 'b'] :=
  ⟨by decide, ⟨by decide, by decide, by decide, by decide +kernel⟩⟩

/-- C68 fails with a space after the comma: the second variable is stored under a name with a space, and is not found
under its own name. -/
theorem C68_violated (I : Interp V) :
    ∃ t, fieldText [.jbytes [.prop "variable_name" ['"', 'a', ',', ' ', 'b', '"']]] = some t ∧
      (t.meaning I).variableName = some [("a", I.num ['a']), (" b", I.num [' ', 'b'])] := by
  refine ⟨_, rfl, ?_⟩
  rfl

/-! ## C69: getters -/

theorem removeAll_clean (pat : Text) : ∀ s : Text, ¬ pat <:+: s → removeAll pat 0 s = s
  | [], _ => rfl
  | c :: s, h => by
    rw [removeAll, if_neg (fun hp => h (List.isPrefixOf_iff_prefix.1 hp).isInfix),
      removeAll_clean pat s (fun hi => h (List.infix_cons hi))]

theorem afterDot_clean (s : Text) (h : '.' ∉ s) : afterDot s = s := by
  cases s with
  | nil => rfl
  | cons c s => rw [afterDot, if_neg h]

/-- A field name in which `get_function_name` finds nothing to remove. -/
structure PlainName (s : Text) : Prop where
  raw : ¬ ['r', '#'] <:+: s
  get : ¬ ['g', 'e', 't', '_'] <:+: s
  call : ¬ ['(', ')'] <:+: s
  dot : '.' ∉ s

/-- C69, partial: the getter of field `x` is called `get_x`, also when the field is written `r#x`.  Missing: names that
contain `get_` (`C69_violated`). -/
theorem C69_name_partial (s : Text) (h : PlainName s) : getterName s = s ∧ getterName ('r' :: '#' :: s) = s := by
  have key : afterDot (removeAll ['(', ')'] 0 (removeAll ['g', 'e', 't', '_'] 0 s)) = s := by
    rw [removeAll_clean _ s h.get, removeAll_clean _ s h.call, afterDot_clean s h.dot]
  refine ⟨?_, ?_⟩
  · unfold getterName
    rw [removeAll_clean _ s h.raw, key]
  · have : removeAll ['r', '#'] 0 ('r' :: '#' :: s) = s := by
      show removeAll ['r', '#'] 0 s = s
      exact removeAll_clean _ s h.raw
    unfold getterName
    rw [this, key]

/-- C69, partial: the getter `get_x` of an enum gives the marked field `x` of the value's variant, and `None` when this
variant has no such field. -/
theorem C69_enum_partial (variants : List (List (Text × Bool))) (hp : ∀ fs ∈ variants, ∀ f ∈ fs, PlainName f.1)
    (hd : ∀ fs ∈ variants, (fs.map Prod.fst).Nodup) (i : Nat) (fs : List (Text × Bool)) (hi : variants[i]? = some fs)
    (vals : List V) :
    (∀ (j : Nat) (x : Text), fs[j]? = some (x, true) → enumGet variants x i vals = vals[j]?) ∧
    ∀ x : Text, (x, true) ∉ fs → enumGet variants x i vals = none := by
  have hmem : fs ∈ variants := List.mem_of_getElem? hi
  have hpred : ∀ x, ∀ f ∈ fs, (f.2 && getterName f.1 == x) = decide (f = (x, true)) := by
    intro x f hf
    rw [(C69_name_partial _ (hp fs hmem f hf)).1]
    obtain ⟨a, b⟩ := f
    cases b <;> by_cases hax : a = x <;> simp [hax]
  have hg : variants.getD i [] = fs := by simp [List.getD, hi]
  constructor
  · intro j x hj
    unfold enumGet
    rw [hg]
    have : fs.findIdx? (fun f => f.2 && getterName f.1 == x) = some j := by
      rw [List.findIdx?_eq_some_iff_getElem]
      obtain ⟨hlt, he⟩ := List.getElem?_eq_some_iff.1 hj
      refine ⟨hlt, ?_, ?_⟩
      · rw [hpred x _ (List.getElem_mem hlt), he]
        simp
      · intro k hk
        rw [hpred x _ (List.getElem_mem (by omega))]
        simp only [decide_eq_true_eq]
        intro hkx
        have := (List.nodup_iff_pairwise_ne.1 (hd fs hmem))
        rw [List.pairwise_iff_getElem] at this
        refine this k j (by simp; omega) (by simp; omega) hk ?_
        simp only [List.getElem_map]
        rw [he, hkx]
    rw [this]
  · intro x hx
    unfold enumGet
    rw [hg]
    have : fs.findIdx? (fun f => f.2 && getterName f.1 == x) = none := by
      rw [List.findIdx?_eq_none_iff]
      intro f hf
      rw [hpred x f hf]
      simp only [decide_eq_false_iff_not]
      rintro rfl
      exact hx hf
    rw [this]

/-- `enum { A { id: .., #[jget(get_option)] len: .. }, B { #[jget(get_option)] id: .. } }` -/
example : enumGet [[("id".toList, false), ("len".toList, true)], [("id".toList, true)]] "len".toList 0 [1, 2] = some 2 ∧
    enumGet [[("id".toList, false), ("len".toList, true)], [("id".toList, true)]] "id".toList 0 [1, 2] = none := by
  decide +kernel

/-- C69 fails for names that contain `get_`: the getter of `target_id` is `get_tarid`, and of the fields `id` and
`get_id` of a variant only one can be had. -/
theorem C69_violated : getterName "target_id".toList = "tarid".toList ∧
    enumGet [[("id".toList, true), ("get_id".toList, true)]] "id".toList 0 [1, 2] = some 1 ∧
    ∀ name, enumGet [[("id".toList, true), ("get_id".toList, true)]] name 0 [1, 2] ≠ some 2 := by
  refine ⟨by decide +kernel, by decide +kernel, fun name h => ?_⟩
  have e1 : getterName "id".toList = "id".toList := by decide +kernel
  have e2 : getterName "get_id".toList = "id".toList := by decide +kernel
  simp only [enumGet, List.getD_cons_zero, List.findIdx?_cons, e1, e2, Bool.true_and, List.findIdx?_nil] at h
  by_cases hn : "id".toList = name
  · simp [hn] at h
  · have : ("id".toList == name) = false := beq_eq_false_iff_ne.2 hn
    rw [this] at h
    simp at h

end JBytes
