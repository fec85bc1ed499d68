import Verif.CodecBytes
/-!
# The UTF-8 acceptor accepts exactly the encodings of Unicode texts

The specification is Lean's own `Char` (Unicode scalar values) and `String.utf8EncodeChar`.
-/

namespace JBytes

/-- The UTF-8 encoding of a text. -/
def utf8Of (cs : List Char) : List Byte := cs.flatMap String.utf8EncodeChar

theorem ofNat_toNat_lt {n : Nat} (h : n < 256) : (UInt8.ofNat n).toNat = n := UInt8.toNat_ofNat_of_lt' h

theorem char_range (c : Char) : c.val.toNat < 0xD800 ∨ 0xDFFF < c.val.toNat ∧ c.val.toNat < 0x110000 := c.valid

theorem isCont_iff (b : Byte) : isCont b = true ↔ 0x80 ≤ b.toNat ∧ b.toNat ≤ 0xBF := by
  simp [isCont]

theorem utf8Valid1 (a : Byte) (rest : List Byte) (h : a.toNat < 0x80) :
    utf8Valid (a :: rest) = utf8Valid rest := by
  rw [utf8Valid.eq_def]
  simp only
  rw [if_pos h]

theorem utf8Valid2 (a b : Byte) (rest : List Byte) (h : 0xC2 ≤ a.toNat ∧ a.toNat ≤ 0xDF) (hb : isCont b = true) :
    utf8Valid (a :: b :: rest) = utf8Valid rest := by
  rw [utf8Valid.eq_def]
  simp only
  rw [if_neg (by omega), if_pos h, hb, Bool.true_and]

theorem utf8Valid3 (a b c : Byte) (rest : List Byte)
    (h : a.toNat = 0xE0 ∧ 0xA0 ≤ b.toNat ∧ b.toNat ≤ 0xBF ∨ 0xE1 ≤ a.toNat ∧ a.toNat ≤ 0xEC ∧ isCont b
      ∨ a.toNat = 0xED ∧ 0x80 ≤ b.toNat ∧ b.toNat ≤ 0x9F ∨ 0xEE ≤ a.toNat ∧ a.toNat ≤ 0xEF ∧ isCont b)
    (hc : isCont c = true) : utf8Valid (a :: b :: c :: rest) = utf8Valid rest := by
  rw [utf8Valid.eq_def]
  simp only
  rw [if_neg (by omega), if_neg (by omega), if_pos h, hc, Bool.true_and]

theorem utf8Valid4 (a b c d : Byte) (rest : List Byte)
    (h : a.toNat = 0xF0 ∧ 0x90 ≤ b.toNat ∧ b.toNat ≤ 0xBF ∨ 0xF1 ≤ a.toNat ∧ a.toNat ≤ 0xF3 ∧ isCont b
      ∨ a.toNat = 0xF4 ∧ 0x80 ≤ b.toNat ∧ b.toNat ≤ 0x8F)
    (hc : isCont c = true) (hd : isCont d = true) : utf8Valid (a :: b :: c :: d :: rest) = utf8Valid rest := by
  rw [utf8Valid.eq_def]
  simp only
  rw [if_neg (by omega), if_neg (by omega), if_neg (by omega), if_pos h, hc, hd, Bool.true_and, Bool.true_and]

theorem utf8Valid_append (c : Char) (rest : List Byte) :
    utf8Valid (String.utf8EncodeChar c ++ rest) = utf8Valid rest := by
  have hv := char_range c
  unfold String.utf8EncodeChar
  simp only
  generalize c.val.toNat = v at hv
  by_cases h1 : v ≤ 0x7f
  · rw [if_pos h1]
    exact utf8Valid1 _ _ (by rw [ofNat_toNat_lt (by omega)]; omega)
  · rw [if_neg h1]
    have e6 : (UInt8.ofNat (v % 64 + 128)).toNat = v % 64 + 128 := ofNat_toNat_lt (by omega)
    have e12 : (UInt8.ofNat (v / 64 % 64 + 128)).toNat = v / 64 % 64 + 128 := ofNat_toNat_lt (by omega)
    have e18 : (UInt8.ofNat (v / 4096 % 64 + 128)).toNat = v / 4096 % 64 + 128 := ofNat_toNat_lt (by omega)
    by_cases h2 : v ≤ 0x7ff
    · rw [if_pos h2]
      refine utf8Valid2 _ _ _ ?_ (by rw [isCont_iff]; omega)
      rw [ofNat_toNat_lt (by omega)]
      omega
    · rw [if_neg h2]
      by_cases h3 : v ≤ 0xffff
      · rw [if_pos h3]
        refine utf8Valid3 _ _ _ _ ?_ (by rw [isCont_iff]; omega)
        rw [isCont_iff, e12, ofNat_toNat_lt (by omega)]
        omega
      · rw [if_neg h3]
        refine utf8Valid4 _ _ _ _ _ ?_ (by rw [isCont_iff]; omega) (by rw [isCont_iff]; omega)
        rw [isCont_iff, e18, ofNat_toNat_lt (by omega)]
        omega

/-- A scalar value as a character. -/
def mkChar (n : Nat) (h : n < 0xD800 ∨ 0xDFFF < n ∧ n < 0x110000) : Char :=
  ⟨UInt32.ofNatLT n (by show n < 4294967296; omega), h⟩

theorem mkChar_val (n : Nat) (h) : (mkChar n h).val.toNat = n := by
  unfold mkChar
  simp

theorem byte_eq (a : Byte) (n : Nat) (h : a.toNat = n) : UInt8.ofNat n = a := by
  rw [← h]
  simp

theorem utf8Valid_decode (n : Nat) : ∀ l : List Byte, l.length ≤ n → utf8Valid l = true → ∃ cs, l = utf8Of cs := by
  induction n with
  | zero =>
    intro l hl _
    have : l = [] := List.eq_nil_of_length_eq_zero (by omega)
    exact ⟨[], by simp [this, utf8Of]⟩
  | succ n ih =>
    intro l hl hv
    have step : ∀ (c : Char) (rest : List Byte), l = String.utf8EncodeChar c ++ rest → utf8Valid rest = true →
        ∃ cs, l = utf8Of cs := by
      intro c rest e hr
      have hlen : 1 ≤ (String.utf8EncodeChar c).length := by
        simp [Char.utf8Size]
        split <;> (try split) <;> (try split) <;> omega
      obtain ⟨cs, hcs⟩ := ih rest (by
        have := congrArg List.length e
        simp only [List.length_append] at this
        omega) hr
      exact ⟨c :: cs, by rw [e, hcs]; simp [utf8Of]⟩
    cases l with
    | nil => exact ⟨[], rfl⟩
    | cons a rest =>
      rw [utf8Valid.eq_def] at hv
      simp only at hv
      by_cases h1 : a.toNat < 0x80
      · rw [if_pos h1] at hv
        refine step (mkChar a.toNat (by omega)) rest ?_ hv
        unfold String.utf8EncodeChar
        simp only [mkChar_val]
        rw [if_pos (by omega)]
        simp
      · simp only [if_neg h1] at hv
        cases rest with
        | nil => simp at hv
        | cons b rest =>
          simp only at hv
          by_cases h2 : 0xC2 ≤ a.toNat ∧ a.toNat ≤ 0xDF
          · rw [if_pos h2] at hv
            simp only [isCont, Bool.and_eq_true, decide_eq_true_eq] at hv
            obtain ⟨hb, hr⟩ := hv
            refine step (mkChar ((a.toNat - 0xC0) * 64 + (b.toNat - 0x80)) (by omega)) rest ?_ hr
            unfold String.utf8EncodeChar
            simp only [mkChar_val]
            rw [if_neg (by omega), if_pos (by omega), byte_eq a _ (by omega), byte_eq b _ (by omega)]
            rfl
          · simp only [if_neg h2] at hv
            cases rest with
            | nil => simp at hv
            | cons c rest =>
              simp only at hv
              split at hv
              · rename_i h3
                simp only [isCont, Bool.and_eq_true, decide_eq_true_eq] at hv h3
                obtain ⟨hc, hr⟩ := hv
                refine step (mkChar ((a.toNat - 0xE0) * 4096 + (b.toNat - 0x80) * 64 + (c.toNat - 0x80))
                  (by omega)) rest ?_ hr
                unfold String.utf8EncodeChar
                simp only [mkChar_val]
                rw [if_neg (by omega), if_neg (by omega), if_pos (by omega), byte_eq a _ (by omega),
                  byte_eq b _ (by omega), byte_eq c _ (by omega)]
                rfl
              · cases rest with
                | nil => simp at hv
                | cons d rest =>
                  simp only at hv
                  split at hv
                  · rename_i h4
                    simp only [isCont, Bool.and_eq_true, decide_eq_true_eq] at hv h4
                    obtain ⟨⟨hc, hd⟩, hr⟩ := hv
                    refine step (mkChar ((a.toNat - 0xF0) * 262144 + (b.toNat - 0x80) * 4096
                      + (c.toNat - 0x80) * 64 + (d.toNat - 0x80)) (by omega)) rest ?_ hr
                    unfold String.utf8EncodeChar
                    simp only [mkChar_val]
                    rw [if_neg (by omega), if_neg (by omega), if_neg (by omega), byte_eq a _ (by omega),
                      byte_eq b _ (by omega), byte_eq c _ (by omega), byte_eq d _ (by omega)]
                    rfl
                  · simp at hv

/-- The acceptor accepts exactly the encodings of texts. -/
theorem utf8Valid_iff (l : List Byte) : utf8Valid l = true ↔ ∃ cs : List Char, l = utf8Of cs := by
  constructor
  · exact utf8Valid_decode l.length l (Nat.le_refl _)
  · rintro ⟨cs, rfl⟩
    induction cs with
    | nil => rfl
    | cons c cs ih =>
      show utf8Valid (String.utf8EncodeChar c ++ utf8Of cs) = true
      rw [utf8Valid_append]
      exact ih

end JBytes
