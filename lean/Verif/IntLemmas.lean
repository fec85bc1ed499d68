import Verif.RoundTrip
import Verif.CodecInt
/-! # Helper lemmas about the integer codec -/

namespace JBytes
open M

/-- The bit pattern is not that of a negative number. -/
def IntKind.NonNeg (k : IntKind) (v : Nat) : Prop := k.signed = false ∨ 2 * v < modulus k.size

theorem IntKind.NonNeg.toInt {k : IntKind} {v : Nat} (h : k.NonNeg v) : k.toInt v = v := by
  rcases h with h | h
  · exact k.toInt_unsigned v h
  · exact k.toInt_small v h

theorem IntKind.NonNeg.mono {k : IntKind} {v w : Nat} (h : k.NonNeg v) (hw : w ≤ v) : k.NonNeg w := by
  rcases h with h | h
  · exact .inl h
  · exact .inr (by omega)

theorem IntKind.shr1_eq {k : IntKind} {v : Nat} (h : k.NonNeg v) (hv : v < modulus k.size) :
    k.shr1 v = v / 2 := by
  unfold IntKind.shr1
  rw [h.toInt]
  have : ((v : Int) / 2) = ((v / 2 : Nat) : Int) := by omega
  rw [this, IntKind.ofInt_natCast, Nat.mod_eq_of_lt (by omega)]

theorem bitsShr_odd (k : IntKind) (n v m : Nat) (h : m % 2 = 1) : bitsShr k n v m = v := by
  induction n with
  | zero => rfl
  | succ n ih =>
    rw [bitsShr, if_neg (by omega)]
    exact ih

theorem bitsShl_odd (k : IntKind) (n v m : Nat) (h : m % 2 = 1) : bitsShl k n v m = v := by
  induction n with
  | zero => rfl
  | succ n ih =>
    rw [bitsShl, if_neg (by omega)]
    exact ih

theorem two_pow_odd_half (t q : Nat) : 2 ^ (t + 1) * (2 * q + 1) / 2 = 2 ^ t * (2 * q + 1) := by
  rw [Nat.pow_succ, Nat.mul_comm (2 ^ t) 2, Nat.mul_assoc, Nat.mul_div_cancel_left _ (by omega)]

theorem two_pow_odd_even (t q : Nat) : 2 ^ (t + 1) * (2 * q + 1) % 2 = 0 := by
  rw [Nat.pow_succ, Nat.mul_comm (2 ^ t) 2, Nat.mul_assoc]
  omega

theorem bitsShr_eq (k : IntKind) (t q : Nat) : ∀ (n v : Nat), t ≤ n →
    2 ^ t * (2 * q + 1) < modulus k.size → k.NonNeg (2 ^ t * (2 * q + 1)) →
    v < modulus k.size → k.NonNeg v →
    bitsShr k n v (2 ^ t * (2 * q + 1)) = v / 2 ^ t := by
  induction t with
  | zero =>
    intro n v _ _ _ _ _
    rw [bitsShr_odd k n v _ (by simp)]
    simp
  | succ t ih =>
    intro n v hn hm hmn hv hvn
    cases n with
    | zero => omega
    | succ n =>
      rw [bitsShr, if_pos (two_pow_odd_even t q), IntKind.shr1_eq hmn hm, IntKind.shr1_eq hvn hv,
        two_pow_odd_half]
      have hle : 2 ^ t * (2 * q + 1) ≤ 2 ^ (t + 1) * (2 * q + 1) :=
        Nat.mul_le_mul_right _ (Nat.pow_le_pow_right (by omega) (by omega))
      rw [ih n (v / 2) (by omega) (by omega) (hmn.mono hle) (by omega) (hvn.mono (by omega)),
        Nat.div_div_eq_div_mul, Nat.pow_succ, Nat.mul_comm 2]

theorem bitsShl_eq (k : IntKind) (t q : Nat) : ∀ (n v : Nat), t ≤ n →
    2 ^ t * (2 * q + 1) < modulus k.size → k.NonNeg (2 ^ t * (2 * q + 1)) → v < modulus k.size →
    bitsShl k n v (2 ^ t * (2 * q + 1)) = v * 2 ^ t % modulus k.size := by
  induction t with
  | zero =>
    intro n v _ _ _ hv
    rw [bitsShl_odd k n v _ (by simp)]
    simp [Nat.mod_eq_of_lt hv]
  | succ t ih =>
    intro n v hn hm hmn hv
    cases n with
    | zero => omega
    | succ n =>
      rw [bitsShl, if_pos (two_pow_odd_even t q), IntKind.shr1_eq hmn hm, two_pow_odd_half]
      have hle : 2 ^ t * (2 * q + 1) ≤ 2 ^ (t + 1) * (2 * q + 1) :=
        Nat.mul_le_mul_right _ (Nat.pow_le_pow_right (by omega) (by omega))
      rw [ih n (k.shl1 v) (by omega) (by omega) (hmn.mono hle) (Nat.mod_lt _ (modulus_pos _))]
      unfold IntKind.shl1
      rw [Nat.mod_mul_mod, Nat.pow_succ, Nat.mul_comm 2 v, Nat.mul_assoc, Nat.mul_comm 2]

theorem modulus_eq_two_pow (n : Nat) : modulus n = 2 ^ (8 * n) := by
  unfold modulus
  rw [Nat.pow_mul]

theorem shift_lt {n t q : Nat} (h : 2 ^ t * (2 * q + 1) < modulus n) : t ≤ 8 * n := by
  rw [modulus_eq_two_pow] at h
  have h1 : 2 ^ t ≤ 2 ^ t * (2 * q + 1) := Nat.le_mul_of_pos_right _ (by omega)
  have h2 : 2 ^ t < 2 ^ (8 * n) := by omega
  exact Nat.le_of_lt ((Nat.pow_lt_pow_iff_right (by omega)).mp h2)

theorem scalar_size {k : IntKind} (h : k.Valid) : k.scalar.size = k.size := by
  cases h with
  | mk size signed h =>
    rcases h with h | h | h | h | h <;> subst h <;> cases signed <;> rfl

theorem land_lt_right {a m n : Nat} (h : m < n) : a &&& m < n := Nat.lt_of_le_of_lt Nat.and_le_right h

theorem asU64_small (k : IntKind) (v : Nat) (hn : k.NonNeg v) : asU64 k v = v % modulus 8 := by
  unfold asU64 castInt
  rw [hn.toInt, IntKind.ofInt_natCast]

end JBytes
