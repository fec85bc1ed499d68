import Verif.Num
/-! # Helper lemmas about positional values -/

namespace JBytes

theorem byte_toNat_ofNat (n : Nat) : (UInt8.ofNat n).toNat = n % 256 := by simp [UInt8.toNat_ofNat']

theorem byte_lt (b : Byte) : b.toNat < 256 := UInt8.toNat_lt b

theorem beVal_foldl (l : List Byte) (a : Nat) :
    l.foldl (fun a b => a * 256 + b.toNat) a = a * 256 ^ l.length + beVal l := by
  unfold beVal
  induction l generalizing a with
  | nil => simp
  | cons x xs ih =>
    simp only [List.foldl_cons, List.length_cons]
    rw [ih, ih (0 * 256 + x.toNat), Nat.pow_succ]
    have : a * (256 ^ xs.length * 256) = a * 256 * 256 ^ xs.length := by
      rw [Nat.mul_assoc, Nat.mul_comm (256 ^ xs.length)]
    rw [this, Nat.add_mul, Nat.zero_mul, Nat.zero_add]
    omega

@[simp] theorem beVal_nil : beVal [] = 0 := rfl
@[simp] theorem leVal_nil : leVal [] = 0 := rfl

theorem beVal_cons (x : Byte) (l : List Byte) : beVal (x :: l) = x.toNat * 256 ^ l.length + beVal l := by
  have := beVal_foldl l (0 * 256 + x.toNat)
  simpa [beVal] using this

theorem leVal_cons (x : Byte) (l : List Byte) : leVal (x :: l) = x.toNat + 256 * leVal l := rfl

theorem beVal_append (l m : List Byte) : beVal (l ++ m) = beVal l * 256 ^ m.length + beVal m := by
  have := beVal_foldl m (beVal l)
  simpa [beVal, List.foldl_append] using this

theorem leVal_append (l m : List Byte) : leVal (l ++ m) = leVal l + 256 ^ l.length * leVal m := by
  induction l with
  | nil => simp
  | cons x xs ih =>
    simp only [List.cons_append, leVal_cons, ih, List.length_cons, Nat.pow_succ]
    rw [Nat.mul_add, ← Nat.mul_assoc, Nat.mul_comm 256 (256 ^ xs.length)]
    omega

theorem beVal_replicate_zero (n : Nat) : beVal (List.replicate n 0) = 0 := by
  induction n with
  | zero => rfl
  | succ n ih => rw [List.replicate_succ, beVal_cons, ih]; simp

theorem leVal_replicate_zero (n : Nat) : leVal (List.replicate n 0) = 0 := by
  induction n with
  | zero => rfl
  | succ n ih => rw [List.replicate_succ, leVal_cons, ih]; simp

theorem beVal_pad (n : Nat) (l : List Byte) : beVal (List.replicate n 0 ++ l) = beVal l := by
  rw [beVal_append, beVal_replicate_zero]; simp

theorem leVal_pad (n : Nat) (l : List Byte) : leVal (l ++ List.replicate n 0) = leVal l := by
  rw [leVal_append, leVal_replicate_zero]; simp

theorem leVal_reverse (l : List Byte) : leVal l.reverse = beVal l := by
  induction l with
  | nil => rfl
  | cons x xs ih =>
    rw [List.reverse_cons, leVal_append, ih, beVal_cons, List.length_reverse, leVal_cons, leVal_nil]
    rw [Nat.mul_zero, Nat.add_zero, Nat.mul_comm]
    omega

theorem beVal_reverse (l : List Byte) : beVal l.reverse = leVal l := by
  rw [← leVal_reverse, List.reverse_reverse]

theorem leVal_lt (l : List Byte) : leVal l < 256 ^ l.length := by
  induction l with
  | nil => simp
  | cons x xs ih =>
    have := byte_lt x
    rw [leVal_cons, List.length_cons, Nat.pow_succ]
    omega

theorem beVal_lt (l : List Byte) : beVal l < 256 ^ l.length := by
  have := leVal_lt l.reverse
  rwa [leVal_reverse, List.length_reverse] at this

@[simp] theorem toLE_length (n v : Nat) : (toLE n v).length = n := by
  induction n generalizing v with
  | zero => rfl
  | succ n ih => simp [toLE, ih]

@[simp] theorem toBE_length (n v : Nat) : (toBE n v).length = n := by
  induction n generalizing v with
  | zero => rfl
  | succ n ih => simp [toBE, ih]

theorem leVal_toLE (n v : Nat) : leVal (toLE n v) = v % 256 ^ n := by
  induction n generalizing v with
  | zero => simp [toLE, Nat.mod_one]
  | succ n ih =>
    rw [toLE, leVal_cons, ih, byte_toNat_ofNat, Nat.pow_succ, Nat.mul_comm (256 ^ n) 256, Nat.mod_mul]

theorem beVal_toBE (n v : Nat) : beVal (toBE n v) = v % 256 ^ n := by
  induction n with
  | zero => simp [toBE, Nat.mod_one]
  | succ n ih =>
    rw [toBE, beVal_cons, ih, byte_toNat_ofNat, toBE_length, Nat.pow_succ, Nat.mod_mul,
      Nat.mul_comm (256 ^ n)]
    omega

theorem leVal_inj : ∀ (l m : List Byte), l.length = m.length → leVal l = leVal m → l = m
  | [], [], _, _ => rfl
  | [], _ :: _, h, _ => by simp at h
  | _ :: _, [], h, _ => by simp at h
  | x :: xs, y :: ys, h, e => by
    have hx := byte_lt x
    have hy := byte_lt y
    rw [leVal_cons, leVal_cons] at e
    have e1 : x.toNat = y.toNat := by omega
    have e2 : leVal xs = leVal ys := by omega
    rw [leVal_inj xs ys (by simpa using h) e2, UInt8.toNat_inj.mp e1]

theorem beVal_inj (l m : List Byte) (h : l.length = m.length) (e : beVal l = beVal m) : l = m := by
  rw [← leVal_reverse, ← leVal_reverse] at e
  exact List.reverse_inj.mp (leVal_inj _ _ (by simpa using h) e)

theorem toLE_leVal (l : List Byte) : toLE l.length (leVal l) = l := by
  apply leVal_inj _ _ (by simp)
  rw [leVal_toLE, Nat.mod_eq_of_lt (leVal_lt l)]

theorem toBE_beVal (l : List Byte) : toBE l.length (beVal l) = l := by
  apply beVal_inj _ _ (by simp)
  rw [beVal_toBE, Nat.mod_eq_of_lt (beVal_lt l)]

theorem toLE_reverse (n v : Nat) : (toLE n v).reverse = toBE n v := by
  apply beVal_inj _ _ (by simp)
  rw [beVal_reverse, leVal_toLE, beVal_toBE]

theorem toBE_reverse (n v : Nat) : (toBE n v).reverse = toLE n v := by
  rw [← toLE_reverse, List.reverse_reverse]

theorem toLE_take (m n v : Nat) (h : n ≤ m) : (toLE m v).take n = toLE n v := by
  induction n generalizing m v with
  | zero => simp [toLE]
  | succ n ih =>
    cases m with
    | zero => omega
    | succ m => simp [toLE, ih m (v / 256) (by omega)]

theorem toBE_drop (m n v : Nat) (h : n ≤ m) : (toBE m v).drop (m - n) = toBE n v := by
  have := congrArg List.reverse (toLE_take m n v h)
  rw [toLE_reverse, List.reverse_take, toLE_reverse, toLE_length] at this
  exact this

theorem toLE_mod (n v : Nat) : toLE n (v % 256 ^ n) = toLE n v := by
  apply leVal_inj _ _ (by simp)
  rw [leVal_toLE, leVal_toLE, Nat.mod_mod]

theorem toBE_mod (n v : Nat) : toBE n (v % 256 ^ n) = toBE n v := by
  apply beVal_inj _ _ (by simp)
  rw [beVal_toBE, beVal_toBE, Nat.mod_mod]

@[simp] theorem toBytes_length (o : ByteOrder) (n v : Nat) : (toBytes o n v).length = n := by
  cases o <;> simp [toBytes]

theorem fromBytes_toBytes (o : ByteOrder) (n v : Nat) : fromBytes o (toBytes o n v) = v % 256 ^ n := by
  cases o
  · exact beVal_toBE n v
  · exact leVal_toLE n v

theorem toBytes_fromBytes (o : ByteOrder) (l : List Byte) : toBytes o l.length (fromBytes o l) = l := by
  cases o
  · exact toBE_beVal l
  · exact toLE_leVal l

theorem fromBytes_lt (o : ByteOrder) (l : List Byte) : fromBytes o l < 256 ^ l.length := by
  cases o
  · exact beVal_lt l
  · exact leVal_lt l

theorem toBytes_mod (o : ByteOrder) (n v : Nat) : toBytes o n (v % 256 ^ n) = toBytes o n v := by
  cases o
  · exact toBE_mod n v
  · exact toLE_mod n v

theorem leVal_digit : ∀ (l : List Byte) (i : Nat) (h : i < l.length),
    leVal l / 256 ^ i % 256 = (l[i]).toNat
  | [], i, h => by simp at h
  | x :: xs, 0, _ => by
    have := byte_lt x
    rw [leVal_cons]
    simp
  | x :: xs, i + 1, h => by
    have hx := byte_lt x
    have ih := leVal_digit xs i (by simpa using h)
    rw [leVal_cons, Nat.pow_succ, Nat.mul_comm (256 ^ i) 256, ← Nat.div_div_eq_div_mul]
    have : (x.toNat + 256 * leVal xs) / 256 = leVal xs := by omega
    rw [this, ih]
    simp

theorem beVal_digit (l : List Byte) (i : Nat) (h : i < l.length) :
    beVal l / 256 ^ (l.length - 1 - i) % 256 = (l[i]).toNat := by
  rw [← leVal_reverse, leVal_digit _ _ (by simp; omega)]
  simp only [List.getElem_reverse]
  congr 2
  omega

/-! ## Two's complement -/

theorem modulus_pos (n : Nat) : 0 < modulus n := Nat.pow_pos (by omega)

theorem IntKind.ofInt_natCast (k : IntKind) (n : Nat) : k.ofInt (n : Int) = n % modulus k.size := by
  unfold IntKind.ofInt
  rw [← Int.natCast_emod, Int.toNat_natCast]

theorem IntKind.ofInt_lt (k : IntKind) (i : Int) : k.ofInt i < modulus k.size := by
  unfold IntKind.ofInt
  have h := modulus_pos k.size
  have h1 := Int.emod_lt_of_pos i (b := (modulus k.size : Int)) (by omega)
  have h2 := Int.emod_nonneg i (b := (modulus k.size : Int)) (by omega)
  omega

theorem IntKind.ofInt_toInt (k : IntKind) (v : Nat) (h : v < modulus k.size) : k.ofInt (k.toInt v) = v := by
  unfold IntKind.toInt
  split
  · unfold IntKind.ofInt
    rw [Int.sub_emod_right, ← Int.natCast_emod, Int.toNat_natCast, Nat.mod_eq_of_lt h]
  · rw [IntKind.ofInt_natCast, Nat.mod_eq_of_lt h]

theorem IntKind.toInt_small (k : IntKind) (v : Nat) (h : 2 * v < modulus k.size) : k.toInt v = v := by
  unfold IntKind.toInt
  rw [if_neg (by omega)]

theorem IntKind.toInt_unsigned (k : IntKind) (v : Nat) (h : k.signed = false) : k.toInt v = v := by
  unfold IntKind.toInt
  rw [if_neg (by simp [h])]

theorem fromU64_eq (k : IntKind) (v : Nat) : fromU64 k v = v % modulus k.size := by
  unfold fromU64 castInt
  rw [IntKind.toInt_unsigned _ _ rfl, IntKind.ofInt_natCast]

end JBytes
