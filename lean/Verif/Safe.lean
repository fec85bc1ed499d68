import Verif.SeqLemmas
import Verif.CodecBytes
import Verif.CodecAddr
/-!
# Where a decoder can go: staying inside the data, not panicking, terminating

Vocabulary and closure lemmas used by C33 - C35 and C48 - C50.
-/

namespace JBytes
open M

variable {α β : Type}

/-- From a normal state the data stays as it is and the position only moves forward, not past the end,
whatever the outcome. -/
def Inside (m : M α) : Prop := ∀ b, b.Ok →
  (m b).2.data = b.data ∧ b.pos ≤ (m b).2.pos ∧ (m b).2.pos ≤ b.data.length

/-- Does not panic in a normal state. -/
def NoPanic (m : M α) : Prop := ∀ b, b.Ok → (m b).1 ≠ .panic

/-- Terminates in a normal state with at most `n` bytes after the position. -/
def Halts (n : Nat) (m : M α) : Prop := ∀ b, b.Ok → b.data.length - b.pos ≤ n → (m b).1 ≠ .timeout

theorem Inside.ok {m : M α} (h : Inside m) {b : Buf} (hb : b.Ok) : (m b).2.Ok := by
  obtain ⟨h1, h2, h3⟩ := h b hb
  exact ⟨by rw [h1]; exact h3, by rw [h1]; exact hb.2⟩

theorem Inside.bind {m : M α} {f : α → M β} (hm : Inside m) (hf : ∀ a, Inside (f a)) : Inside (m >>= f) := by
  intro b hb
  have h1 := hm b hb
  have h2 := hm.ok hb
  rw [bind_apply]
  rcases hmb : m b with ⟨o, b'⟩
  rw [hmb] at h1 h2
  cases o with
  | ok a =>
    have h3 := hf a b' h2
    simp only at h1 h3 ⊢
    refine ⟨by rw [h3.1, h1.1], by omega, ?_⟩
    have := h3.2.2
    rw [h1.1] at this
    exact this
  | _ => exact h1

theorem NoPanic.bind {m : M α} {f : α → M β} (hi : Inside m) (hm : NoPanic m) (hf : ∀ a, NoPanic (f a)) :
    NoPanic (m >>= f) := by
  intro b hb
  have h1 := hm b hb
  have h2 := hi.ok hb
  rw [bind_apply]
  rcases hmb : m b with ⟨o, b'⟩
  rw [hmb] at h1 h2
  cases o with
  | ok a => exact hf a b' h2
  | panic => exact absurd rfl h1
  | _ => intro h; cases h

theorem Halts.bind {n : Nat} {m : M α} {f : α → M β} (hi : Inside m) (hm : Halts n m) (hf : ∀ a, Halts n (f a)) :
    Halts n (m >>= f) := by
  intro b hb hn
  have h1 := hm b hb hn
  have h2 := hi.ok hb
  have h3 := hi b hb
  rw [bind_apply]
  rcases hmb : m b with ⟨o, b'⟩
  rw [hmb] at h1 h2 h3
  cases o with
  | ok a => exact hf a b' h2 (by simp only at h3; rw [h3.1]; omega)
  | timeout => exact absurd rfl h1
  | _ => intro h; cases h

theorem Inside.pure (a : α) : Inside (Pure.pure a : M α) := fun _ hb => ⟨rfl, Nat.le_refl _, hb.1⟩
theorem NoPanic.pure (a : α) : NoPanic (Pure.pure a : M α) := fun _ _ h => nomatch h
theorem Halts.pure (n : Nat) (a : α) : Halts n (Pure.pure a : M α) := fun _ _ _ h => nomatch h
theorem Inside.fail (c : ErrCode) : Inside (fail c : M α) := fun _ hb => ⟨rfl, Nat.le_refl _, hb.1⟩
theorem NoPanic.fail (c : ErrCode) : NoPanic (M.fail c : M α) := fun _ _ h => nomatch h
theorem Halts.fail (n : Nat) (c : ErrCode) : Halts n (M.fail c : M α) := fun _ _ _ h => nomatch h
theorem Inside.panic : Inside (M.panic : M α) := fun _ hb => ⟨rfl, Nat.le_refl _, hb.1⟩
theorem Halts.panic (n : Nat) : Halts n (M.panic : M α) := fun _ _ _ h => nomatch h
theorem Inside.timeout : Inside (M.timeout : M α) := fun _ hb => ⟨rfl, Nat.le_refl _, hb.1⟩
theorem NoPanic.timeout : NoPanic (M.timeout : M α) := fun _ _ h => nomatch h

theorem Inside.attempt {m : M α} (h : Inside m) : Inside (M.attempt m) := by
  intro b hb
  have := h b hb
  rw [attempt_apply]
  rcases hmb : m b with ⟨o, b'⟩
  rw [hmb] at this
  cases o <;> exact this

theorem NoPanic.attempt {m : M α} (h : NoPanic m) : NoPanic (M.attempt m) := by
  intro b hb
  have := h b hb
  rw [attempt_apply]
  rcases hmb : m b with ⟨o, b'⟩
  rw [hmb] at this
  cases o with
  | panic => exact absurd rfl this
  | _ => intro h; cases h

theorem Halts.attempt {n : Nat} {m : M α} (h : Halts n m) : Halts n (M.attempt m) := by
  intro b hb hn
  have := h b hb hn
  rw [attempt_apply]
  rcases hmb : m b with ⟨o, b'⟩
  rw [hmb] at this
  cases o with
  | timeout => exact absurd rfl this
  | _ => intro h; cases h

theorem Tame.inside {m : M α} (h : Tame m) : Inside m := by
  intro b hb
  rcases h b hb with ⟨v, k, e, hk⟩ | ⟨c, e⟩
  · rw [e]
    exact ⟨rfl, by simp, hk⟩
  · rw [e]
    exact ⟨rfl, Nat.le_refl _, hb.1⟩

theorem Tame.noPanic {m : M α} (h : Tame m) : NoPanic m := by
  intro b hb
  rcases h b hb with ⟨v, k, e, hk⟩ | ⟨c, e⟩ <;> rw [e] <;> intro h <;> cases h

theorem Tame.halts {m : M α} (h : Tame m) (n : Nat) : Halts n m := by
  intro b hb _
  rcases h b hb with ⟨v, k, e, hk⟩ | ⟨c, e⟩ <;> rw [e] <;> intro h <;> cases h

theorem Inside.takeUint (n : Nat) (o : ByteOrder) : Inside (takeUint n o) := by
  by_cases h : o = .le → n ≤ 8
  · exact (tame_takeN o 8 n h).inside
  · cases o with
    | be => simp at h
    | le =>
      have hn : ¬ n ≤ 8 := by simpa using h
      show Inside (takeLeN 8 n)
      unfold takeLeN
      rw [if_neg hn]
      exact Inside.panic

theorem Halts.takeUint (m n : Nat) (o : ByteOrder) : Halts m (takeUint n o) := by
  by_cases h : o = .le → n ≤ 8
  · exact (tame_takeN o 8 n h).halts m
  · cases o with
    | be => simp at h
    | le =>
      have hn : ¬ n ≤ 8 := by simpa using h
      show Halts m (takeLeN 8 n)
      unfold takeLeN
      rw [if_neg hn]
      exact Halts.panic m

theorem NoPanic.takeUint (n : Nat) (o : ByteOrder) (h : o = .le → n ≤ 8) : NoPanic (takeUint n o) :=
  (tame_takeN o 8 n h).noPanic

theorem tame_remainingLen : Tame remainingLen := by
  intro b hb
  refine .inl ⟨(b.data.drop b.pos).length, 0, ?_, by simpa using hb.1⟩
  unfold remainingLen
  rw [bind_apply, remaining_apply']
  rfl

/-! ## Loops -/

theorem Inside.repeatM {m : M α} (h : Inside m) (n : Nat) : Inside (repeatM m n) := by
  induction n with
  | zero => exact Inside.pure _
  | succ n ih => exact Inside.bind h fun _ => Inside.bind ih fun _ => Inside.pure _

theorem NoPanic.repeatM {m : M α} (hi : Inside m) (h : NoPanic m) (n : Nat) : NoPanic (JBytes.repeatM m n) := by
  induction n with
  | zero => exact NoPanic.pure _
  | succ n ih => exact NoPanic.bind hi h fun _ => NoPanic.bind (hi.repeatM n) ih fun _ => NoPanic.pure _

theorem Halts.repeatM {k : Nat} {m : M α} (hi : Inside m) (h : Halts k m) (n : Nat) :
    Halts k (JBytes.repeatM m n) := by
  induction n with
  | zero => exact Halts.pure _ _
  | succ n ih => exact Halts.bind hi h fun _ => Halts.bind (hi.repeatM n) ih fun _ => Halts.pure _ _

theorem Inside.tryRepeatM {m : M α} (h : Inside m) (n : Nat) : Inside (tryRepeatM m n) := by
  induction n with
  | zero => exact Inside.pure _
  | succ n ih =>
    refine Inside.bind h.attempt fun x => ?_
    cases x with
    | none => exact Inside.pure _
    | some a => exact Inside.bind ih fun _ => Inside.pure _

theorem NoPanic.tryRepeatM {m : M α} (hi : Inside m) (h : NoPanic m) (n : Nat) :
    NoPanic (JBytes.tryRepeatM m n) := by
  induction n with
  | zero => exact NoPanic.pure _
  | succ n ih =>
    refine NoPanic.bind hi.attempt h.attempt fun x => ?_
    cases x with
    | none => exact NoPanic.pure _
    | some a => exact NoPanic.bind (hi.tryRepeatM n) ih fun _ => NoPanic.pure _

theorem Halts.tryRepeatM {k : Nat} {m : M α} (hi : Inside m) (h : Halts k m) (n : Nat) :
    Halts k (JBytes.tryRepeatM m n) := by
  induction n with
  | zero => exact Halts.pure _ _
  | succ n ih =>
    refine Halts.bind hi.attempt h.attempt fun x => ?_
    cases x with
    | none => exact Halts.pure _ _
    | some a => exact Halts.bind (hi.tryRepeatM n) ih fun _ => Halts.pure _ _

theorem Inside.whileStarts {m : M α} (h : Inside m) (p : List Byte) (fuel : Nat) :
    Inside (whileStarts p m fuel) := by
  induction fuel with
  | zero => exact Inside.timeout
  | succ n ih =>
    refine Inside.bind (tame_takeBytesStarts p).inside.attempt fun x => ?_
    cases x with
    | none => exact Inside.pure _
    | some a => exact Inside.bind h fun _ => Inside.bind ih fun _ => Inside.pure _

theorem NoPanic.whileStarts {m : M α} (hi : Inside m) (h : NoPanic m) (p : List Byte) (fuel : Nat) :
    NoPanic (JBytes.whileStarts p m fuel) := by
  induction fuel with
  | zero => exact NoPanic.timeout
  | succ n ih =>
    refine NoPanic.bind (tame_takeBytesStarts p).inside.attempt (tame_takeBytesStarts p).noPanic.attempt fun x => ?_
    cases x with
    | none => exact NoPanic.pure _
    | some a => exact NoPanic.bind hi h fun _ => NoPanic.bind (hi.whileStarts p n) ih fun _ => NoPanic.pure _

/-- The loop ends as soon as the allowed number of iterations exceeds the number of remaining bytes. -/
theorem whileStarts_halts {m : M α} (hi : Inside m) (p : List Byte) (hp : p ≠ []) : ∀ (fuel : Nat) (b : Buf),
    b.Ok → (∀ b', b'.Ok → b'.data = b.data → b.pos < b'.pos → (m b').1 ≠ .timeout) → b.data.length - b.pos < fuel →
    (whileStarts p m fuel b).1 ≠ .timeout := by
  intro fuel
  induction fuel with
  | zero => intro b _ _ h; omega
  | succ fuel ih =>
    intro b hb hm hf
    rw [whileStarts_succ]
    have ht := takeBytesStarts_apply p b hb
    have hpl : 0 < p.length := List.length_pos_iff.mpr hp
    have h1 := hb.1
    by_cases hs : b.data.length - b.pos < p.length
    · rw [if_pos hs] at ht
      rw [ht]
      intro h; cases h
    · rw [if_neg hs] at ht
      by_cases hpre : p.isPrefixOf (b.data.drop b.pos) = true
      · rw [if_pos hpre] at ht
        rw [ht]
        have hok : (⟨b.data, b.pos + p.length⟩ : Buf).Ok :=
          ⟨by show b.pos + p.length ≤ b.data.length; omega, hb.2⟩
        have hmi := hi _ hok
        have hmok := hi.ok hok
        have hmt := hm _ hok rfl (by show b.pos < b.pos + p.length; omega)
        simp only
        rcases hmb : m ⟨b.data, b.pos + p.length⟩ with ⟨o, b2⟩
        rw [hmb] at hmi hmok hmt
        simp only at hmi
        cases o with
        | ok a =>
          have := ih b2 hmok (fun b' h1 h2 h3 => hm b' h1 (by rw [h2, hmi.1])
            (by have := hmi.2.1; omega)) (by rw [hmi.1]; have := hmi.2.1; omega)
          simp only
          rcases hw : JBytes.whileStarts p m fuel b2 with ⟨o3, b3⟩
          rw [hw] at this
          cases o3 with
          | timeout => exact absurd rfl this
          | _ => intro h; cases h
        | timeout => exact absurd rfl hmt
        | _ => intro h; cases h
      · rw [if_neg hpre] at ht
        rw [ht]
        intro h; cases h

theorem Halts.whileStarts {n fuel : Nat} {m : M α} (hi : Inside m) (h : Halts n m) (p : List Byte) (hp : p ≠ [])
    (hf : n < fuel) : Halts n (JBytes.whileStarts p m fuel) := by
  intro b hb hn
  exact whileStarts_halts hi p hp fuel b hb (fun b' h1 h2 h3 => h b' h1 (by rw [h2]; omega)) (by omega)

end JBytes
