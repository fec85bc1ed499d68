import Verif.RoundTrip
/-! # Helper lemmas about the loops of the sequence codecs -/

namespace JBytes
open M

variable {α β : Type}

theorem attempt_apply (m : M α) (b : Buf) : attempt m b = (match m b with
    | (.ok a, b') => (.ok (some a), b')
    | (.err _, b') => (.ok none, b')
    | (.panic, b') => (.panic, b')
    | (.timeout, b') => (.timeout, b')) := rfl

/-- `m` succeeds `as.length` times in a row from `b`, returning `as` and ending in `b'`. -/
inductive Runs (m : M α) : Buf → List α → Buf → Prop
  | nil (b : Buf) : Runs m b [] b
  | cons {b b1 b2 : Buf} {a : α} {as : List α} : m b = (.ok a, b1) → Runs m b1 as b2 → Runs m b (a :: as) b2

theorem repeatM_iff (m : M α) (n : Nat) : ∀ (b : Buf) (as : List α) (b' : Buf),
    repeatM m n b = (.ok as, b') ↔ Runs m b as b' ∧ as.length = n := by
  induction n with
  | zero =>
    intro b as b'
    simp only [repeatM, pure_apply, Prod.mk.injEq, Out.ok.injEq]
    constructor
    · rintro ⟨rfl, rfl⟩
      exact ⟨.nil b, rfl⟩
    · rintro ⟨h, hl⟩
      cases h with
      | nil => exact ⟨rfl, rfl⟩
      | cons => simp at hl
  | succ n ih =>
    intro b as b'
    simp only [repeatM, bind_apply, pure_apply]
    rcases hm : m b with ⟨o, b1⟩
    cases o with
    | ok a =>
      simp only
      rcases hr : repeatM m n b1 with ⟨o2, b2⟩
      cases o2 with
      | ok as2 =>
        simp only [Prod.mk.injEq, Out.ok.injEq]
        constructor
        · rintro ⟨rfl, rfl⟩
          obtain ⟨h1, h2⟩ := (ih b1 as2 b2).mp hr
          exact ⟨.cons hm h1, by simp [h2]⟩
        · rintro ⟨h, hl⟩
          cases h with
          | nil => simp at hl
          | cons hm' hrun =>
            rw [hm] at hm'
            simp only [Prod.mk.injEq, Out.ok.injEq] at hm'
            obtain ⟨rfl, rfl⟩ := hm'
            have := (ih b1 _ b').mpr ⟨hrun, by simpa using hl⟩
            rw [hr] at this
            simp only [Prod.mk.injEq, Out.ok.injEq] at this
            obtain ⟨rfl, rfl⟩ := this
            exact ⟨rfl, rfl⟩
      | _ =>
        simp only [Prod.mk.injEq, reduceCtorEq, false_and, false_iff, not_and]
        intro h hl
        cases h with
        | nil => simp at hl
        | cons hm' hrun =>
          rw [hm] at hm'
          simp only [Prod.mk.injEq, Out.ok.injEq] at hm'
          obtain ⟨rfl, rfl⟩ := hm'
          have := (ih b1 _ b').mpr ⟨hrun, by simpa using hl⟩
          rw [hr] at this
          simp at this
    | _ =>
      simp only [Prod.mk.injEq, reduceCtorEq, false_and, false_iff, not_and]
      intro h hl
      cases h with
      | nil => simp at hl
      | cons hm' hrun =>
        rw [hm] at hm'
        simp at hm'

theorem tryRepeatM_runs (m : M α) (n : Nat) : ∀ (b : Buf) (as : List α) (b' : Buf),
    Runs m b as b' → as.length = n → tryRepeatM m n b = (.ok as, b') := by
  induction n with
  | zero =>
    intro b as b' h hl
    cases h with
    | nil => rfl
    | cons => simp at hl
  | succ n ih =>
    intro b as b' h hl
    cases h with
    | nil => simp at hl
    | cons hm hrun =>
      simp only [tryRepeatM, bind_apply, attempt_apply, hm, ih _ _ _ hrun (by simpa using hl), pure_apply]

theorem Reads.runs {m : M α} {img : α → List Byte} {l : List α}
    (h : ∀ a ∈ l, ∀ suf, Reads m a (img a) suf) (suf : List Byte) : ∀ pre : List Byte,
    pre.length + (l.flatMap img).length + suf.length ≤ isizeMax →
    Runs m ⟨pre ++ (l.flatMap img ++ suf), pre.length⟩ l
      ⟨pre ++ (l.flatMap img ++ suf), pre.length + (l.flatMap img).length⟩ := by
  induction l with
  | nil =>
    intro pre _
    simpa using Runs.nil _
  | cons a l ih =>
    intro pre hp
    simp only [List.flatMap_cons, List.length_append] at hp
    have e := h a (by simp) (l.flatMap img ++ suf) pre (by simp only [List.length_append]; omega)
    have r := ih (fun x hx => h x (by simp [hx])) (pre ++ img a) (by simp only [List.length_append]; omega)
    simp only [List.flatMap_cons, List.length_append, List.append_assoc] at r ⊢
    rw [← Nat.add_assoc]
    exact .cons e r

theorem Reads.repeatM {m : M α} {img : α → List Byte} {l : List α}
    (h : ∀ a ∈ l, ∀ suf, Reads m a (img a) suf) (suf : List Byte) :
    Reads (JBytes.repeatM m l.length) l (l.flatMap img) suf := by
  intro pre hp
  exact (repeatM_iff m _ _ _ _).mpr ⟨Reads.runs h suf pre hp, rfl⟩

theorem Reads.tryRepeatM {m : M α} {img : α → List Byte} {l : List α}
    (h : ∀ a ∈ l, ∀ suf, Reads m a (img a) suf) (suf : List Byte) :
    Reads (JBytes.tryRepeatM m l.length) l (l.flatMap img) suf := by
  intro pre hp
  exact tryRepeatM_runs m _ _ _ _ (Reads.runs h suf pre hp) rfl

theorem Appends.encAll {e : α → M Nat} {img : α → List Byte} {l : List α}
    (h : ∀ a ∈ l, Appends (e a) (img a)) : Appends (JBytes.encAll e l) (l.flatMap img) := by
  induction l with
  | nil => exact Appends.pure0
  | cons a l ih =>
    exact Appends.seq (h a (by simp)) (ih (fun x hx => h x (by simp [hx])))

theorem takeBytesStarts_prefix (p suf : List Byte) : Reads (takeBytesStarts p) () p suf := by
  intro pre hp
  rw [takeBytesStarts_apply _ _ (ok_of_size hp), if_neg (by simp), if_pos (by simp)]

theorem takeBytesStarts_not (p : List Byte) (b : Buf) (hb : b.Ok) (h : ¬ p <+: b.data.drop b.pos) :
    ∃ e, takeBytesStarts p b = (.err e, b) := by
  rw [takeBytesStarts_apply p b hb]
  split
  · exact ⟨_, rfl⟩
  · rw [if_neg (by simpa using h)]
    exact ⟨_, rfl⟩

theorem Reads.whileStarts {m : M α} {img : α → List Byte} {p : List Byte} {l : List α}
    (h : ∀ a ∈ l, ∀ suf, Reads m a (img a) suf) (suf : List Byte) (hs : ¬ p <+: suf) : ∀ fuel, l.length < fuel →
    Reads (JBytes.whileStarts p m fuel) l (l.flatMap fun a => p ++ img a) suf := by
  induction l with
  | nil =>
    intro fuel hf
    cases fuel with
    | zero => omega
    | succ fuel =>
      intro pre hp
      have hok := ok_of_size hp
      obtain ⟨e, he⟩ := takeBytesStarts_not p _ hok (by simpa using hs)
      simp only [JBytes.whileStarts, bind_apply, attempt_apply, he, pure_apply]
      simp
  | cons a l ih =>
    intro fuel hf
    cases fuel with
    | zero => simp at hf
    | succ fuel =>
      have r := ih (fun x hx => h x (by simp [hx])) fuel (by simpa using hf)
      intro pre hp
      have e1 := takeBytesStarts_prefix p (img a ++ (l.flatMap fun a => p ++ img a) ++ suf) pre
        (by simp only [List.flatMap_cons, List.length_append] at hp ⊢; omega)
      have e2 := h a (by simp) ((l.flatMap fun a => p ++ img a) ++ suf) (pre ++ p)
        (by simp only [List.flatMap_cons, List.length_append] at hp ⊢; omega)
      have e3 := r (pre ++ p ++ img a)
        (by simp only [List.flatMap_cons, List.length_append] at hp ⊢; omega)
      simp only [List.append_assoc, List.length_append] at e1 e2 e3
      simp only [JBytes.whileStarts, List.flatMap_cons, List.append_assoc, bind_apply, attempt_apply, e1, e2]
      simp only [Nat.add_assoc] at e3 ⊢
      simp only [e3, pure_apply, List.length_append]

theorem whileStarts_succ (p : List Byte) (m : M α) (fuel : Nat) (b : Buf) :
    whileStarts p m (fuel + 1) b = (match takeBytesStarts p b with
      | (.ok _, b1) => (match m b1 with
        | (.ok a, b2) => (match whileStarts p m fuel b2 with
          | (.ok as, b3) => (.ok (a :: as), b3)
          | (.err e, b3) => (.err e, b3)
          | (.panic, b3) => (.panic, b3)
          | (.timeout, b3) => (.timeout, b3))
        | (.err e, b2) => (.err e, b2)
        | (.panic, b2) => (.panic, b2)
        | (.timeout, b2) => (.timeout, b2))
      | (.err _, b1) => (.ok [], b1)
      | (.panic, b1) => (.panic, b1)
      | (.timeout, b1) => (.timeout, b1)) := by
  rw [whileStarts]
  simp only [bind_apply, attempt_apply]
  rcases takeBytesStarts p b with ⟨o, b1⟩
  cases o with
  | ok x =>
    simp only [bind_apply]
    rcases m b1 with ⟨o2, b2⟩
    cases o2 with
    | ok a =>
      simp only
      rcases whileStarts p m fuel b2 with ⟨o3, b3⟩
      cases o3 <;> rfl
    | _ => rfl
  | _ => rfl

/-- More fuel does not change the outcome of the loop once it ends. -/
theorem whileStarts_mono (p : List Byte) (m : M α) : ∀ (fuel : Nat) (b : Buf),
    (whileStarts p m fuel b).1 ≠ .timeout → whileStarts p m (fuel + 1) b = whileStarts p m fuel b := by
  intro fuel
  induction fuel with
  | zero =>
    intro b h
    exact absurd rfl h
  | succ fuel ih =>
    intro b h
    rw [whileStarts_succ] at h
    rw [whileStarts_succ p m (fuel + 1) b, whileStarts_succ p m fuel b]
    rcases ht : takeBytesStarts p b with ⟨o, b1⟩
    rw [ht] at h
    cases o with
    | ok x =>
      simp only at h ⊢
      rcases hm : m b1 with ⟨o2, b2⟩
      rw [hm] at h
      cases o2 with
      | ok a =>
        simp only at h ⊢
        rw [ih b2 ?_]
        intro ht
        rcases hw : whileStarts p m fuel b2 with ⟨o3, b3⟩
        rw [hw] at ht h
        simp only at ht
        subst ht
        exact h rfl
      | _ => rfl
    | _ => rfl

end JBytes
