import Verif.Recursive
import Verif.Placed
/-!
# How large a decoded value can be

`Costs μ A C m`: when `m` succeeds, the value it gives has a size (measured by `μ`) of at most `A` for each byte it
consumed, and `C` besides.
-/

namespace JBytes
open M

variable {α β V : Type}

/-- The value is at most `A` per consumed byte, and `C` besides. -/
def Costs (μ : α → Nat) (A C : Nat) (m : M α) : Prop := ∀ b, b.Ok → ∀ v b', m b = (.ok v, b') →
  μ v ≤ A * (b'.pos - b.pos) + C

theorem Inside.after {m : M α} (h : Inside m) {b b' : Buf} (hb : b.Ok) {o : Out α} (e : m b = (o, b')) :
    b'.Ok ∧ b.pos ≤ b'.pos := by
  have h1 := h.ok hb
  have h2 := h b hb
  rw [e] at h1 h2
  exact ⟨h1, h2.2.1⟩

theorem Inside.toGood {m : M α} (h : Inside m) : Good false false 0 m :=
  ⟨h, (fun h => nomatch h), fun h => nomatch h⟩

theorem Costs.mono {μ ν : α → Nat} {A A' C C' : Nat} {m : M α} (h : Costs μ A C m) (hA : A ≤ A') (hC : C ≤ C')
    (hm : ∀ v, ν v ≤ μ v) : Costs ν A' C' m := by
  intro b hb v b' e
  have h1 := h b hb v b' e
  have h2 := Nat.mul_le_mul_right (b'.pos - b.pos) hA
  have h3 := hm v
  omega

/-- What is read first counts towards what is built of it. -/
theorem Costs.bind {μ : α → Nat} {ν : β → Nat} {A C D : Nat} {m : M α} {f : α → M β} (hi : Inside m)
    (hm : Costs μ A C m) (hj : ∀ a, Inside (f a)) (hf : ∀ a, Costs ν A (μ a + D) (f a)) :
    Costs ν A (C + D) (m >>= f) := by
  intro b hb v b' e
  obtain ⟨a, b1, e1, e2⟩ := bind_ok e
  obtain ⟨k1, k2⟩ := hi.after hb e1
  obtain ⟨_, k3⟩ := (hj a).after k1 e2
  have h1 := hm b hb a b1 e1
  have h2 := hf a b1 k1 v b' e2
  have h3 : b'.pos - b.pos = (b1.pos - b.pos) + (b'.pos - b1.pos) := by omega
  rw [h3, Nat.mul_add]
  omega

/-- What is read first does not count. -/
theorem Costs.after {ν : β → Nat} {A C : Nat} {m : M α} {f : α → M β} (hi : Inside m) (hj : ∀ a, Inside (f a))
    (hf : ∀ a, Costs ν A C (f a)) : Costs ν A C (m >>= f) := by
  have h : Costs (fun _ => 0) A 0 m := fun b hb v b' e => Nat.zero_le _
  have := Costs.bind (D := C) hi h hj fun a => (hf a).mono (Nat.le_refl _) (by omega) fun _ => Nat.le_refl _
  rwa [Nat.zero_add] at this

theorem Costs.pure {μ : α → Nat} {A C : Nat} {a : α} (h : μ a ≤ C) : Costs μ A C (Pure.pure a : M α) := by
  intro b hb v b' e
  cases e
  omega

theorem Costs.of_not_ok {μ : α → Nat} {A C : Nat} {m : M α} (h : ∀ b v b', m b ≠ (.ok v, b')) : Costs μ A C m :=
  fun b _ v b' e => absurd e (h b v b')

theorem Costs.fail {μ : α → Nat} {A C : Nat} (c : ErrCode) : Costs μ A C (fail c : M α) :=
  Costs.of_not_ok fun _ _ _ h => by cases h

/-- A value with a bounded size. -/
theorem Costs.const {μ : α → Nat} {A C : Nat} {m : M α} (h : ∀ v, μ v ≤ C) : Costs μ A C m :=
  fun _ _ v _ _ => Nat.le_trans (h v) (Nat.le_add_left _ _)

theorem Costs.map {μ : α → Nat} {ν : β → Nat} {A C : Nat} {m : M α} (hi : Inside m) (h : Costs μ A C m) (f : α → β)
    (hf : ∀ a, ν (f a) ≤ μ a) : Costs ν A C (do
      let a ← m
      return f a) :=
  Costs.bind (D := 0) hi h (fun _ => Inside.pure _) fun a => Costs.pure (hf a)

/-- Where at least one byte is consumed it pays for the part that does not depend on the input. -/
theorem Costs.eat {μ : α → Nat} {A C : Nat} {m : M α} (h : Costs μ A C m) (he : Eats m) :
    Costs μ (A + C) 0 m := by
  intro b hb v b' e
  have h1 := h b hb v b' e
  have h2 := he b hb v b' e
  have h3 : C ≤ C * (b'.pos - b.pos) := Nat.le_mul_of_pos_right _ (by omega)
  rw [Nat.add_mul]
  omega

/-! ## Byte strings -/

theorem costs_takeBytes (n : Nat) : Costs List.length 1 0 (takeBytes n) := by
  intro b hb v b' h
  rw [takeBytes_apply n b hb] at h
  split at h
  · cases h
  · cases h
    show List.length _ ≤ 1 * (b.pos + n - b.pos) + 0
    rw [List.length_take]
    omega

theorem costs_findSubsequence (x : List Byte) : Costs List.length 1 0 (findSubsequence x) := by
  intro b hb v b' h
  rw [findSubsequence_apply x b hb] at h
  split at h
  · rename_i i _
    cases h
    show List.length _ ≤ 1 * (b.pos + (i + x.length) - b.pos) + 0
    rw [List.length_take]
    omega
  · cases h

theorem costs_findSubsequences (xs : List (List Byte)) : Costs List.length 1 0 (findSubsequences xs) := by
  intro b hb v b' h
  rw [findSubsequences_apply xs b hb] at h
  split at h
  · rename_i s e hf
    obtain ⟨g1, ⟨n, _, _, g3⟩, _⟩ := acFind_some hf
    cases h
    show List.length _ ≤ 1 * (b.pos + e - b.pos) + 0
    rw [List.length_take]
    omega
  · cases h

theorem costs_takePrefixed : Costs List.length 1 0 takePrefixed :=
  Costs.after tame_takeU8.inside (fun _ => (tame_takeBytes _).inside) fun _ => costs_takeBytes _

theorem inside_decBytes (ca : Option CAttr) (fa : Option FAttr) : Inside (decBytes ca fa) :=
  (Good.decBytes (p := false) (t := false) (N := 0) ca fa fun h => nomatch h).1

theorem inside_decStr (ca : Option CAttr) (fa : Option FAttr) : Inside (decStr ca fa) :=
  (Good.decStr (p := false) (t := false) (N := 0) ca fa fun h => nomatch h).1

theorem inside_skipNeedle (o : Option (List Byte)) : Inside (skipNeedle o) :=
  (Good.skipNeedle (p := false) (t := false) (N := 0) o).1

theorem costs_decBytes (ca : Option CAttr) (fa : Option FAttr) : Costs List.length 1 0 (decBytes ca fa) := by
  unfold decBytes
  split
  · exact costs_takePrefixed
  · rename_i fr
    have key : Inside (match fr.length with
        | some n => takeBytes n
        | none =>
          match fr.byteCount with
          | some k => do
            let n ← takeUint k (getByteorder ca (some fr))
            takeBytes n
          | none =>
            if fr.linend then findSubsequences lineNeedles
            else
              match fr.linendValue with
              | some x => findSubsequence x
              | none =>
                if fr.remaining then do
                  let n ← remainingLen
                  takeBytes n
                else takePrefixed) ∧ Costs List.length 1 0 (match fr.length with
        | some n => takeBytes n
        | none =>
          match fr.byteCount with
          | some k => do
            let n ← takeUint k (getByteorder ca (some fr))
            takeBytes n
          | none =>
            if fr.linend then findSubsequences lineNeedles
            else
              match fr.linendValue with
              | some x => findSubsequence x
              | none =>
                if fr.remaining then do
                  let n ← remainingLen
                  takeBytes n
                else takePrefixed) := by
      split
      · exact ⟨(tame_takeBytes _).inside, costs_takeBytes _⟩
      · split
        · exact ⟨(Inside.takeUint _ _).bind fun _ => (tame_takeBytes _).inside,
            Costs.after (Inside.takeUint _ _) (fun _ => (tame_takeBytes _).inside) fun _ => costs_takeBytes _⟩
        · split
          · exact ⟨(tame_findSubsequences _).inside, costs_findSubsequences _⟩
          · split
            · exact ⟨(tame_findSubsequence _).inside, costs_findSubsequence _⟩
            · split
              · exact ⟨tame_remainingLen.inside.bind fun _ => (tame_takeBytes _).inside,
                  Costs.after tame_remainingLen.inside (fun _ => (tame_takeBytes _).inside)
                    fun _ => costs_takeBytes _⟩
              · exact ⟨(Good.takePrefixed (p := false) (t := false) (N := 0)).1, costs_takePrefixed⟩
    exact Costs.after (inside_skipNeedle _) (fun _ => (inside_skipNeedle _).bind fun _ => key.1) fun _ =>
      Costs.after (inside_skipNeedle _) (fun _ => key.1) fun _ => key.2

theorem costs_decStr (ca : Option CAttr) (fa : Option FAttr) : Costs List.length 1 0 (decStr ca fa) := by
  refine Costs.bind (D := 0) (inside_decBytes ca fa) (costs_decBytes ca fa) (fun v => ?_) fun v => ?_
  · split
    · exact Inside.pure _
    · exact Inside.fail _
  · split
    · exact Costs.pure (Nat.le_refl _)
    · exact Costs.fail _

/-! ## Collections -/

/-- The elements together. -/
def sizes (μ : α → Nat) (l : List α) : Nat := (l.map μ).sum

theorem sizes_cons (μ : α → Nat) (a : α) (l : List α) : sizes μ (a :: l) = μ a + sizes μ l := by
  simp [sizes]

theorem Costs.cons {μ : α → Nat} {A C D : Nat} {m : M α} {r : α → M (List α)} (hi : Inside m) (hm : Costs μ A C m)
    (hj : ∀ a, Inside (r a)) (hr : ∀ a, Costs (sizes μ) A D (r a)) :
    Costs (sizes μ) A (C + D) (do
      let a ← m
      let as ← r a
      return a :: as) := by
  refine Costs.bind hi hm (fun a => (hj a).bind fun _ => Inside.pure _) fun a => ?_
  have := Costs.bind (ν := sizes μ) (D := μ a) (hj a) (hr a) (f := fun as => Pure.pure (a :: as))
    (fun _ => Inside.pure _) fun as => Costs.pure (by rw [sizes_cons]; omega)
  exact this.mono (Nat.le_refl _) (by omega) fun _ => Nat.le_refl _

theorem Costs.repeatM {μ : α → Nat} {A C : Nat} {m : M α} (hi : Inside m) (h : Costs μ A C m) (n : Nat) :
    Costs (sizes μ) A (n * C) (repeatM m n) := by
  induction n with
  | zero => exact Costs.pure (Nat.zero_le _)
  | succ n ih =>
    have := Costs.cons hi h (fun _ => hi.repeatM n) fun _ => ih
    rw [Nat.succ_mul, Nat.add_comm]
    exact this

theorem Costs.attempt {μ : α → Nat} {ν : Option α → Nat} {A C : Nat} {m : M α} (h : Costs μ A C m)
    (h0 : ν none ≤ C) (h1 : ∀ a, ν (some a) ≤ μ a) : Costs ν A C (M.attempt m) := by
  intro b hb v b' e
  rw [attempt_apply] at e
  rcases hm : m b with ⟨o, b1⟩
  rw [hm] at e
  cases o with
  | ok a =>
    cases e
    exact Nat.le_trans (h1 a) (h b hb a _ hm)
  | err x =>
    cases e
    omega
  | panic => cases e
  | timeout => cases e

theorem Costs.tryRepeatM {μ : α → Nat} {A : Nat} {m : M α} (hi : Inside m) (h : Costs μ A 0 m) (n : Nat) :
    Costs (sizes μ) A 0 (tryRepeatM m n) := by
  induction n with
  | zero => exact Costs.pure (Nat.zero_le _)
  | succ n ih =>
    refine Costs.bind (D := 0) (μ := fun o : Option α => (o.map μ).getD 0) hi.attempt
      (h.attempt (Nat.zero_le _) fun _ => Nat.le_refl _) (fun x => ?_) fun x => ?_
    · cases x with
      | none => exact Inside.pure _
      | some a => exact (hi.tryRepeatM n).bind fun _ => Inside.pure _
    · cases x with
      | none => exact Costs.pure (Nat.zero_le _)
      | some a =>
        have := Costs.bind (ν := sizes μ) (D := μ a) (hi.tryRepeatM n) ih (f := fun as => Pure.pure (a :: as))
          (fun _ => Inside.pure _) fun as => Costs.pure (by rw [sizes_cons]; omega)
        exact this.mono (Nat.le_refl _) (by simp) fun _ => Nat.le_refl _

theorem Costs.whileStarts {μ : α → Nat} {A : Nat} {m : M α} (p : List Byte) (hi : Inside m) (h : Costs μ A 0 m)
    (n : Nat) : Costs (sizes μ) A 0 (whileStarts p m n) := by
  induction n with
  | zero => exact Costs.of_not_ok fun _ _ _ h => by cases h
  | succ n ih =>
    refine Costs.after (tame_takeBytesStarts p).inside.attempt (fun x => ?_) fun x => ?_
    · cases x with
      | none => exact Inside.pure _
      | some _ => exact hi.bind fun _ => (hi.whileStarts p n).bind fun _ => Inside.pure _
    · cases x with
      | none => exact Costs.pure (Nat.zero_le _)
      | some _ => exact Costs.cons (C := 0) (D := 0) hi h (fun _ => hi.whileStarts p n) fun _ => ih

theorem inside_getCount (ca : Option CAttr) (fa : Option FAttr) : Inside (getCount ca fa) :=
  (Good.getCount (p := false) (t := false) (N := 0) ca fa fun h => nomatch h).1

theorem Costs.counted {μ : α → Nat} {A : Nat} {m : M α} (hi : Inside m) (h : Costs μ A 0 m) (ca : Option CAttr)
    (fa : Option FAttr) : Costs (sizes μ) A 0 (do
      let (n, t) ← getCount ca fa
      match t with
      | some t => JBytes.tryRepeatM m t
      | none => JBytes.repeatM m n) := by
  refine Costs.after (inside_getCount ca fa) (fun x => ?_) fun x => ?_
  · obtain ⟨n, t⟩ := x
    cases t with
    | none => exact hi.repeatM n
    | some t => exact hi.tryRepeatM t
  · obtain ⟨n, t⟩ := x
    cases t with
    | none => exact h.repeatM hi n
    | some t => exact h.tryRepeatM hi t

theorem Costs.decVec {μ : α → Nat} {A : Nat} {d : Dec α} {ca : Option CAttr} {fa : Option FAttr} (n : Nat)
    (hi : Inside (d ca fa)) (h : Costs μ A 0 (d ca fa)) : Costs (sizes μ) A 0 (decVec n d ca fa) := by
  unfold JBytes.decVec
  split
  · exact h.whileStarts _ hi n
  · exact h.counted hi ca fa

theorem sizes_setInsert [DecidableEq α] (μ : α → Nat) (s : List α) (a : α) :
    sizes μ (setInsert s a) ≤ sizes μ s + μ a := by
  unfold setInsert
  split
  · omega
  · simp [sizes]

theorem sizes_set [DecidableEq α] (μ : α → Nat) (l : List α) : ∀ s : List α,
    sizes μ (l.foldl setInsert s) ≤ sizes μ s + sizes μ l := by
  induction l with
  | nil => intro s; simp [sizes]
  | cons a l ih =>
    intro s
    have h1 := ih (setInsert s a)
    have h2 := sizes_setInsert μ s a
    rw [List.foldl_cons, sizes_cons]
    omega

/-- An entry is its key and its value. -/
def entrySize (μ : α → Nat) (ν : β → Nat) (e : α × β) : Nat := μ e.1 + ν e.2

theorem sizes_mapReplace [DecidableEq α] (μ : α → Nat) (ν : β → Nat) (e : α × β) : ∀ m : List (α × β),
    (m.map Prod.fst).Nodup →
    sizes (entrySize μ ν) (m.map fun x => if x.1 = e.1 then (x.1, e.2) else x) ≤ sizes (entrySize μ ν) m + ν e.2 := by
  intro m
  induction m with
  | nil => intro _; simp [sizes]
  | cons x m ih =>
    intro hn
    rw [List.map_cons, List.nodup_cons] at hn
    rw [List.map_cons, sizes_cons, sizes_cons]
    by_cases hx : x.1 = e.1
    · have hm : (m.map fun x => if x.1 = e.1 then (x.1, e.2) else x) = m := by
        refine (List.map_congr_left fun y hy => ?_).trans (List.map_id _)
        have : y.1 ≠ e.1 := fun h => hn.1 (by rw [hx, ← h]; exact List.mem_map_of_mem hy)
        rw [if_neg this]
        rfl
      rw [hm, if_pos hx]
      show μ x.1 + ν e.2 + _ ≤ μ x.1 + ν x.2 + _ + _
      omega
    · rw [if_neg hx]
      have := ih hn.2
      omega

theorem mapInsert_keys [DecidableEq α] (m : List (α × β)) (e : α × β) (h : (m.map Prod.fst).Nodup) :
    ((mapInsert m e).map Prod.fst).Nodup := by
  unfold mapInsert
  split
  · rw [List.map_map]
    have : (Prod.fst ∘ fun x : α × β => if x.1 = e.1 then (x.1, e.2) else x) = Prod.fst := by
      funext x
      simp only [Function.comp]
      split <;> rfl
    rw [this]
    exact h
  · rename_i hn
    rw [List.map_append, List.nodup_append]
    refine ⟨h, by simp, ?_⟩
    intro x hx y hy hxy
    simp only [List.map_cons, List.map_nil, List.mem_singleton] at hy
    exact hn (by rw [← hy, ← hxy]; exact hx)

theorem sizes_mapInsert [DecidableEq α] (μ : α → Nat) (ν : β → Nat) (m : List (α × β)) (e : α × β)
    (h : (m.map Prod.fst).Nodup) :
    sizes (entrySize μ ν) (mapInsert m e) ≤ sizes (entrySize μ ν) m + entrySize μ ν e := by
  unfold mapInsert
  split
  · have := sizes_mapReplace μ ν e m h
    show _ ≤ _ + (μ e.1 + ν e.2)
    omega
  · simp [sizes]

theorem sizes_map [DecidableEq α] (μ : α → Nat) (ν : β → Nat) (l : List (α × β)) : ∀ m : List (α × β),
    (m.map Prod.fst).Nodup →
    sizes (entrySize μ ν) (l.foldl mapInsert m) ≤ sizes (entrySize μ ν) m + sizes (entrySize μ ν) l := by
  induction l with
  | nil => intro s _; simp [sizes]
  | cons a l ih =>
    intro s hs
    have h1 := ih (mapInsert s a) (mapInsert_keys s a hs)
    have h2 := sizes_mapInsert μ ν s a hs
    rw [List.foldl_cons, sizes_cons]
    omega

theorem Costs.decEntry {μ : α → Nat} {ν : β → Nat} {A C D : Nat} {dk : Dec α} {dv : Dec β} {ca : Option CAttr}
    {fa : Option FAttr} (hi : Inside (dk ca (keyFattr fa))) (hk : Costs μ A C (dk ca (keyFattr fa)))
    (hj : Inside (dv ca (valFattr fa))) (hv : Costs ν A D (dv ca (valFattr fa))) :
    Costs (entrySize μ ν) A (C + D) (decEntry dk dv ca fa) := by
  refine Costs.bind hi hk (fun a => hj.bind fun _ => Inside.pure _) fun k => ?_
  have := Costs.bind (ν := entrySize μ ν) (D := μ k) hj hv (f := fun v => Pure.pure (k, v))
    (fun _ => Inside.pure _) fun v => Costs.pure (by show μ k + ν v ≤ _; omega)
  exact this.mono (Nat.le_refl _) (by omega) fun _ => Nat.le_refl _

theorem inside_decEntry {dk : Dec α} {dv : Dec β} {ca : Option CAttr}
    {fa : Option FAttr} (hi : Inside (dk ca (keyFattr fa))) (hj : Inside (dv ca (valFattr fa))) :
    Inside (decEntry dk dv ca fa) := hi.bind fun _ => hj.bind fun _ => Inside.pure _

theorem Costs.decTuple {μ : α → Nat} {A : Nat} {ca : Option CAttr} {fa : Option FAttr} :
    ∀ ds : List (Dec α × Nat), (∀ d ∈ ds, Inside (d.1 ca fa) ∧ Costs μ A d.2 (d.1 ca fa)) →
    Costs (sizes μ) A (ds.map Prod.snd).sum (decTuple (ds.map Prod.fst) ca fa)
  | [], _ => Costs.pure (Nat.zero_le _)
  | d :: ds, h => by
    refine Costs.cons (h d (by simp)).1 (h d (by simp)).2 (fun _ => ?_) fun _ =>
      Costs.decTuple ds fun x hx => h x (List.mem_cons_of_mem _ hx)
    refine (Good.decTuple (p := false) (t := false) (N := 0) _ fun x hx => ?_).1
    obtain ⟨y, hy, rfl⟩ := List.mem_map.mp hx
    exact (h y (List.mem_cons_of_mem _ hy)).1.toGood

/-! ## Derived code -/

/-- Reads on, with a part paid for by a byte consumed first. -/
theorem Costs.paid {ν : β → Nat} {A C K : Nat} {m : M α} {f : α → M β} (hi : Inside m) (he : Eats m)
    (hj : ∀ a, Inside (f a)) (hf : ∀ a, Costs ν A C (f a)) (hA : A ≤ K) (hC : C ≤ K) : Costs ν K 0 (m >>= f) := by
  intro b hb v b' e
  obtain ⟨a, b1, e1, e2⟩ := bind_ok e
  obtain ⟨k1, k2⟩ := hi.after hb e1
  obtain ⟨_, k3⟩ := (hj a).after k1 e2
  have h1 := he b hb a b1 e1
  have h2 := hf a b1 k1 v b' e2
  have h3 := Nat.mul_le_mul_right (b'.pos - b1.pos) hA
  have h4 : K * (b'.pos - b1.pos) + K ≤ K * (b'.pos - b.pos) := by
    rw [← Nat.mul_succ]
    exact Nat.mul_le_mul_left _ (by omega)
  omega

/-- The modifiers that code with the attributes `a` is given. -/
def FaGiven (a : FieldAttrs V) (fa : Option FAttr) : Prop :=
  ((a.isUse && a.anySet) = false ∧ fa = none) ∨
    ((a.isUse && a.anySet) = true ∧ ∃ o env, fa = some (a.modifiers o env))

theorem toCode_faGiven {a : FieldAttrs V} {env : Env V} {b b' : Buf} {fa : Option FAttr}
    (h : a.toCode env b = (.ok fa, b')) : b' = b ∧ FaGiven a fa := by
  unfold FieldAttrs.toCode at h
  split at h
  · rename_i hu
    obtain ⟨o, b1, h1, h2⟩ := bind_ok h
    cases h2
    refine ⟨?_, .inr ⟨hu, o, env, rfl⟩⟩
    generalize a.byteorder = r at h1
    rcases r with _ | o | e
    · cases h1; rfl
    · cases h1; rfl
    · simp only [orderCode, ite_apply'] at h1
      split at h1
      · cases h1; rfl
      · split at h1 <;> cases h1
        rfl
  · rename_i hu
    cases h
    exact ⟨rfl, .inl ⟨by simpa using hu, rfl⟩⟩

/-- A field of a type: its attributes and its decoder, the modifiers it is decoded with, and how large its value can
be for each consumed byte (`perByte`) and besides (`fixed`). -/
structure Spec (V : Type) where
  field : Field V
  dec : Nat → Dec V
  fits : Option FAttr → Prop
  perByte : Nat
  fixed : Nat

/-- The field, with the fuel `n` of loops. -/
def Spec.at (n : Nat) (x : Spec V) : Field V := { x.field with dec := x.dec n }

/-- The attributes of a field keep its value as small as its type does: nothing is skipped or put back, and values
that are not read (defaults, `None`, conversions) are bounded likewise. -/
structure FieldCost (μ : V → Nat) (x : Spec V) : Prop where
  custom : x.field.attrs.withDecode = none
  offset : x.field.attrs.offset = none
  untake : x.field.attrs.untake = false
  given : ∀ fa, FaGiven x.field.attrs fa → x.fits fa
  dflt : (x.field.attrs.skip || x.field.attrs.skipDecode) = true → μ x.field.dflt ≤ x.fixed
  noneV : x.field.attrs.ifExpr.isSome = true → μ x.field.noneV ≤ x.fixed
  text : ∀ ps, x.field.attrs.fromStr = some ps → ∀ s v, ps.1 s = some v → μ v ≤ x.perByte * s.length + x.fixed
  value : ∀ g, x.field.attrs.valueDecode = some g → ∀ env v, μ (g env v) ≤ μ v

/-- A field of a tuple struct without attributes is given the modifiers of the field before. -/
def Chain (keep : Bool) : (Option FAttr → Prop) → List (Spec V) → Prop
  | _, [] => True
  | O, x :: xs => (keep = true → x.field.attrs.isUse = false → ∀ fa, O fa → x.fits fa) ∧ Chain keep x.fits xs

/-- What is known of the decoder of a field. -/
def Spec.Good (μ : V → Nat) (n : Nat) (x : Spec V) : Prop :=
  FieldCost μ x ∧ (∀ ca fa, Inside (x.dec n ca fa)) ∧
    ∀ ca fa, x.fits fa → Costs μ x.perByte x.fixed (x.dec n ca fa)

/-- No `offset`. -/
def still : Limits := { noOffset := true }

theorem still_ok (fa : Option FAttr) : FaOk? still fa := by
  intro fr _
  constructor <;> intro h <;> cases h

theorem FieldCost.attrs {μ : V → Nat} {x : Spec V} (h : FieldCost μ x) (n : Nat) : AttrsOk still (x.at n).attrs :=
  ⟨h.custom, fun _ => h.offset, (fun h => nomatch h), (fun h => nomatch h), fun _ _ => still_ok (some _) _ rfl⟩

theorem inside_decField {f : Field V} {env : Env V} {ca : Option CAttr} {fa : Option FAttr}
    (ha : AttrsOk still f.attrs) (h : Inside (f.dec ca fa)) : Inside (decField f env ca fa) :=
  (JBytes.Good.decField (L := still) (t := false) (N := 0) rfl ha (still_ok fa) h.toGood).1

theorem inside_decFields {keep : Bool} {fs : List (Field V)} {ca : Option CAttr} {old : Option FAttr} {env : Env V}
    (h : ∀ f ∈ fs, AttrsOk still f.attrs ∧ ∀ ca fa, Inside (f.dec ca fa)) : Inside (decFields keep fs ca old env) :=
  (JBytes.Good.decFields (L := still) (t := false) (N := 0) rfl keep fs ca old env (still_ok _) fun f hf =>
    ⟨(h f hf).1, fun ca fa _ => ((h f hf).2 ca fa).toGood⟩).1

theorem inside_specs {μ : V → Nat} {n : Nat} {keep : Bool} {xs : List (Spec V)} (h : ∀ x ∈ xs, x.Good μ n)
    (ca : Option CAttr) (old : Option FAttr) (env : Env V) :
    Inside (decFields keep (xs.map (·.at n)) ca old env) := by
  refine inside_decFields fun f hf => ?_
  obtain ⟨x, hx, rfl⟩ := List.mem_map.mp hf
  exact ⟨(h x hx).1.attrs n, (h x hx).2.1⟩

theorem costs_finishValue {μ : V → Nat} {A : Nat} {a : FieldAttrs V} {env : Env V}
    (h : ∀ g, a.valueDecode = some g → ∀ env v, μ (g env v) ≤ μ v) (v : V) : Costs μ A (μ v) (finishValue a env v) := by
  have key : ∀ w, μ w ≤ μ v → Costs μ A (μ v) (match a.checkValue with
      | some c => if c env w then return w else fail .invalidValue
      | none => return w) := by
    intro w hw
    split
    · split
      · exact Costs.pure hw
      · exact Costs.fail _
    · exact Costs.pure hw
  unfold finishValue
  cases hv : a.valueDecode with
  | none => exact key v (Nat.le_refl _)
  | some g => exact key _ (h g hv env v)

theorem Spec.Good.decField {μ : V → Nat} {n : Nat} {x : Spec V} (h : x.Good μ n) (env : Env V) (ca : Option CAttr)
    {fa : Option FAttr} (hfa : x.fits fa) : Costs μ x.perByte x.fixed (decField (x.at n) env ca fa) := by
  obtain ⟨hc, hi, hd⟩ := h
  unfold JBytes.decField
  show Costs _ _ _ (do
    skipOffset x.field.attrs env
    match x.field.attrs.withDecode with
    | some g => g env ca fa
    | none =>
      if x.field.attrs.skip || x.field.attrs.skipDecode then return x.field.dflt
      else
        match x.field.attrs.fromStr with
        | some ps => do
          let s ← decStr ca fa
          match ps.1 s with
          | some v => return v
          | none => fail .fail
        | none => decPlain (x.at n) env ca fa)
  rw [skipOffset, hc.offset, hc.custom]
  show Costs _ _ _ (if x.field.attrs.skip || x.field.attrs.skipDecode then return x.field.dflt
      else
        match x.field.attrs.fromStr with
        | some ps => do
          let s ← decStr ca fa
          match ps.1 s with
          | some v => return v
          | none => fail .fail
        | none => decPlain (x.at n) env ca fa)
  split
  · rename_i hs
    exact Costs.pure (hc.dflt hs)
  · split
    · rename_i ps hps
      intro b hb v b' e
      obtain ⟨s, b1, e1, e2⟩ := bind_ok e
      have h1 := costs_decStr ca fa b hb s b1 e1
      cases hv : ps.1 s with
      | none => rw [hv] at e2; cases e2
      | some w =>
        rw [hv] at e2
        cases e2
        have h2 := hc.text ps hps s v hv
        have h3 : s.length ≤ b'.pos - b.pos := by omega
        have h4 := Nat.mul_le_mul_left x.perByte h3
        omega
    · have hcond : Inside (decCond (x.at n) env ca fa) :=
        (Good.decCond (p := false) (t := false) (N := 0) (f := x.at n) (hi ca fa).toGood).1
      refine Costs.after (Good.getPos (p := false) (t := false) (N := 0)).1 (fun p => ?_) fun p => ?_
      · refine hcond.bind fun v => ?_
        show Inside (if x.field.attrs.untake = true then _ else _)
        rw [hc.untake]
        exact (Good.finishValue (p := false) (t := false) (N := 0) _ _ _).1
      · have hu : (x.at n).attrs.untake = false := hc.untake
        simp only [hu, Bool.false_eq_true, if_false]
        refine Costs.bind (D := 0) hcond (μ := μ) ?_
          (fun v => (Good.finishValue (p := false) (t := false) (N := 0) _ _ _).1)
          fun v => costs_finishValue hc.value v
        unfold decCond
        show Costs _ _ _ (match x.field.attrs.ifExpr with
          | some c => if c env then x.dec n ca fa else return x.field.noneV
          | none => x.dec n ca fa)
        cases hx : x.field.attrs.ifExpr with
        | none => exact hd ca fa hfa
        | some c =>
          dsimp only
          split
          · exact hd ca fa hfa
          · exact Costs.pure (hc.noneV (by rw [hx]; rfl))

/-- The modifiers of a field, then the rest. -/
theorem costs_toCode {μ : α → Nat} {A C : Nat} {a : FieldAttrs V} {env : Env V} {g : Option FAttr → M α}
    (h : ∀ fa, FaGiven a fa → Costs μ A C (g fa)) : Costs μ A C (a.toCode env >>= g) := by
  intro b hb v b' e
  obtain ⟨fa, b1, e1, e2⟩ := bind_ok e
  obtain ⟨rfl, hg⟩ := toCode_faGiven e1
  exact h fa hg b1 hb v b' e2

theorem Costs.decFields {μ : V → Nat} {A n : Nat} {keep : Bool} : ∀ (xs : List (Spec V)) (O : Option FAttr → Prop)
    (ca : Option CAttr) (old : Option FAttr) (env : Env V), O old → Chain keep O xs →
    (∀ x ∈ xs, x.Good μ n ∧ x.perByte ≤ A) →
    Costs (sizes μ) A (xs.map (·.fixed)).sum (decFields keep (xs.map (·.at n)) ca old env) := by
  intro xs
  induction xs with
  | nil => intro O ca old env _ _ _; exact Costs.pure (Nat.zero_le _)
  | cons x xs ih =>
    intro O ca old env hO hch h
    obtain ⟨hx, hA⟩ := h x (by simp)
    have rest : ∀ fa, x.fits fa → Costs (sizes μ) A (x.fixed + (xs.map (·.fixed)).sum) (do
        let v ← JBytes.decField (x.at n) env ca fa
        let vs ← JBytes.decFields keep (xs.map (·.at n)) (cacheVars (x.at n).attrs ca (env.push v)) fa (env.push v)
        return v :: vs) := by
      intro fa hfa
      exact Costs.cons (inside_decField (hx.1.attrs n) (hx.2.1 ca fa))
        ((hx.decField env ca hfa).mono hA (Nat.le_refl _) fun _ => Nat.le_refl _)
        (fun v => inside_specs (fun y hy => (h y (List.mem_cons_of_mem _ hy)).1) _ _ _)
        (fun v => ih x.fits _ fa _ hfa hch.2 fun y hy => h y (List.mem_cons_of_mem _ hy))
    rw [List.map_cons, List.map_cons, List.sum_cons]
    unfold JBytes.decFields
    split
    · rename_i hk
      rw [Bool.and_eq_true, Bool.not_eq_true'] at hk
      exact rest old (hch.1 hk.1 hk.2 old hO)
    · exact costs_toCode fun fa hg => rest fa (hx.1.given fa hg)

/-- A field that is always decoded, by a decoder that consumes. -/
structure Spec.Eats (n : Nat) (x : Spec V) : Prop where
  always : x.field.attrs.skip = false ∧ x.field.attrs.skipDecode = false ∧ x.field.attrs.ifExpr = none ∧
    x.field.attrs.fromStr = none
  eats : ∀ ca fa, x.fits fa → JBytes.Eats (x.dec n ca fa)

theorem Spec.Eats.decField {μ : V → Nat} {n : Nat} {x : Spec V} (he : x.Eats n) (h : x.Good μ n) (env : Env V)
    (ca : Option CAttr) {fa : Option FAttr} (hfa : x.fits fa) : JBytes.Eats (decField (x.at n) env ca fa) := by
  obtain ⟨h1, h2, h3, h5⟩ := he.always
  obtain ⟨hc, hi, _⟩ := h
  have e : JBytes.decField (x.at n) env ca fa = (M.getPos >>= fun _ => x.dec n ca fa >>= fun v =>
      finishValue x.field.attrs env v) := by
    unfold JBytes.decField decPlain decCond
    simp only [Spec.at, skipOffset, hc.offset, hc.custom, hc.untake, h1, h2, h3, h5]
    rfl
  rw [e]
  exact Eats.bind_right (Good.getPos (p := false) (t := false) (N := 0)).1 fun _ =>
    (he.eats ca fa hfa).bind_left (hi ca fa) fun _ => (Good.finishValue (p := false) (t := false) (N := 0) _ _ _).1

/-- Fields one of which consumes a byte that pays for all that does not depend on the input. -/
theorem Costs.headed {μ : V → Nat} {K n : Nat} {keep : Bool} (x : Spec V) (post : List (Spec V)) : ∀ (pre : List (Spec V))
    (D : Nat) (O : Option FAttr → Prop) (ca : Option CAttr) (old : Option FAttr) (env : Env V), O old →
    Chain keep O (pre ++ x :: post) → (∀ y ∈ pre ++ x :: post, y.Good μ n ∧ y.perByte ≤ K) → x.Eats n →
    x.perByte + ((pre ++ x :: post).map (·.fixed)).sum + D ≤ K →
    Costs (fun vs => sizes μ vs + D) K 0 (JBytes.decFields keep ((pre ++ x :: post).map (·.at n)) ca old env) := by
  intro pre
  induction pre with
  | nil =>
    intro D O ca old env hO hch h he hK
    obtain ⟨hx, hA⟩ := h x (by simp)
    simp only [List.nil_append, List.map_cons, List.sum_cons] at hK ⊢
    have rest : ∀ fa, x.fits fa → Costs (fun vs => sizes μ vs + D) K 0 (do
        let v ← JBytes.decField (x.at n) env ca fa
        let vs ← JBytes.decFields keep (post.map (·.at n)) (cacheVars (x.at n).attrs ca (env.push v)) fa (env.push v)
        return v :: vs) := by
      intro fa hfa b hb vs b' e
      obtain ⟨v, b1, e1, e2⟩ := bind_ok e
      obtain ⟨ws, b2, e3, e4⟩ := bind_ok e2
      cases e4
      obtain ⟨k1, k2⟩ := (inside_decField (hx.1.attrs n) (hx.2.1 ca fa)).after hb e1
      obtain ⟨_, k3⟩ := (inside_specs (fun y hy => (h y (List.mem_cons_of_mem _ hy)).1) _ _ _).after k1 e3
      have h1 := hx.decField env ca hfa b hb v b1 e1
      have h2 := he.decField hx env ca hfa b hb v b1 e1
      have h3 := Costs.decFields (A := K) post x.fits _ fa _ hfa hch.2
        (fun y hy => h y (List.mem_cons_of_mem _ hy)) b1 k1 ws b' e3
      have h4 : x.perByte * (b1.pos - b.pos) + (K - x.perByte) ≤ K * (b1.pos - b.pos) := by
        have : K * (b1.pos - b.pos) = x.perByte * (b1.pos - b.pos) + (K - x.perByte) * (b1.pos - b.pos) := by
          rw [← Nat.add_mul]
          congr 1
          omega
        have h5 : (K - x.perByte) ≤ (K - x.perByte) * (b1.pos - b.pos) := Nat.le_mul_of_pos_right _ (by omega)
        omega
      have h6 : K * (b'.pos - b.pos) = K * (b1.pos - b.pos) + K * (b'.pos - b1.pos) := by
        rw [← Nat.mul_add]
        congr 1
        omega
      show sizes μ (v :: ws) + D ≤ _
      rw [sizes_cons]
      omega
    unfold JBytes.decFields
    split
    · rename_i hk
      rw [Bool.and_eq_true, Bool.not_eq_true'] at hk
      exact rest old (hch.1 hk.1 hk.2 old hO)
    · exact costs_toCode fun fa hg => rest fa (hx.1.given fa hg)
  | cons y pre ih =>
    intro D O ca old env hO hch h he hK
    obtain ⟨hy, hA⟩ := h y (by simp)
    simp only [List.cons_append, List.map_cons, List.sum_cons] at hK ⊢
    have rest : ∀ fa, y.fits fa → Costs (fun vs => sizes μ vs + D) K 0 (do
        let v ← JBytes.decField (y.at n) env ca fa
        let vs ← JBytes.decFields keep ((pre ++ x :: post).map (·.at n)) (cacheVars (y.at n).attrs ca (env.push v)) fa
          (env.push v)
        return v :: vs) := by
      intro fa hfa b hb vs b' e
      obtain ⟨v, b1, e1, e2⟩ := bind_ok e
      obtain ⟨ws, b2, e3, e4⟩ := bind_ok e2
      cases e4
      obtain ⟨k1, k2⟩ := (inside_decField (hy.1.attrs n) (hy.2.1 ca fa)).after hb e1
      obtain ⟨_, k3⟩ := (inside_specs (fun z hz => (h z (List.mem_cons_of_mem _ hz)).1) _ _ _).after k1 e3
      have h1 := hy.decField env ca hfa b hb v b1 e1
      have h2 := Nat.mul_le_mul_right (b1.pos - b.pos) hA
      have h3 := ih (D + y.fixed) y.fits _ fa _ hfa hch.2 (fun z hz => h z (List.mem_cons_of_mem _ hz)) he
        (by omega) b1 k1 ws b' e3
      have h6 : K * (b'.pos - b.pos) = K * (b1.pos - b.pos) + K * (b'.pos - b1.pos) := by
        rw [← Nat.mul_add]
        congr 1
        omega
      dsimp only at h3
      show sizes μ (v :: ws) + D ≤ _
      rw [sizes_cons]
      omega
    unfold JBytes.decFields
    split
    · rename_i hk
      rw [Bool.and_eq_true, Bool.not_eq_true'] at hk
      exact rest old (hch.1 hk.1 hk.2 old hO)
    · exact costs_toCode fun fa hg => rest fa (hy.1.given fa hg)

/-! ## Enums -/

/-- A variant: its attributes and its fields, and the modifiers its first field can take over. -/
structure VSpec (V : Type) where
  variant : Variant V
  specs : List (Spec V)
  fits : Option FAttr → Prop

def VSpec.at (n : Nat) (w : VSpec V) : Variant V := { w.variant with fields := w.specs.map (·.at n) }

/-- The attributes of a variant: nothing is skipped, and its modifiers suit its fields. -/
structure VCost (w : VSpec V) : Prop where
  custom : w.variant.attrs.withDecode = none
  offset : w.variant.attrs.offset = none
  given : ∀ fa, FaGiven w.variant.attrs fa → w.fits fa
  chain : Chain w.variant.tuple w.fits w.specs

/-- The size of a variant: its fields, and one for itself. -/
def armSize (μ : V → Nat) (x : Nat × List V) : Nat := 1 + sizes μ x.2

theorem inside_arm {μ : V → Nat} {n : Nat} {w : VSpec V} (hw : VCost w) (h : ∀ x ∈ w.specs, x.Good μ n)
    (own : Option CAttr) (env : Env V) (i : Nat) : Inside (decVariant own env i (w.at n)) := by
  refine (JBytes.Good.decVariant (L := still) (t := false) (N := 0) rfl own env i (w.at n) ?_ fun f hf => ?_).1
  · exact ⟨hw.custom, fun _ => hw.offset, (fun h => nomatch h), (fun h => nomatch h), fun _ _ => still_ok (some _) _ rfl⟩
  · obtain ⟨x, hx, rfl⟩ := List.mem_map.mp hf
    exact ⟨(h x hx).1.attrs n, fun ca fa _ => ((h x hx).2.1 ca fa).toGood⟩

theorem costs_arm {μ : V → Nat} {A n : Nat} {w : VSpec V} (hw : VCost w) (h : ∀ x ∈ w.specs, x.Good μ n ∧ x.perByte ≤ A)
    (own : Option CAttr) (env : Env V) (i : Nat) :
    Costs (armSize μ) A (1 + (w.specs.map (·.fixed)).sum) (decVariant own env i (w.at n)) := by
  unfold decVariant
  refine costs_toCode fun fa hg => ?_
  show Costs _ _ _ (skipOffset w.variant.attrs env >>= fun _ => _)
  rw [skipOffset, hw.offset]
  have hi : Inside (decFields w.variant.tuple (w.specs.map (·.at n)) own fa env) :=
    inside_specs (fun y hy => (h y hy).1) own fa env
  have hc := Costs.decFields (A := A) w.specs w.fits own fa env (hw.given fa hg) hw.chain h
  have := Costs.bind (ν := armSize μ) (D := 1) hi hc (f := fun vs => Pure.pure (i, vs)) (fun _ => Inside.pure _)
    fun vs => Costs.pure (by show 1 + sizes μ vs ≤ _; omega)
  exact this.mono (Nat.le_refl _) (by omega) fun _ => Nat.le_refl _

theorem costs_decArm {μ : Nat × List V → Nat} {A C : Nat} {E : EnumDef V} (h : ∀ v ∈ E.variants, ∀ own env i,
    Inside (decVariant own env i v) ∧ Costs μ A C (decVariant own env i v)) (env : Env V) (t : Tag) :
    Inside (decArm E env t) ∧ Costs μ A C (decArm E env t) := by
  unfold decArm
  split
  · rename_i i v hf
    obtain ⟨n, hn⟩ := findArm_mem _ _ _ _ _ hf
    exact h v (List.of_mem_zip hn).1 _ _ _
  · exact ⟨Inside.fail _, Costs.fail _⟩

theorem inside_decTag (own ca : Option CAttr) (fa : Option FAttr) : Inside (decTag own ca fa) :=
  (Good.decTag (L := still) (t := false) (N := 0) own ca fa (fun h => nomatch h) (still_ok fa)).1

theorem inside_enum {E : EnumDef V} (hw : E.withDecode = none) (h : ∀ v ∈ E.variants, ∀ own env i,
    Inside (decVariant own env i v)) (ca : Option CAttr) (fa : Option FAttr) : Inside (decEnum E ca fa) :=
  (Good.decEnumOf (L := still) (t := false) (N := 0) E ca fa hw (fun h => nomatch h) (still_ok fa)
    fun v hv own env i => (h v hv own env i).toGood).1

theorem costs_enum {μ : Nat × List V → Nat} {A C : Nat} {E : EnumDef V} (hw : E.withDecode = none)
    (h : ∀ v ∈ E.variants, ∀ own env i, Inside (decVariant own env i v) ∧ Costs μ A C (decVariant own env i v))
    (ca : Option CAttr) (fa : Option FAttr) : Costs μ A C (decEnum E ca fa) := by
  unfold decEnum
  rw [hw]
  dsimp only
  split
  · rename_i u hu
    intro b hb x b' e
    rw [bind_apply, remaining_apply'] at e
    dsimp only at e
    rcases hf : findWord (b.data.drop b.pos) 0 E.variants with _ | ⟨i, v⟩
    · rw [hf] at e
      cases e
    · rw [hf] at e
      obtain ⟨hmem, hlen⟩ := findWord_mem _ _ _ _ _ hf
      obtain ⟨hi, hc⟩ := h v hmem E.container { vars := localVars E.getVars ca } i
      dsimp only at e
      split at e
      · exact hc b hb x b' e
      · rename_i hc'
        simp only [Bool.or_eq_true, not_or, Bool.not_eq_true] at hc'
        rw [hc'.2] at hlen
        simp only [Bool.false_eq_true, false_or] at hlen
        have hlen := (List.isPrefixOf_iff_prefix.mp hlen).length_le
        rw [List.length_drop] at hlen
        have h1 := hb.1
        have h2 := hb.2
        have h3 := isizeMax_lt
        rw [bind_apply, advance_apply, wadd_eq (by omega)] at e
        have h4 := hc ⟨b.data, b.pos + v.word.length⟩ ⟨by show b.pos + _ ≤ b.data.length; omega, hb.2⟩ x b' e
        have h5 : A * (b'.pos - (b.pos + v.word.length)) ≤ A * (b'.pos - b.pos) := Nat.mul_le_mul_left _ (by omega)
        dsimp only at h4
        omega
  · exact Costs.after (tame_takeBytes _).inside (fun _ => (costs_decArm h _ _).1) fun _ => (costs_decArm h _ _).2
  · exact Costs.after (inside_decTag _ _ _) (fun _ => (costs_decArm h _ _).1) fun _ => (costs_decArm h _ _).2

/-- The tag is on the wire, on one byte or more. -/
def TagEats (E : EnumDef V) (P : Option FAttr → Prop) : Prop :=
  match E.mode with
  | .startsWith _ => False
  | .takeBytes n => n ≠ 0
  | .uint => E.container.bind (·.byteCount) ≠ some 0 ∧ ∀ fr, P (some fr) → fr.branch = none ∧ fr.byteCount ≠ some 0

theorem eats_decTag {own ca : Option CAttr} {fa : Option FAttr} (h1 : own.bind (·.byteCount) ≠ some 0)
    (h2 : ∀ fr, fa = some fr → fr.branch = none ∧ fr.byteCount ≠ some 0) : Eats (decTag own ca fa) := by
  have h8 : Eats (do let x ← takeU8; Pure.pure x.toNat) := eats_takeU8.map tame_takeU8.inside
  unfold decTag
  split
  · rename_i fr
    obtain ⟨h3, h4⟩ := h2 fr rfl
    rw [h3]
    dsimp only
    split
    · rename_i k hk
      exact eats_takeUint (fun h => h4 (by rw [hk, h])) _
    · split
      · rename_i k hk
        exact eats_takeUint (fun h => h1 (by rw [hk, h])) _
      · exact h8
  · split
    · rename_i k hk
      exact eats_takeUint (fun h => h1 (by rw [hk, h])) _
    · exact h8

theorem costs_enum_paid {μ : Nat × List V → Nat} {A C K : Nat} {E : EnumDef V} (hw : E.withDecode = none)
    {P : Option FAttr → Prop} (ht : TagEats E P)
    (h : ∀ v ∈ E.variants, ∀ own env i, Inside (decVariant own env i v) ∧ Costs μ A C (decVariant own env i v))
    (hA : A ≤ K) (hC : C ≤ K) (ca : Option CAttr) {fa : Option FAttr} (hfa : P fa) :
    Costs μ K 0 (decEnum E ca fa) := by
  unfold decEnum
  rw [hw]
  dsimp only
  unfold TagEats at ht
  split
  · rename_i u hu
    rw [hu] at ht
    exact ht.elim
  · rename_i n hu
    rw [hu] at ht
    exact Costs.paid (tame_takeBytes _).inside (eats_takeBytes ht) (fun _ => (costs_decArm h _ _).1)
      (fun _ => (costs_decArm h _ _).2) hA hC
  · rename_i hu
    rw [hu] at ht
    exact Costs.paid (inside_decTag _ _ _) (eats_decTag ht.1 fun fr hfr => ht.2 fr (by rw [← hfr]; exact hfa))
      (fun _ => (costs_decArm h _ _).1) (fun _ => (costs_decArm h _ _).2) hA hC

end JBytes
