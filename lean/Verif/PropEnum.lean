import Verif.PropStructRT
/-!
# Derived enums: C44, C45, C46
-/

namespace JBytes
open M

variable {V : Type}

/-! ## C44: which variant is selected -/

/-- Specification: the number written explicitly on a variant (`A = 3`, the end of its range, its integer branch
value, in this order of precedence). -/
inductive Explicit (v : Variant V) : Nat → Prop
  | disc {n : Nat} : v.disc = some n → Explicit v n
  | range {lo hi : Nat} {incl : Bool} : v.disc = none → v.branchRange = some (lo, hi, incl) → Explicit v hi
  | value {n : Nat} : v.disc = none → v.branchRange = none → v.branchValue = some (.num n) → Explicit v n

/-- Specification: the number of the `i`-th variant counts on from the last explicit number at or before it, or from
0 at the start. -/
def HasNumber (vs : List (Variant V)) (i n : Nat) : Prop := i < vs.length ∧
  ((∃ j v r, j ≤ i ∧ vs[j]? = some v ∧ Explicit v r ∧ n = r + (i - j) ∧
      ∀ k v', j < k → k ≤ i → vs[k]? = some v' → ¬ ∃ r', Explicit v' r') ∨
   ((∀ k v', k ≤ i → vs[k]? = some v' → ¬ ∃ r', Explicit v' r') ∧ n = i))

/-- Specification: variant `v` numbered `num` accepts tag `t`. -/
inductive Accepts (v : Variant V) (num : Nat) : Tag → Prop
  | default {t : Tag} : v.branchDefault = true → Accepts v num t
  | bits {m n : Nat} {x : Option Nat} : v.branchDefault = false → v.branchBits = some (m, x) →
      n &&& m = x.getD m → Accepts v num (.num n)
  | value {t : Tag} : v.branchDefault = false → v.branchBits = none → v.branchValue = some t → Accepts v num t
  | range {lo hi n : Nat} {incl : Bool} : v.branchDefault = false → v.branchBits = none → v.branchValue = none →
      v.branchRange = some (lo, hi, incl) → lo ≤ n → (n < hi ∨ incl = true ∧ n = hi) → Accepts v num (.num n)
  | position : v.branchDefault = false → v.branchBits = none → v.branchValue = none → v.branchRange = none →
      Accepts v num (.num num)

theorem restart_iff (v : Variant V) (n : Nat) : v.restart = some n ↔ Explicit v n := by
  unfold Variant.restart
  constructor
  · intro h
    cases hd : v.disc with
    | some m => rw [hd] at h; simp only [Option.some.injEq] at h; subst h; exact .disc hd
    | none =>
      rw [hd] at h
      simp only at h
      cases hr : v.branchRange with
      | some r =>
        obtain ⟨lo, hi, incl⟩ := r
        rw [hr] at h
        simp only [Option.some.injEq] at h
        subst h
        exact .range hd hr
      | none =>
        rw [hr] at h
        simp only at h
        cases hv : v.branchValue with
        | none => rw [hv] at h; cases h
        | some t =>
          cases t with
          | num m => rw [hv] at h; simp only [Option.some.injEq] at h; subst h; exact .value hd hr hv
          | bytes b => rw [hv] at h; cases h
  · intro h
    cases h with
    | disc hd => rw [hd]
    | range hd hr => rw [hd, hr]
    | value hd hr hv => rw [hd, hr, hv]

theorem restart_none (v : Variant V) : v.restart = none ↔ ¬ ∃ r, Explicit v r := by
  cases h : v.restart with
  | none =>
    simp only [true_iff]
    rintro ⟨r, hr⟩
    rw [(restart_iff v r).mpr hr] at h
    cases h
  | some r => exact ⟨fun e => (nomatch e), fun e => absurd ⟨r, (restart_iff v r).mp h⟩ e⟩

theorem variantNumbers_length (vs : List (Variant V)) : ∀ cur, (variantNumbers cur vs).length = vs.length := by
  induction vs with
  | nil => intro cur; rfl
  | cons v vs ih => intro cur; simp [variantNumbers, ih]

theorem variantNumbers_get (vs : List (Variant V)) : ∀ (cur i n : Nat), (variantNumbers cur vs)[i]? = some n ↔
    i < vs.length ∧
    ((∃ j v r, j ≤ i ∧ vs[j]? = some v ∧ Explicit v r ∧ n = r + (i - j) ∧
      ∀ k v', j < k → k ≤ i → vs[k]? = some v' → ¬ ∃ r', Explicit v' r') ∨
    ((∀ k v', k ≤ i → vs[k]? = some v' → ¬ ∃ r', Explicit v' r') ∧ n = cur + i)) := by
  induction vs with
  | nil => intro cur i n; simp [variantNumbers]
  | cons v vs ih =>
    intro cur i n
    cases i with
    | zero =>
      simp only [variantNumbers, List.getElem?_cons_zero, Option.some.injEq]
      cases hr : v.restart with
      | none =>
        have hn := (restart_none v).mp hr
        constructor
        · rintro rfl
          refine ⟨by simp, .inr ⟨?_, by simp⟩⟩
          intro k v' hk hv'
          obtain rfl : k = 0 := by omega
          simp only [List.getElem?_cons_zero, Option.some.injEq] at hv'
          rw [← hv']; exact hn
        · rintro ⟨-, ⟨j, v', r, hj, hv', he, -⟩ | ⟨-, h⟩⟩
          · obtain rfl : j = 0 := by omega
            simp only [List.getElem?_cons_zero, Option.some.injEq] at hv'
            subst hv'
            exact absurd ⟨r, he⟩ hn
          · simpa using h.symm
      | some r =>
        have he := (restart_iff v r).mp hr
        constructor
        · rintro rfl
          exact ⟨by simp, .inl ⟨0, v, r, Nat.le_refl _, rfl, he, by simp, fun k _ h1 h2 => by omega⟩⟩
        · rintro ⟨-, ⟨j, v', r', hj, hv', he', h, -⟩ | ⟨h, -⟩⟩
          · obtain rfl : j = 0 := by omega
            simp only [List.getElem?_cons_zero, Option.some.injEq] at hv'
            subst hv'
            rw [(restart_iff v r').mpr he'] at hr
            cases hr
            simpa using h.symm
          · exact absurd ⟨r, he⟩ (h 0 v (Nat.le_refl _) rfl)
    | succ i =>
      simp only [variantNumbers, List.getElem?_cons_succ]
      rw [ih]
      constructor
      · rintro ⟨hl, ⟨j, v', r, hj, hv', he, h, hk⟩ | ⟨hk, h⟩⟩
        · refine ⟨by simpa using hl, .inl ⟨j + 1, v', r, by omega, hv', he, by omega, ?_⟩⟩
          intro k v'' h1 h2 h3
          cases k with
          | zero => omega
          | succ k => exact hk k v'' (by omega) (by omega) h3
        · cases hr : v.restart with
          | none =>
            refine ⟨by simpa using hl, .inr ⟨?_, by rw [hr] at h; simp at h; omega⟩⟩
            intro k v'' h2 h3
            cases k with
            | zero =>
              simp only [List.getElem?_cons_zero, Option.some.injEq] at h3
              rw [← h3]; exact (restart_none v).mp hr
            | succ k => exact hk k v'' (by omega) h3
          | some r =>
            refine ⟨by simpa using hl, .inl ⟨0, v, r, by omega, rfl, (restart_iff v r).mp hr,
              by rw [hr] at h; simp at h; omega, ?_⟩⟩
            intro k v'' h1 h2 h3
            cases k with
            | zero => omega
            | succ k => exact hk k v'' (by omega) h3
      · rintro ⟨hl, ⟨j, v', r, hj, hv', he, h, hk⟩ | ⟨hk, h⟩⟩
        · refine ⟨by simpa using hl, ?_⟩
          cases j with
          | zero =>
            simp only [List.getElem?_cons_zero, Option.some.injEq] at hv'
            subst hv'
            rw [(restart_iff v r).mpr he]
            refine .inr ⟨fun k v'' h2 h3 => hk (k + 1) v'' (by omega) (by omega) h3, ?_⟩
            simp; omega
          | succ j =>
            exact .inl ⟨j, v', r, by omega, hv', he, by omega,
              fun k v'' h1 h2 h3 => hk (k + 1) v'' (by omega) (by omega) h3⟩
        · refine ⟨by simpa using hl, .inr ⟨fun k v'' h2 h3 => hk (k + 1) v'' (by omega) h3, ?_⟩⟩
          rw [(restart_none v).mpr (hk 0 v (by omega) rfl)]
          simp; omega

/-- C44 (numbers): the numbers the generated code uses for the variants. -/
theorem C44_numbers (E : EnumDef V) (i n : Nat) : E.numbers[i]? = some n ↔ HasNumber E.variants i n := by
  unfold EnumDef.numbers HasNumber
  rw [variantNumbers_get]
  simp only [Nat.zero_add]

theorem pat_test_iff (v : Variant V) (num : Nat) (t : Tag) : (v.pat num).test t = true ↔ Accepts v num t := by
  unfold Variant.pat
  cases hd : v.branchDefault with
  | true => simp only [if_true, Pat.test, true_iff]; exact .default hd
  | false =>
    simp only [Bool.false_eq_true, if_false]
    cases hb : v.branchBits with
    | some p =>
      obtain ⟨m, x⟩ := p
      have key : ∀ y, y = x.getD m → ((Pat.bits m y).test t = true ↔ Accepts v num t) := by
        rintro y rfl
        constructor
        · intro h
          cases t with
          | num n => exact .bits hd hb (by simpa [Pat.test] using h)
          | bytes b => simp [Pat.test] at h
        · intro h
          cases h with
          | default h => rw [hd] at h; cases h
          | bits _ h1 h2 => rw [hb] at h1; cases h1; simpa [Pat.test] using h2
          | value _ h1 _ => rw [hb] at h1; cases h1
          | range _ h1 => rw [hb] at h1; cases h1
          | position _ h1 => rw [hb] at h1; cases h1
      cases x <;> exact key _ rfl
    | none =>
      simp only
      cases hv : v.branchValue with
      | some t' =>
        simp only [Pat.test, beq_iff_eq]
        constructor
        · rintro rfl; exact .value hd hb hv
        · intro h
          cases h with
          | default h => rw [hd] at h; cases h
          | bits _ h1 => rw [hb] at h1; cases h1
          | value _ _ h => rw [hv] at h; cases h; rfl
          | range _ _ h1 => rw [hv] at h1; cases h1
          | position _ _ h1 => rw [hv] at h1; cases h1
      | none =>
        simp only
        cases hr : v.branchRange with
        | some r =>
          obtain ⟨lo, hi, incl⟩ := r
          simp only
          constructor
          · intro h
            cases t with
            | bytes b => simp [Pat.test] at h
            | num n =>
              simp only [Pat.test, Bool.and_eq_true, decide_eq_true_eq] at h
              refine .range hd hb hv hr h.1 ?_
              cases incl with
              | true =>
                have h2 : n ≤ hi := by simpa using h.2
                by_cases he : n = hi
                · exact .inr ⟨rfl, he⟩
                · exact .inl (by omega)
              | false => exact .inl (by simpa using h.2)
          · intro h
            cases h with
            | default h => rw [hd] at h; cases h
            | bits _ h1 => rw [hb] at h1; cases h1
            | value _ _ h1 => rw [hv] at h1; cases h1
            | range _ _ _ h1 h2 h3 =>
              rw [hr] at h1
              cases h1
              simp only [Pat.test, Bool.and_eq_true, decide_eq_true_eq]
              refine ⟨h2, ?_⟩
              cases incl with
              | true => simp; omega
              | false =>
                rcases h3 with h3 | ⟨h3, -⟩
                · simpa using h3
                · cases h3
            | position _ _ _ h1 => rw [hr] at h1; cases h1
        | none =>
          simp only [Pat.test, beq_iff_eq]
          constructor
          · rintro rfl; exact .position hd hb hv hr
          · intro h
            cases h with
            | default h => rw [hd] at h; cases h
            | bits _ h1 => rw [hb] at h1; cases h1
            | value _ _ h1 => rw [hv] at h1; cases h1
            | range _ _ _ h1 => rw [hr] at h1; cases h1
            | position => rfl

theorem findArm_some (t : Tag) (l : List (Variant V × Nat)) : ∀ (k i : Nat) (v : Variant V),
    findArm t k l = some (i, v) ↔ ∃ j n, i = k + j ∧ l[j]? = some (v, n) ∧ (v.pat n).test t = true ∧
      ∀ j' v' n', j' < j → l[j']? = some (v', n') → (v'.pat n').test t = false := by
  induction l with
  | nil => intro k i v; simp [findArm]
  | cons p l ih =>
    obtain ⟨v0, n0⟩ := p
    intro k i v
    unfold findArm
    by_cases h : (v0.pat n0).test t = true
    · rw [if_pos h]
      constructor
      · intro e
        simp only [Option.some.injEq, Prod.mk.injEq] at e
        obtain ⟨rfl, rfl⟩ := e
        exact ⟨0, n0, rfl, rfl, h, fun j' _ _ hj => by omega⟩
      · rintro ⟨j, n, rfl, hj, -, hf⟩
        cases j with
        | zero =>
          simp only [List.getElem?_cons_zero, Option.some.injEq, Prod.mk.injEq] at hj
          rw [hj.1]; rfl
        | succ j => rw [hf 0 v0 n0 (by omega) rfl] at h; cases h
    · rw [if_neg h, ih]
      constructor
      · rintro ⟨j, n, rfl, hj, ht, hf⟩
        refine ⟨j + 1, n, by omega, by simpa using hj, ht, ?_⟩
        intro j' v' n' hlt hg
        cases j' with
        | zero =>
          simp only [List.getElem?_cons_zero, Option.some.injEq, Prod.mk.injEq] at hg
          rw [← hg.1, ← hg.2]; simpa using h
        | succ j' => exact hf j' v' n' (by omega) (by simpa using hg)
      · rintro ⟨j, n, rfl, hj, ht, hf⟩
        cases j with
        | zero =>
          simp only [List.getElem?_cons_zero, Option.some.injEq, Prod.mk.injEq] at hj
          rw [← hj.1, ← hj.2] at ht
          exact absurd ht h
        | succ j =>
          exact ⟨j, n, by omega, by simpa using hj, ht, fun j' v' n' hlt hg => hf (j' + 1) v' n' (by omega) (by simpa using hg)⟩

theorem findArm_none (t : Tag) (l : List (Variant V × Nat)) : ∀ (k : Nat),
    findArm t k l = none ↔ ∀ p ∈ l, (p.1.pat p.2).test t = false := by
  induction l with
  | nil => intro k; simp [findArm]
  | cons p l ih =>
    obtain ⟨v0, n0⟩ := p
    intro k
    unfold findArm
    by_cases h : (v0.pat n0).test t = true
    · rw [if_pos h]; simp [h]
    · rw [if_neg h, ih]; simp [h]

/-- Variant `i`, numbered `n`, is `v`. -/
def EnumDef.IsVariant (E : EnumDef V) (i : Nat) (v : Variant V) (n : Nat) : Prop :=
  E.variants[i]? = some v ∧ HasNumber E.variants i n

/-- Specification: variant `i` is the first one that accepts tag `t`. -/
def EnumDef.Selects (E : EnumDef V) (t : Tag) (i : Nat) (v : Variant V) : Prop :=
  (∃ n, E.IsVariant i v n ∧ Accepts v n t) ∧
  ∀ j v' n', j < i → E.IsVariant j v' n' → ¬ Accepts v' n' t

theorem zip_get (E : EnumDef V) (i : Nat) (v : Variant V) (n : Nat) :
    (E.variants.zip E.numbers)[i]? = some (v, n) ↔ E.IsVariant i v n := by
  rw [List.getElem?_zip_eq_some, C44_numbers]
  rfl

theorem findArm_selects (E : EnumDef V) (t : Tag) (i : Nat) (v : Variant V) :
    findArm t 0 (E.variants.zip E.numbers) = some (i, v) ↔ E.Selects t i v := by
  rw [findArm_some]
  unfold EnumDef.Selects
  simp only [Nat.zero_add, zip_get, pat_test_iff]
  constructor
  · rintro ⟨j, n, rfl, h1, h2, h3⟩
    exact ⟨⟨n, h1, h2⟩, fun j' v' n' h4 h5 h6 => by
      have := h3 j' v' n' h4 h5
      rw [(pat_test_iff v' n' t).mpr h6] at this; cases this⟩
  · rintro ⟨⟨n, h1, h2⟩, h3⟩
    exact ⟨i, n, rfl, h1, h2, fun j' v' n' h4 h5 => by
      have := h3 j' v' n' h4 h5
      rw [← pat_test_iff] at this
      simpa using this⟩

theorem findArm_rejects (E : EnumDef V) (t : Tag) :
    findArm t 0 (E.variants.zip E.numbers) = none ↔ ∀ i v n, E.IsVariant i v n → ¬ Accepts v n t := by
  rw [findArm_none]
  constructor
  · intro h i v n hv ha
    have := h (v, n) (List.mem_of_getElem? ((zip_get E i v n).mpr hv))
    simp only at this
    rw [(pat_test_iff v n t).mpr ha] at this
    cases this
  · intro h p hp
    obtain ⟨i, hi⟩ := List.mem_iff_getElem?.mp hp
    have := h i p.1 p.2 ((zip_get E i p.1 p.2).mp hi)
    rw [← pat_test_iff] at this
    simpa using this

/-- The fields of the selected variant, after its own modifiers and offset. -/
def variantFields (E : EnumDef V) (ca : Option CAttr) (v : Variant V) : M (List V) := do
  let fa ← v.attrs.toCode { vars := localVars E.getVars ca }
  skipOffset v.attrs { vars := localVars E.getVars ca }
  decFields v.tuple v.fields E.container fa { vars := localVars E.getVars ca }

theorem decVariant_eq (E : EnumDef V) (ca : Option CAttr) (i : Nat) (v : Variant V) (b : Buf) :
    decVariant E.container { vars := localVars E.getVars ca } i v b = mapM' (fun vs => (i, vs)) (variantFields E ca v) b := by
  simp only [decVariant, variantFields, mapM'_apply, bind_apply]
  rcases v.attrs.toCode { vars := localVars E.getVars ca } b with ⟨o, b1⟩
  cases o with
  | ok fa =>
    simp only
    rcases skipOffset v.attrs { vars := localVars E.getVars ca } b1 with ⟨o2, b2⟩
    cases o2 with
    | ok u =>
      simp only
      rcases decFields v.tuple v.fields E.container fa { vars := localVars E.getVars ca } b2 with ⟨o3, b3⟩
      cases o3 <;> rfl
    | _ => rfl
  | _ => rfl

/-- How the tag of an enum that is not matched by words is obtained (specification): integers, or `n` bytes. -/
def EnumDef.tagOf (E : EnumDef V) (ca : Option CAttr) (fa : Option FAttr) : M Tag :=
  match E.mode with
  | .takeBytes n => mapM' Tag.bytes (takeBytes n)
  | _ => mapM' Tag.num (decTag E.container ca fa)

/-- C44 (dispatch): once the tag is `t`, decoding continues with the first variant that accepts `t` and returns that
variant; if no variant accepts `t` it fails with `InvalidByteLength` right after the tag; an error in the tag is the
error of the enum. -/
theorem C44_dispatch (E : EnumDef V) (hw : E.withDecode = none) (hm : ∀ u, E.mode ≠ .startsWith u)
    (ca : Option CAttr) (fa : Option FAttr) (b : Buf) :
    (∀ t b1 i v, E.tagOf ca fa b = (.ok t, b1) → E.Selects t i v →
      decEnum E ca fa b = mapM' (fun vs => (i, vs)) (variantFields E ca v) b1) ∧
    (∀ t b1, E.tagOf ca fa b = (.ok t, b1) → (∀ i v n, E.IsVariant i v n → ¬ Accepts v n t) →
      decEnum E ca fa b = (.err ⟨b1.pos, .invalidByteLength⟩, b1)) ∧
    (∀ e b1, E.tagOf ca fa b = (.err e, b1) → decEnum E ca fa b = (.err e, b1)) := by
  have key : ∀ b, decEnum E ca fa b = (E.tagOf ca fa >>= fun t => decArm E { vars := localVars E.getVars ca } t) b := by
    intro b
    unfold EnumDef.tagOf
    cases hmo : E.mode with
    | startsWith u => exact absurd hmo (hm u)
    | takeBytes n =>
      simp only [decEnum, hw, hmo, bind_apply, mapM'_apply]
      rcases takeBytes n b with ⟨o, b1⟩
      cases o <;> rfl
    | uint =>
      simp only [decEnum, hw, hmo, bind_apply, mapM'_apply]
      rcases decTag E.container ca fa b with ⟨o, b1⟩
      cases o <;> rfl
  refine ⟨?_, ?_, ?_⟩
  · intro t b1 i v ht hs
    rw [key, bind_apply, ht]
    simp only [decArm, (findArm_selects E t i v).mpr hs]
    exact decVariant_eq E ca i v b1
  · intro t b1 ht hs
    rw [key, bind_apply, ht]
    simp only [decArm, (findArm_rejects E t).mpr hs]
    rfl
  · intro e b1 ht
    rw [key, bind_apply, ht]

/-- C44 (tag): the tag is `branch` if given (nothing is read); otherwise an integer of the width given on the field,
else on the container, else one byte, in the byte order of the surrounding modifiers. -/
theorem C44_tag (own ca : Option CAttr) (fa : Option FAttr) (b : Buf) :
    (∀ n, fa.bind (·.branch) = some n → decTag own ca fa b = (.ok n, b)) ∧
    (fa.bind (·.branch) = none →
      (∀ k, (fa.bind (·.byteCount)).or (own.bind (·.byteCount)) = some k →
        decTag own ca fa b = takeUint k (effectiveOrder ca fa) b) ∧
      ((fa.bind (·.byteCount)).or (own.bind (·.byteCount)) = none →
        decTag own ca fa b = mapM' UInt8.toNat takeU8 b)) := by
  rw [← getByteorder_eq]
  have u8 : (takeU8 >>= fun x => (Pure.pure x.toNat : M Nat)) b = mapM' UInt8.toNat takeU8 b := by
    rw [bind_apply, mapM'_apply]
    rcases takeU8 b with ⟨o, b1⟩
    cases o <;> rfl
  unfold decTag
  cases fa with
  | none =>
    simp only [Option.bind_none, Option.none_or, reduceCtorEq, false_implies, implies_true, true_and, true_implies]
    cases ho : own.bind (·.byteCount) with
    | none => simp only [reduceCtorEq, false_implies, implies_true, true_and, true_implies]; exact u8
    | some k => simp
  | some fr =>
    simp only [Option.bind_some]
    cases hb : fr.branch with
    | some n => simp [pure_apply]
    | none =>
      simp only [reduceCtorEq, false_implies, implies_true, true_and, true_implies]
      cases hc : fr.byteCount with
      | some k => simp
      | none =>
        simp only [Option.none_or]
        cases ho : own.bind (·.byteCount) with
        | none => simp only [reduceCtorEq, false_implies, implies_true, true_and, true_implies]; exact u8
        | some k => simp

/-! ### Enums matched by words -/

/-- Specification: the word of a variant is its branch value, or its name (lower case) if it has none. -/
def tagWord (v : Variant V) : List Byte :=
  match v.branchValue with
  | some (.bytes x) => x
  | some (.num _) => v.name
  | none => v.name

theorem word_eq (v : Variant V) : v.word = tagWord v := by
  unfold Variant.word tagWord
  cases v.branchValue with
  | none => rfl
  | some t => cases t <;> rfl

/-- Specification: variant `i` is the first that is a default or whose word begins `data`. -/
def EnumDef.SelectsWord (E : EnumDef V) (data : List Byte) (i : Nat) (v : Variant V) : Prop :=
  E.variants[i]? = some v ∧ (v.branchDefault = true ∨ ∃ rest, data = tagWord v ++ rest) ∧
  ∀ j v', j < i → E.variants[j]? = some v' → v'.branchDefault = false ∧ ¬ ∃ rest, data = tagWord v' ++ rest

theorem word_iff (v : Variant V) (data : List Byte) :
    (v.branchDefault || v.word.isPrefixOf data) = true ↔ v.branchDefault = true ∨ ∃ rest, data = tagWord v ++ rest := by
  rw [word_eq]
  simp only [Bool.or_eq_true, List.isPrefixOf_iff_prefix]
  constructor
  · rintro (h | ⟨t, h⟩)
    · exact .inl h
    · exact .inr ⟨t, h.symm⟩
  · rintro (h | ⟨t, h⟩)
    · exact .inl h
    · exact .inr ⟨t, h.symm⟩

theorem findWord_some (data : List Byte) (l : List (Variant V)) : ∀ (k i : Nat) (v : Variant V),
    findWord data k l = some (i, v) ↔ ∃ j, i = k + j ∧ l[j]? = some v ∧
      (v.branchDefault || v.word.isPrefixOf data) = true ∧
      ∀ j' v', j' < j → l[j']? = some v' → (v'.branchDefault || v'.word.isPrefixOf data) = false := by
  induction l with
  | nil => intro k i v; simp [findWord]
  | cons v0 l ih =>
    intro k i v
    unfold findWord
    by_cases h : (v0.branchDefault || v0.word.isPrefixOf data) = true
    · rw [if_pos h]
      constructor
      · intro e
        simp only [Option.some.injEq, Prod.mk.injEq] at e
        obtain ⟨rfl, rfl⟩ := e
        exact ⟨0, rfl, rfl, h, fun j' _ hj => by omega⟩
      · rintro ⟨j, rfl, hj, -, hf⟩
        cases j with
        | zero =>
          simp only [List.getElem?_cons_zero, Option.some.injEq] at hj
          rw [hj]; rfl
        | succ j => rw [hf 0 v0 (by omega) rfl] at h; cases h
    · rw [if_neg h, ih]
      constructor
      · rintro ⟨j, rfl, hj, ht, hf⟩
        refine ⟨j + 1, by omega, by simpa using hj, ht, ?_⟩
        intro j' v' hlt hg
        cases j' with
        | zero =>
          simp only [List.getElem?_cons_zero, Option.some.injEq] at hg
          rw [← hg]; exact Bool.eq_false_iff.mpr h
        | succ j' => exact hf j' v' (by omega) (by simpa using hg)
      · rintro ⟨j, rfl, hj, ht, hf⟩
        cases j with
        | zero =>
          simp only [List.getElem?_cons_zero, Option.some.injEq] at hj
          rw [← hj] at ht
          exact absurd ht h
        | succ j =>
          exact ⟨j, by omega, by simpa using hj, ht, fun j' v' hlt hg => hf (j' + 1) v' (by omega) (by simpa using hg)⟩

theorem findWord_selects (E : EnumDef V) (data : List Byte) (i : Nat) (v : Variant V) :
    findWord data 0 E.variants = some (i, v) ↔ E.SelectsWord data i v := by
  rw [findWord_some]
  unfold EnumDef.SelectsWord
  constructor
  · rintro ⟨j, rfl, h1, h2, h3⟩
    rw [Nat.zero_add]
    refine ⟨h1, (word_iff v data).mp h2, fun j' v' h4 h5 => ?_⟩
    have h6 := h3 j' v' h4 h5
    have h7 : ¬ (v'.branchDefault = true ∨ ∃ rest, data = tagWord v' ++ rest) := by
      rw [← word_iff, h6]; simp
    rw [not_or] at h7
    exact ⟨by simpa using h7.1, h7.2⟩
  · rintro ⟨h1, h2, h3⟩
    refine ⟨i, by omega, h1, (word_iff v data).mpr h2, fun j' v' h4 h5 => ?_⟩
    obtain ⟨h6, h7⟩ := h3 j' v' h4 h5
    rw [← Bool.not_eq_true, word_iff, h6]
    simp only [Bool.false_eq_true, false_or]
    exact h7

/-- C44 (words): under `branch_starts_with` the first variant that is a default or whose word begins the rest of the
input is selected; its word is consumed, except for a default and under `_untake`; if there is none decoding fails
with `Fail` and consumes nothing. -/
theorem C44_words (E : EnumDef V) (hw : E.withDecode = none) (u : Bool) (hm : E.mode = .startsWith u)
    (ca : Option CAttr) (fa : Option FAttr) (b : Buf) (hb : b.Ok) :
    (∀ i v, E.SelectsWord (b.data.drop b.pos) i v →
      decEnum E ca fa b = mapM' (fun vs => (i, vs)) (variantFields E ca v)
        ⟨b.data, b.pos + if u || v.branchDefault then 0 else (tagWord v).length⟩) ∧
    ((∀ i v, ¬ E.SelectsWord (b.data.drop b.pos) i v) → decEnum E ca fa b = (.err ⟨b.pos, .fail⟩, b)) := by
  have hrem : remaining b = (.ok (b.data.drop b.pos), b) := by
    have := hb.1
    unfold remaining
    rw [if_pos this]
  refine ⟨?_, ?_⟩
  · intro i v hs
    have hf := (findWord_selects E _ i v).mpr hs
    simp only [decEnum, hw, hm, bind_apply, hrem, hf]
    cases hc : (u || v.branchDefault) with
    | true =>
      rw [if_pos rfl, decVariant_eq]
      rfl
    | false =>
      simp only [Bool.false_eq_true, if_false, bind_apply, advance_apply, word_eq]
      have hpre : ∃ rest, b.data.drop b.pos = tagWord v ++ rest := by
        rcases hs.2.1 with h | h
        · simp [h] at hc
        · exact h
      obtain ⟨rest, hr⟩ := hpre
      have hl := congrArg List.length hr
      simp only [List.length_drop, List.length_append] at hl
      have := isizeMax_lt
      have h1 := hb.1
      have h2 := hb.2
      rw [wadd_eq (by omega), decVariant_eq]
  · intro h
    have hf : findWord (b.data.drop b.pos) 0 E.variants = none := by
      cases hf : findWord (b.data.drop b.pos) 0 E.variants with
      | none => rfl
      | some p => exact absurd ((findWord_selects E _ p.1 p.2).mp hf) (h _ _)
    simp only [decEnum, hw, hm, bind_apply, hrem, hf]
    rfl

/-! ## C45: round trip -/

/-- Specification: the tag the decoder gets and the bytes that carry it, for variant `v` numbered `num`, when the
tag survives.  Excluded are tags that do not fit their width, enums whose width on the field differs from the one on
the container, and `byte_count_disable` without `branch`. -/
inductive TagWire (E : EnumDef V) (v : Variant V) (num : Nat) (ca : Option CAttr) (fa : Option FAttr) :
    Tag → List Byte → Prop
  | branch {n : Nat} : E.mode = .uint → fa.bind (·.branch) = some n → TagWire E v num ca fa (.num n) []
  | width {k : Nat} : E.mode = .uint → fa.bind (·.branch) = none →
      (fa.bind (·.byteCount)).or (E.container.bind (·.byteCount)) = some k →
      (E.container.bind (·.byteCount)).or (fa.bind (·.byteCount)) = some k → k ≤ 8 → num < 256 ^ k →
      TagWire E v num ca fa (.num num) (toBytes (effectiveOrder ca fa) k num)
  | byte : E.mode = .uint → fa.bind (·.branch) = none → fa.bind (·.byteCount) = none →
      E.container.bind (·.byteCount) = none → E.byteCountDisable = false → num < 256 →
      TagWire E v num ca fa (.num num) [UInt8.ofNat num]
  | bytes {n : Nat} : E.mode = .takeBytes n → (tagWord v).length = n → TagWire E v num ca fa (.bytes (tagWord v)) (tagWord v)

theorem TagWire.writes {E : EnumDef V} {v : Variant V} {num : Nat} {ca : Option CAttr} {fa : Option FAttr} {t : Tag}
    {w : List Byte} (h : TagWire E v num ca fa t w) : Writes (encTagMode E v num ca fa) w := by
  cases h with
  | branch hm hb =>
    cases fa with
    | none => cases hb
    | some fr =>
      simp only [Option.bind_some] at hb
      simp only [encTagMode, hm, encTag, hb]
      exact Appends.pure0.writes
  | @width k hm hb h1 h2 hk _ =>
    have e : encTagMode E v num ca fa = pushUint num k (effectiveOrder ca fa) := by
      rw [← getByteorder_eq]
      simp only [encTagMode, hm, encTag]
      cases fa with
      | none =>
        simp only [Option.bind_none, Option.or_none] at h2
        simp only [h2]
      | some fr =>
        simp only [Option.bind_some] at hb h2
        simp only [hb]
        cases ho : E.container.bind (·.byteCount) with
        | some k' => rw [ho] at h2; simp only [Option.some_or, Option.some.injEq] at h2; rw [h2]
        | none => rw [ho] at h2; simp only [Option.none_or] at h2; simp only [h2]
    rw [e]
    exact (Appends.uint _ _ _ hk).writes
  | byte hm hb h1 h2 hd _ =>
    have e : encTagMode E v num ca fa = pushU8 (UInt8.ofNat num) := by
      simp only [encTagMode, hm, encTag]
      cases fa with
      | none => simp [h2, encTagByte, hd]
      | some fr =>
        simp only [Option.bind_some] at hb h1
        simp [hb, h1, h2, encTagByte, hd]
    rw [e]
    exact (Appends.push [UInt8.ofNat num]).writes
  | bytes hm _ =>
    simp only [encTagMode, hm, word_eq]
    exact (Appends.push _).writes

theorem TagWire.reads {E : EnumDef V} {v : Variant V} {num : Nat} {ca ca' : Option CAttr} {fa : Option FAttr} {t : Tag}
    {w : List Byte} (h : TagWire E v num ca fa t w) (ho : effectiveOrder ca' fa = effectiveOrder ca fa)
    (suf : List Byte) : Reads (E.tagOf ca' fa) t w suf := by
  cases h with
  | @branch n hm hb =>
    intro pre _
    simp only [EnumDef.tagOf, hm, mapM'_apply, (C44_tag E.container ca' fa _).1 _ hb]
    rfl
  | @width k hm hb h1 _ hk hn =>
    intro pre hp
    have r := Reads.uint (effectiveOrder ca fa) k num suf hk hn pre hp
    simp only [EnumDef.tagOf, hm, mapM'_apply, ((C44_tag E.container ca' fa _).2 hb).1 k h1, ho, r]
  | byte hm hb h1 h2 _ hn =>
    intro pre hp
    have r := Reads.u8 (UInt8.ofNat num) suf pre hp
    have e := ((C44_tag E.container ca' fa ⟨pre ++ ([UInt8.ofNat num] ++ suf), pre.length⟩).2 hb).2 (by rw [h1, h2]; rfl)
    simp only [EnumDef.tagOf, hm, mapM'_apply, e, r]
    rw [UInt8.toNat_ofNat', Nat.mod_eq_of_lt (by omega)]
  | @bytes n hm hl =>
    intro pre hp
    have r := Reads.bytes (tagWord v) suf pre hp
    rw [hl] at r
    simp only [EnumDef.tagOf, hm, mapM'_apply, r, hl]

/-- The body of a variant round trips: its fields do (with nothing leaking into them), after `gap` filler bytes. -/
structure BodyRT (E : EnumDef V) (v : Variant V) (ee ed : Env V) (vs : List V) (w suf : List Byte) : Prop where
  order : OrderOk v.attrs ee
  order' : OrderOk v.attrs ed
  noLeak : NoLeak (ownModifiers v.attrs ee) v.fields
  noLeak' : NoLeak (ownModifiers v.attrs ed) v.fields
  sameGap : gap v.attrs ed = gap v.attrs ee
  fields : Segments E.container v.fields E.container ee ed vs w suf

theorem BodyRT.writes {E : EnumDef V} {v : Variant V} {env ed : Env V} {vs : List V} {w suf : List Byte}
    (h : BodyRT E v env ed vs w suf) : Writes (do
      padOffset v.attrs env
      encFields true v.fields E.container (ownModifiers v.attrs env) env vs)
      (List.replicate (gap v.attrs env) v.attrs.full ++ w) := by
  intro pre hp
  simp only [List.length_append, List.length_replicate] at hp
  obtain ⟨n, e⟩ := h.fields.roundtrip.writes (pre ++ List.replicate (gap v.attrs env) v.attrs.full)
    (by simp only [List.length_append, List.length_replicate]; omega)
  simp only [List.length_append, List.length_replicate] at e
  refine ⟨n, ?_⟩
  rw [bind_apply, padOffset_end _ _ _ (by omega)]
  simp only [encFields_noLeak _ _ _ _ _ _ h.noLeak, e, List.append_assoc, List.length_append, List.length_replicate,
    Nat.add_assoc]

theorem skipOffset_run (a : FieldAttrs V) (env : Env V) (b : Buf) (h : b.pos + gap a env < usizeMod) :
    skipOffset a env b = (.ok (), ⟨b.data, b.pos + gap a env⟩) := by
  unfold skipOffset gap at *
  cases ho : a.offset with
  | none => simp [pure_apply]
  | some e =>
    rw [ho] at h
    simp only [Option.map_some, Option.getD_some] at h
    simp only [advance_apply, Option.map_some, Option.getD_some, wadd_eq h]

theorem BodyRT.reads {E : EnumDef V} {v : Variant V} {ee : Env V} {ca : Option CAttr} {vs : List V} {w suf : List Byte}
    (h : BodyRT E v ee { vars := localVars E.getVars ca } vs w suf) : Reads (variantFields E ca v) vs
      (List.replicate (gap v.attrs { vars := localVars E.getVars ca }) v.attrs.full ++ w) suf := by
  intro pre hp
  simp only [List.length_append, List.length_replicate] at hp
  have r := h.fields.roundtrip.reads (pre ++ List.replicate (gap v.attrs { vars := localVars E.getVars ca }) v.attrs.full)
    (by simp only [List.length_append, List.length_replicate]; omega)
  simp only [List.length_append, List.length_replicate, List.append_assoc] at r
  have := isizeMax_lt
  rw [variantFields, bind_apply, toCode_ok _ _ h.order']
  simp only
  rw [bind_apply, skipOffset_run _ _ _ (by simp only; omega)]
  simp only [List.append_assoc, List.length_append, List.length_replicate]
  have e : ∀ b, decFields v.tuple v.fields E.container (ownModifiers v.attrs { vars := localVars E.getVars ca })
      { vars := localVars E.getVars ca } b = decFields false v.fields E.container none { vars := localVars E.getVars ca } b := by
    intro b
    cases v.tuple with
    | true => exact decFields_noLeak _ _ _ _ _ h.noLeak'
    | false => rw [decFields_old]
  rw [e, r, Nat.add_assoc]

theorem encVariant_writes {E : EnumDef V} {v : Variant V} {num : Nat} {ca : Option CAttr} {fa : Option FAttr}
    {vs : List V} {tw w suf : List Byte} {i : Nat} {ed : Env V} (hv : E.IsVariant i v num)
    (ht : Writes (encTagMode E v num ca fa) tw) (hb : BodyRT E v { vars := localVars E.getVars ca } ed vs w suf) :
    Writes (encEnum E (i, vs) ca fa)
      (tw ++ (List.replicate (gap v.attrs { vars := localVars E.getVars ca }) v.attrs.full ++ w)) := by
  refine (ht.seq hb.writes).congr fun b => ?_
  have e : encEnum E (i, vs) ca fa = encVariant E v num vs ca fa := by
    simp only [encEnum, (zip_get E i v num).mpr hv]
  rw [e, encVariant, bind_apply, toCode_ok _ _ hb.order]
  simp only [bind_apply]
  rcases encTagMode E v num ca fa b with ⟨o, b1⟩
  cases o with
  | ok n =>
    simp only
    rcases padOffset v.attrs { vars := localVars E.getVars ca } b1 with ⟨o2, b2⟩
    cases o2 <;> rfl
  | _ => rfl

/-- C45, the part that holds: a value of a derived enum round trips if its tag survives (`TagWire`), its variant is
the first to accept that tag, nothing leaks between its fields and each of them round trips; the image is the tag, the
filler bytes and the images of the fields.  Missing from the full
statement: enums and values for which one of these fails (`C45_violated`, `C46_violated`). -/
theorem C45_enum_roundtrip_partial (E : EnumDef V) (hw : E.withDecode = none) (ca ca' : Option CAttr)
    (fa : Option FAttr) (i : Nat) (v : Variant V) (num : Nat) (t : Tag) (vs : List V) (tw w suf : List Byte)
    (hm : ∀ u, E.mode ≠ .startsWith u) (hv : E.IsVariant i v num) (ht : TagWire E v num ca fa t tw)
    (hs : E.Selects t i v) (ho : effectiveOrder ca' fa = effectiveOrder ca fa)
    (hb : BodyRT E v { vars := localVars E.getVars ca } { vars := localVars E.getVars ca' } vs w suf) :
    ∃ w', w' = tw ++ (List.replicate (gap v.attrs { vars := localVars E.getVars ca }) v.attrs.full ++ w) ∧
      Writes (encEnum E (i, vs) ca fa) w' ∧ Reads (decEnum E ca' fa) (i, vs) w' suf := by
  refine ⟨_, rfl, encVariant_writes hv ht.writes hb, ?_⟩
  intro pre hp
  simp only [List.length_append] at hp
  have r := ht.reads (ca' := ca') ho
    (List.replicate (gap v.attrs { vars := localVars E.getVars ca }) v.attrs.full ++ w ++ suf) pre (by
      simp only [List.length_append]; omega)
  have d := (C44_dispatch E hw hm ca' fa _).1 _ _ i v r hs
  have rb := hb.reads
  rw [hb.sameGap] at rb
  have rb := rb (pre ++ tw) (by simp only [List.length_append] at hp ⊢; omega)
  simp only [List.append_assoc, List.length_append] at rb d ⊢
  rw [d, mapM'_apply, rb]
  simp only [Nat.add_assoc]

/-- C45 (words), the part that holds: under `branch_starts_with` a value of a non-default variant round trips if its
variant is the first whose word begins the encoding (with what follows). -/
theorem C45_words_roundtrip_partial (E : EnumDef V) (hw : E.withDecode = none) (ca ca' : Option CAttr)
    (fa : Option FAttr) (i : Nat) (v : Variant V) (num : Nat) (vs : List V) (w suf : List Byte) (u : Bool)
    (hm : E.mode = .startsWith u) (hv : E.IsVariant i v num) (hd : u = true ∨ v.branchDefault = false)
    (hs : E.SelectsWord ((if u then [] else tagWord v) ++
      (List.replicate (gap v.attrs { vars := localVars E.getVars ca }) v.attrs.full ++ w) ++ suf) i v)
    (hb : BodyRT E v { vars := localVars E.getVars ca } { vars := localVars E.getVars ca' } vs w suf) :
    ∃ w', w' = (if u then [] else tagWord v) ++
        (List.replicate (gap v.attrs { vars := localVars E.getVars ca }) v.attrs.full ++ w) ∧
      Writes (encEnum E (i, vs) ca fa) w' ∧ Reads (decEnum E ca' fa) (i, vs) w' suf := by
  have ht : Writes (encTagMode E v num ca fa) (if u then [] else tagWord v) := by
    cases u with
    | true => simp only [encTagMode, hm]; exact Appends.pure0.writes
    | false => simp only [encTagMode, hm, word_eq]; exact (Appends.push _).writes
  refine ⟨_, rfl, encVariant_writes hv ht hb, ?_⟩
  intro pre hp
  have hok := ok_of_size hp
  have d := (C44_words E hw u hm ca' fa _ hok).1 i v (by simpa using hs)
  have hskip : (if (u || v.branchDefault) = true then 0 else (tagWord v).length) = (if u then [] else tagWord v).length := by
    rcases hd with rfl | h
    · simp
    · cases u <;> simp [h]
  rw [hskip] at d
  simp only [List.length_append] at hp
  have rb := hb.reads
  rw [hb.sameGap] at rb
  have rb := rb (pre ++ (if u then [] else tagWord v)) (by
    simp only [List.length_append] at hp ⊢; omega)
  simp only [List.append_assoc, List.length_append] at rb d ⊢
  rw [d, mapM'_apply, rb]
  simp only [Nat.add_assoc]

/-- `#[byte_count = 2] enum { A(u8), #[branch_value = 7] B { #[length = 1] x: u16, .. }, #[branch_range = "9..=300"] C }`. -/
def sampleEnum : EnumDef Val :=
  { container := some { byteCount := some 2 }
    variants := [
      { name := [97], tuple := true, fields := [u8Field {}] },
      { name := [98], branchValue := some (.num 7)
        fields := [u16Field { isUse := true, length := some fun _ => 1 },
          u8Field { isUse := true, offset := some fun _ => 1 }] },
      { name := [99], branchRange := some (9, 300, true) }] }

example : sampleEnum.numbers = [0, 7, 300] := by decide +kernel

/-- A tag in the range selects the third variant. -/
example : decEnum sampleEnum none none ⟨[1, 0, 55], 0⟩ = (.ok (2, []), ⟨[1, 0, 55], 2⟩) := by decide +kernel
example : decEnum sampleEnum none none ⟨[0, 8, 55], 0⟩ = (.err ⟨2, .invalidByteLength⟩, ⟨[0, 8, 55], 2⟩) := by
  decide +kernel

theorem sample_isVariant : sampleEnum.IsVariant 1 (sampleEnum.variants[1]) 7 := by
  refine ⟨rfl, by simp [sampleEnum], .inl ⟨1, _, 7, Nat.le_refl _, rfl, .value rfl rfl rfl, rfl, ?_⟩⟩
  intro k v h1 h2
  omega

theorem sample_selects : sampleEnum.Selects (.num 7) 1 (sampleEnum.variants[1]) := by
  refine ⟨⟨7, sample_isVariant, .value rfl rfl rfl⟩, ?_⟩
  intro j v n hj hv ha
  obtain rfl : j = 0 := by omega
  obtain ⟨h1, h2⟩ := hv
  have hv : v = sampleEnum.variants[0] := by
    rw [show sampleEnum.variants[0]? = some sampleEnum.variants[0] from rfl] at h1
    exact (Option.some.inj h1).symm
  subst hv
  have hn : n = 0 := by
    rw [← C44_numbers] at h2
    rw [show sampleEnum.numbers[0]? = some 0 by decide +kernel] at h2
    exact (Option.some.inj h2).symm
  subst hn
  cases ha with
  | default h => cases h
  | bits _ h => cases h
  | value _ _ h => cases h
  | range _ _ _ h => cases h

/-- Every value of the second variant whose first field fits one byte round trips, whatever follows. -/
example (x y : Nat) (hx : x < 256) (hy : y < 256) (suf : List Byte) :
    ∃ w, Writes (encEnum sampleEnum (1, [.num x, .num y]) none none) w ∧
      Reads (decEnum sampleEnum none none) (1, [.num x, .num y]) w suf := by
  have o : OrderOk (sampleEnum.variants[1]).attrs (V := Val) { vars := localVars [] none } := by intro e h; cases h
  refine Exists.imp (fun _ h => h.2) <| C45_enum_roundtrip_partial sampleEnum rfl none none none 1 (sampleEnum.variants[1]) 7 (.num 7)
    [.num x, .num y] _ (toBytes .be 1 x ++ ((List.replicate 1 0 ++ toBytes .be 1 y) ++ [])) suf
    (by intro u h; cases h) sample_isVariant (.width (k := 2) rfl rfl rfl rfl (by decide) (by decide)) sample_selects rfl
    ⟨o, o, ⟨?_, .inl rfl⟩, ⟨?_, .inl rfl⟩, rfl, ?_⟩
  · simp [sampleEnum, u16Field, u8Field]
  · simp [sampleEnum, u16Field, u8Field]
  · refine Segments.cons (fs := [(sampleEnum.variants[1]).fields[0]]) (vs := [.num x]) (C43_field_segment ?_)
      (Segments.cons (fs := [(sampleEnum.variants[1]).fields[1]]) (vs := [.num y]) (C43_field_segment ?_)
        (Segments.nil _ _ _ _))
    · have e := (((C19_byteorder sampleEnum.container (some { length := some 1 }) _ rfl).2.1 ⟨2, false⟩ x 1 rfl rfl (by decide)))
      refine C43_field_plain _ _ _ _ _ _ _ _ ⟨rfl, rfl, rfl, rfl, rfl, rfl⟩ rfl (by intro e h; cases h)
        (by intro e h; cases h) rfl ?_
        (fun _ => Reads.mapped (f := Val.num) (a := x) ?_) (by intro c h; cases h) rfl (by intro c h; cases h)
      · show Writes (encInt ⟨2, false⟩ x sampleEnum.container (some { length := some 1 })) _
        rw [e.2, show asU64 ⟨2, false⟩ x = x from Nat.mod_eq_of_lt (Nat.lt_trans hx (by decide))]
        exact (Appends.uint x 1 .be (by decide)).writes
      · show Reads (decInt ⟨2, false⟩ sampleEnum.container (some { length := some 1 })) _ _ _
        rw [e.1]
        have := (Reads.uint .be 1 x (List.replicate 1 0 ++ toBytes .be 1 y ++ [] ++ suf) (by decide) hx).map (fromU64 ⟨2, false⟩)
        rw [fromU64_eq, Nat.mod_eq_of_lt (by show x < 65536; omega)] at this
        exact this
    · exact C43_field_plain _ _ _ _ _ _ _ _ ⟨rfl, rfl, rfl, rfl, rfl, rfl⟩ rfl (by intro e h; cases h)
        (by intro e h; cases h) rfl
        (int_writes ⟨1, false⟩ (.mk _ _ (by decide)) y sampleEnum.container (some {}) rfl rfl)
        (fun _ => (int_reads ⟨1, false⟩ (.mk _ _ (by decide)) y sampleEnum.container (some {}) _ rfl rfl hy).mapped Val.num)
        (by intro c h; cases h) rfl (by intro c h; cases h)

/-- What an enum's encoder writes into an empty buffer, and what its decoder makes of it (and the final position). -/
def enumBackAndForth (E : EnumDef V) (x : Nat × List V) (fa : Option FAttr) :
    List Byte × Out (Nat × List V) × Nat :=
  let b := (encEnum E x none fa ⟨[], 0⟩).2
  let r := decEnum E none fa ⟨b.data, 0⟩
  (b.data, r.1, r.2.pos)

/-- C45 is violated by enums that compile:
1. a variant number above 255 is cut to one byte (`A = 300`),
2. the container's width wins when encoding, the field's when decoding,
3. `byte_count_disable` writes no tag but one is read,
4. the number written for a `branch_bits` variant need not pass its own bit test,
5. the number written for an exclusive range is its end, which is outside,
6. with a discriminant and a branch value, one is written and the other expected,
7. under `branch_starts_with` a default variant's name is written but not consumed,
8. under `branch_take_bytes` a default variant's name is written whatever its length. -/
theorem C45_violated :
    enumBackAndForth { variants := [{ disc := some 44 }, { disc := some 300 }] } (1, ([] : List Val)) none
      = ([44], .ok (0, []), 1) ∧
    enumBackAndForth { container := some { byteCount := some 2 }, variants := [{}, {}] } (1, ([] : List Val))
      (some { byteCount := some 1 }) = ([0, 1], .ok (0, []), 1) ∧
    enumBackAndForth { byteCountDisable := true, variants := [{}, {}] } (1, ([] : List Val)) none
      = ([], .err ⟨0, .invalidByteLength⟩, 0) ∧
    enumBackAndForth { variants := [{}, { branchBits := some (0x80, none) }] } (1, ([] : List Val)) none
      = ([1], .err ⟨1, .invalidByteLength⟩, 1) ∧
    enumBackAndForth { variants := [{}, { branchRange := some (2, 5, false) }] } (1, ([] : List Val)) none
      = ([5], .err ⟨1, .invalidByteLength⟩, 1) ∧
    enumBackAndForth { variants := [{ disc := some 1, branchValue := some (.num 2) }] } (0, ([] : List Val)) none
      = ([1], .err ⟨1, .invalidByteLength⟩, 1) ∧
    enumBackAndForth { mode := .startsWith false, variants := [{ branchValue := some (.bytes [82]) },
        { name := [117], branchDefault := true, fields := [u8Field {}] }] } (1, [.num 9]) none
      = ([117, 9], .ok (1, [.num 117]), 1) ∧
    enumBackAndForth { mode := .takeBytes 1, variants := [{ branchValue := some (.bytes [82]) },
        { name := [117, 110], branchDefault := true, fields := [u8Field {}] }] } (1, [.num 9]) none
      = ([117, 110, 9], .ok (1, [.num 110]), 2) := by
  refine ⟨?_, ?_, ?_, ?_, ?_, ?_, ?_, ?_⟩ <;> decide +kernel

/-! ## C46: modifiers do not leak between fields -/

theorem encFields_chain (fs : List (Field V)) : ∀ (ca : Option CAttr) (env : Env V) (vs : List V) (b b' : Buf) (n : Nat),
    fs.length = vs.length → encFields false fs ca none env vs b = (.ok n, b') →
    ∃ (bs : Nat → Buf) (ns : Nat → Nat), bs 0 = b ∧ bs fs.length = b' ∧
      n = ((List.range fs.length).map ns).sum ∧
      ∀ i (h : i < fs.length) (h' : i < vs.length),
        fieldEnc fs[i] ca (env.extend (vs.take i)) vs[i] (bs i) = (.ok (ns i), bs (i + 1)) := by
  induction fs with
  | nil =>
    intro ca env vs b b' n hl h
    cases vs with
    | cons => simp at hl
    | nil =>
      simp only [encFields, pure_apply, Prod.mk.injEq, Out.ok.injEq] at h
      exact ⟨fun _ => b, fun _ => 0, rfl, h.2, by simp [← h.1], fun i hi => absurd hi (by simp)⟩
  | cons f fs ih =>
    intro ca env vs b b' n hl h
    cases vs with
    | nil => simp at hl
    | cons v vs =>
      rw [encFields_cons, bind_apply] at h
      rcases h1 : fieldEnc f ca env v b with ⟨o, b1⟩
      rw [h1] at h
      cases o with
      | ok m =>
        simp only [bind_apply] at h
        rcases h2 : encFields false fs ca none (env.push v) vs b1 with ⟨o2, b2⟩
        rw [h2] at h
        cases o2 with
        | ok r =>
          simp only [pure_apply, Prod.mk.injEq, Out.ok.injEq] at h
          obtain ⟨rfl, rfl⟩ := h
          obtain ⟨bs, ns, e0, e1, es, hs⟩ := ih ca _ vs b1 b2 r (by simpa using hl) h2
          refine ⟨fun i => match i with | 0 => b | i + 1 => bs i, fun i => match i with | 0 => m | i + 1 => ns i,
            rfl, e1, ?_, ?_⟩
          · rw [List.length_cons, List.range_succ_eq_map]
            simp only [List.map_cons, List.map_map, List.sum_cons, es]
            rfl
          · intro i hi hi'
            cases i with
            | zero => simpa [Env.extend_nil, e0] using h1
            | succ i =>
              have := hs i (by simpa using hi) (by simpa using hi')
              simpa [Env.push_extend] using this
        | _ => simp at h
      | _ => simp at h

/-- C46 (decode), the part that holds: the fields of a struct-like variant, and of a tuple variant in which no field
without modifiers comes after one that has some (nor under a variant that has some), are each decoded with their own
modifiers: `fieldStep` looks at the modifiers of its field only.  Missing: the other tuple variants (`C46_violated`). -/
theorem C46_decode_own_partial (E : EnumDef V) (v : Variant V) (ca : Option CAttr)
    (ho : OrderOk v.attrs { vars := localVars E.getVars ca })
    (hn : v.tuple = false ∨ NoLeak (ownModifiers v.attrs { vars := localVars E.getVars ca }) v.fields)
    (hoff : v.attrs.offset = none) (b b' : Buf) (vs : List V) :
    variantFields E ca v b = (.ok vs, b') ↔ vs.length = v.fields.length ∧ ∃ bs : Nat → Buf, bs 0 = b ∧
      bs v.fields.length = b' ∧ ∀ i (h : i < v.fields.length) (h' : i < vs.length),
        fieldStep v.fields[i] (cachedAfter (v.fields.take i) E.container { vars := localVars E.getVars ca } (vs.take i))
          { vars := localVars E.getVars ca, fields := vs.take i } (bs i) = (.ok vs[i], bs (i + 1)) := by
  rw [variantFields, bind_apply, toCode_ok _ _ ho]
  simp only
  rw [bind_apply, show skipOffset v.attrs { vars := localVars E.getVars ca } b = (.ok (), b) by
    simp only [skipOffset, hoff, pure_apply]]
  simp only
  have e : decFields v.tuple v.fields E.container (ownModifiers v.attrs { vars := localVars E.getVars ca })
      { vars := localVars E.getVars ca } b = decFields false v.fields E.container none { vars := localVars E.getVars ca } b := by
    cases ht : v.tuple with
    | true =>
      rcases hn with h | h
      · rw [ht] at h; cases h
      · exact decFields_noLeak _ _ _ _ _ h
    | false => rw [decFields_old]
  rw [e, decFields_iff]
  simp only [Env.extend, List.nil_append]

/-- C46 (encode), the part that holds: when no field without modifiers comes after one that has some (nor under a
variant that has some), each field is encoded with its own modifiers and the counts are added up.  Missing: the other
variants (`C46_violated`). -/
theorem C46_encode_own_partial (fs : List (Field V)) (own : Option CAttr) (old : Option FAttr) (env : Env V)
    (hn : NoLeak old fs) (vs : List V) (hl : fs.length = vs.length) (b b' : Buf) (n : Nat)
    (h : encFields true fs own old env vs b = (.ok n, b')) :
    ∃ (bs : Nat → Buf) (ns : Nat → Nat), bs 0 = b ∧ bs fs.length = b' ∧
      n = ((List.range fs.length).map ns).sum ∧
      ∀ i (h : i < fs.length) (h' : i < vs.length),
        fieldEnc fs[i] own (env.extend (vs.take i)) vs[i] (bs i) = (.ok (ns i), bs (i + 1)) := by
  rw [encFields_noLeak _ _ _ _ _ _ hn] at h
  exact encFields_chain fs own env vs b b' n hl h

/-- C46 is violated: in `A { #[length = 1] x: u16, y: u16 }` the `length` of `x` is applied to `y` too when encoding
(but not when decoding); in a tuple variant `B(#[byteorder = "LE"] u16, u16)` and in a tuple struct it is applied when
decoding as well; and the modifiers of a variant are applied to its fields. -/
theorem C46_violated :
    enumBackAndForth { variants := [{ fields := [u16Field { isUse := true, length := some fun _ => 1 }, u16Field {}] }] }
      (0, [.num 1, .num 258]) none = ([0, 1, 2], .err ⟨2, .invalidByteLength⟩, 2) ∧
    decEnum { variants := [{ tuple := true, fields := [u16Field { isUse := true, byteorder := some (.lit .le) }, u16Field {}] }] }
      none none ⟨[0, 1, 0, 1, 0], 0⟩ = (.ok (0, [.num 1, .num 1]), ⟨[0, 1, 0, 1, 0], 5⟩) ∧
    decStruct { tuple := true, fields := [u16Field { isUse := true, byteorder := some (.lit .le) }, u16Field {}] }
      none none ⟨[1, 0, 1, 0], 0⟩ = (.ok [.num 1, .num 1], ⟨[1, 0, 1, 0], 4⟩) ∧
    decStruct { tuple := false, fields := [u16Field { isUse := true, byteorder := some (.lit .le) }, u16Field {}] }
      none none ⟨[1, 0, 1, 0], 0⟩ = (.ok [.num 1, .num 256], ⟨[1, 0, 1, 0], 4⟩) ∧
    enumBackAndForth { variants := [{ attrs := { isUse := true, byteorder := some (.lit .le) }, fields := [u16Field {}] }] }
      (0, [.num 258]) none = ([0, 2, 1], .ok (0, [.num 513]), 3) := by decide +kernel

example : NoLeak (V := Val) none [u8Field {}, u16Field { isUse := true, length := some fun _ => 1 },
    u16Field { isUse := true }] := by
  refine ⟨?_, .inl rfl⟩
  simp [u8Field, u16Field]

end JBytes
