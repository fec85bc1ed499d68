import Verif.PropEnum
/-!
# Which modifiers a field is decoded and encoded with: C46, exactly

In tuple structs, tuple variants and (when encoding) all variants a field without modifiers does not get `None` but
whatever `fattr_new` was last set to (derive/src/jbytes/derive_struct.rs:80-103, derive_enum.rs:525-552).  This file
says what that is, for every list of fields.
-/

namespace JBytes
open M

variable {V : Type}

/-- The modifiers in force at field `i`: those of the last field up to `i` that has any, evaluated where that field
stands, and when there is none those that were in force before the first field. -/
def InForce (fs : List (Field V)) (old : Option FAttr) (env : Env V) (vs : List V) (i : Nat)
    (fa : Option FAttr) : Prop :=
  (∃ j f, j ≤ i ∧ fs[j]? = some f ∧ f.attrs.isUse = true ∧
    (∀ k g, j < k → k ≤ i → fs[k]? = some g → g.attrs.isUse = false) ∧
    fa = ownModifiers f.attrs (env.extend (vs.take j))) ∨
  ((∀ k g, k ≤ i → fs[k]? = some g → g.attrs.isUse = false) ∧ fa = old)

/-- The modifiers in force at the first field. -/
def firstInForce (f : Field V) (old : Option FAttr) (env : Env V) : Option FAttr :=
  if f.attrs.isUse = true then ownModifiers f.attrs env else old

theorem inForce_zero (f : Field V) (fs : List (Field V)) (old : Option FAttr) (env : Env V) (vs : List V)
    (fa : Option FAttr) : InForce (f :: fs) old env vs 0 fa ↔ fa = firstInForce f old env := by
  unfold InForce firstInForce
  constructor
  · rintro (⟨j, g, hj, hg, hu, -, rfl⟩ | ⟨h, rfl⟩)
    · obtain rfl : j = 0 := by omega
      simp only [List.getElem?_cons_zero, Option.some.injEq] at hg
      subst hg
      rw [if_pos hu, List.take_zero, Env.extend_nil]
    · rw [if_neg (by rw [h 0 f (by omega) rfl]; decide)]
  · rintro rfl
    by_cases hu : f.attrs.isUse = true
    · rw [if_pos hu]
      exact .inl ⟨0, f, by omega, rfl, hu, fun k g h1 h2 => absurd h1 (by omega), by
        rw [List.take_zero, Env.extend_nil]⟩
    · rw [if_neg hu]
      refine .inr ⟨fun k g hk hg => ?_, rfl⟩
      obtain rfl : k = 0 := by omega
      simp only [List.getElem?_cons_zero, Option.some.injEq] at hg
      subst hg
      simpa using hu

theorem inForce_succ (f : Field V) (fs : List (Field V)) (old : Option FAttr) (env : Env V) (v : V) (vs : List V)
    (i : Nat) (fa : Option FAttr) : InForce (f :: fs) old env (v :: vs) (i + 1) fa ↔
      InForce fs (firstInForce f old env) (env.push v) vs i fa := by
  unfold InForce firstInForce
  constructor
  · rintro (⟨j, g, hj, hg, hu, hn, rfl⟩ | ⟨h, rfl⟩)
    · cases j with
      | zero =>
        simp only [List.getElem?_cons_zero, Option.some.injEq] at hg
        subst hg
        rw [if_pos hu, List.take_zero, Env.extend_nil]
        exact .inr ⟨fun k g hk hg => hn (k + 1) g (by omega) (by omega) (by simpa using hg), rfl⟩
      | succ j =>
        refine .inl ⟨j, g, by omega, by simpa using hg, hu,
          fun k g h1 h2 hg => hn (k + 1) g (by omega) (by omega) (by simpa using hg), ?_⟩
        rw [List.take_succ_cons, Env.push_extend]
    · rw [if_neg (by rw [h 0 f (by omega) rfl]; decide)]
      exact .inr ⟨fun k g hk hg => h (k + 1) g (by omega) (by simpa using hg), rfl⟩
  · rintro (⟨j, g, hj, hg, hu, hn, rfl⟩ | ⟨h, rfl⟩)
    · refine .inl ⟨j + 1, g, by omega, by simpa using hg, hu, ?_, ?_⟩
      · intro k g h1 h2 hg
        cases k with
        | zero => omega
        | succ k => exact hn k g (by omega) (by omega) (by simpa using hg)
      · rw [List.take_succ_cons, Env.push_extend]
    · by_cases hu : f.attrs.isUse = true
      · rw [if_pos hu]
        refine .inl ⟨0, f, by omega, rfl, hu, ?_, by rw [List.take_zero, Env.extend_nil]⟩
        intro k g h1 h2 hg
        cases k with
        | zero => omega
        | succ k => exact h k g (by omega) (by simpa using hg)
      · rw [if_neg hu]
        refine .inr ⟨?_, rfl⟩
        intro k g hk hg
        cases k with
        | zero =>
          simp only [List.getElem?_cons_zero, Option.some.injEq] at hg
          subst hg
          simpa using hu
        | succ k => exact h k g (by omega) (by simpa using hg)

/-- There is always exactly one set of modifiers in force. -/
theorem inForce_unique (fs : List (Field V)) : ∀ (old : Option FAttr) (env : Env V) (vs : List V) (i : Nat),
    i < fs.length → i < vs.length → ∃ fa, ∀ fa', InForce fs old env vs i fa' ↔ fa' = fa := by
  induction fs with
  | nil => intro old env vs i h; simp at h
  | cons f fs ih =>
    intro old env vs i h h'
    cases vs with
    | nil => simp at h'
    | cons v vs =>
      cases i with
      | zero => exact ⟨_, fun fa' => inForce_zero _ _ _ _ _ _⟩
      | succ i =>
        obtain ⟨fa, hfa⟩ := ih (firstInForce f old env) (env.push v) vs i (by simpa using h) (by simpa using h')
        exact ⟨fa, fun fa' => (inForce_succ _ _ _ _ _ _ _ _).trans (hfa fa')⟩

/-- Computing the modifiers of a field fails exactly when its `byteorder` expression is neither 0 nor 1. -/
theorem toCode_iff (a : FieldAttrs V) (hu : a.isUse = true) (env : Env V) (b b1 : Buf) (fa : Option FAttr) :
    a.toCode env b = (.ok fa, b1) ↔ OrderOk a env ∧ fa = ownModifiers a env ∧ b1 = b := by
  constructor
  · intro h
    have ho : OrderOk a env := by
      intro e he
      by_cases h0 : e env = 0
      · exact .inl h0
      by_cases h1 : e env = 1
      · exact .inr h1
      exfalso
      have hs : a.anySet = true := by simp [FieldAttrs.anySet, he]
      unfold FieldAttrs.toCode at h
      rw [hu, hs] at h
      simp only [Bool.and_self, if_true, bind_apply, orderCode, he, if_neg h0, if_neg h1] at h
      cases h
    rw [toCode_ok a env ho] at h
    simp only [Prod.mk.injEq, Out.ok.injEq] at h
    exact ⟨ho, h.1.symm, h.2.symm⟩
  · rintro ⟨ho, rfl, rfl⟩
    exact toCode_ok a env ho _

theorem keepCode_iff (f : Field V) (old : Option FAttr) (env : Env V) (b b1 : Buf) (fa : Option FAttr) :
    (if true && !f.attrs.isUse then (Pure.pure old : M (Option FAttr)) else f.attrs.toCode env) b = (.ok fa, b1) ↔
      (f.attrs.isUse = true → OrderOk f.attrs env) ∧ fa = firstInForce f old env ∧ b1 = b := by
  unfold firstInForce
  cases hu : f.attrs.isUse with
  | true =>
    simp only [Bool.not_true, Bool.and_false, Bool.false_eq_true, if_false, if_true]
    rw [toCode_iff f.attrs hu]
    simp
  | false =>
    simp only [Bool.not_false, Bool.and_self, if_true, Bool.false_eq_true, if_false, pure_apply, Prod.mk.injEq,
      Out.ok.injEq]
    constructor
    · rintro ⟨rfl, rfl⟩
      exact ⟨fun h => (by cases h), rfl, rfl⟩
    · rintro ⟨-, rfl, rfl⟩
      exact ⟨rfl, rfl⟩

/-- C46 (decode), exactly: the fields of a tuple struct or tuple variant are decoded one after the other, field `i`
with the modifiers in force there, so with those of an earlier field (or of the variant) when it has none itself. -/
theorem C46_decode_exact (fs : List (Field V)) : ∀ (ca : Option CAttr) (old : Option FAttr) (env : Env V)
    (b b' : Buf) (vs : List V),
    decFields true fs ca old env b = (.ok vs, b') ↔ vs.length = fs.length ∧ ∃ (bs : Nat → Buf)
      (fas : Nat → Option FAttr), bs 0 = b ∧ bs fs.length = b' ∧
      ∀ i (h : i < fs.length) (h' : i < vs.length), InForce fs old env vs i (fas i) ∧
        (fs[i].attrs.isUse = true → OrderOk fs[i].attrs (env.extend (vs.take i))) ∧
        decField fs[i] (env.extend (vs.take i)) (cachedAfter (fs.take i) ca env (vs.take i)) (fas i) (bs i)
          = (.ok vs[i], bs (i + 1)) := by
  induction fs with
  | nil =>
    intro ca old env b b' vs
    simp only [decFields, pure_apply, Prod.mk.injEq, Out.ok.injEq, List.length_nil]
    constructor
    · rintro ⟨rfl, rfl⟩
      exact ⟨rfl, fun _ => b, fun _ => none, rfl, rfl, fun i h => absurd h (by simp)⟩
    · rintro ⟨h, bs, fas, h0, h1, _⟩
      exact ⟨(List.length_eq_zero_iff.mp h).symm, by rw [← h0, ← h1]⟩
  | cons f fs ih =>
    intro ca old env b b' vs
    simp only [decFields, bind_apply]
    constructor
    · intro h
      rcases h0 : (if true && !f.attrs.isUse then (Pure.pure old : M (Option FAttr)) else f.attrs.toCode env) b
        with ⟨o, b0⟩
      rw [h0] at h
      cases o with
      | ok fa =>
        obtain ⟨ho, rfl, rfl⟩ := (keepCode_iff f old env b b0 fa).1 h0
        simp only at h
        rcases h1 : decField f env ca (firstInForce f old env) b0 with ⟨o, b1⟩
        rw [h1] at h
        cases o with
        | ok v =>
          simp only at h
          rcases h2 : decFields true fs (cacheVars f.attrs ca (env.push v)) (firstInForce f old env) (env.push v) b1
            with ⟨o2, b2⟩
          rw [h2] at h
          cases o2 with
          | ok ws =>
            simp only [pure_apply, Prod.mk.injEq, Out.ok.injEq] at h
            obtain ⟨rfl, rfl⟩ := h
            obtain ⟨hl, bs, fas, e0, e1, hs⟩ := (ih _ _ _ _ _ _).mp h2
            refine ⟨by simp [hl], fun i => match i with | 0 => b0 | i + 1 => bs i,
              fun i => match i with | 0 => firstInForce f old env | i + 1 => fas i, rfl, e1, ?_⟩
            intro i hi hi'
            cases i with
            | zero =>
              refine ⟨(inForce_zero _ _ _ _ _ _).2 rfl, ?_, ?_⟩
              · simpa [Env.extend_nil] using ho
              · simpa [cachedAfter, Env.extend_nil, e0] using h1
            | succ i =>
              obtain ⟨g1, g2, g3⟩ := hs i (by simpa using hi) (by simpa using hi')
              refine ⟨(inForce_succ _ _ _ _ _ _ _ _).2 g1, ?_, ?_⟩
              · simpa [Env.push_extend] using g2
              · simpa [cachedAfter, Env.push_extend] using g3
          | _ => simp at h
        | _ => simp at h
      | _ => simp at h
    · rintro ⟨hl, bs, fas, h0, h1, hs⟩
      cases vs with
      | nil => simp at hl
      | cons v vs =>
        obtain ⟨f0, o0, s0⟩ := hs 0 (by simp) (by simp)
        simp only [List.getElem_cons_zero, List.take_zero, cachedAfter, Env.extend_nil, h0] at s0 o0
        have hf0 := (inForce_zero _ _ _ _ _ _).1 f0
        rw [hf0] at s0
        rw [(keepCode_iff f old env b b (firstInForce f old env)).2 ⟨o0, rfl, rfl⟩]
        simp only
        rw [s0]
        have r := (ih (cacheVars f.attrs ca (env.push v)) (firstInForce f old env) (env.push v) (bs 1) b' vs).mpr
          ⟨by simpa using hl, fun i => bs (i + 1), fun i => fas (i + 1), rfl, h1, ?_⟩
        · simp only
          rw [show bs (0 + 1) = bs 1 from rfl, r]
          rfl
        · intro i hi hi'
          obtain ⟨g1, g2, g3⟩ := hs (i + 1) (by simpa using hi) (by simpa using hi')
          refine ⟨(inForce_succ _ _ _ _ _ _ _ _).1 g1, ?_, ?_⟩
          · simpa [Env.push_extend] using g2
          · simpa [cachedAfter, Env.push_extend] using g3

/-- C46 (encode), exactly: the fields of a variant are encoded one after the other, field `i` with the modifiers in
force there, and the counts are added up. -/
theorem C46_encode_exact (fs : List (Field V)) : ∀ (ca : Option CAttr) (old : Option FAttr) (env : Env V)
    (vs : List V) (b b' : Buf) (n : Nat), fs.length = vs.length →
    (encFields true fs ca old env vs b = (.ok n, b') ↔ ∃ (bs : Nat → Buf) (ns : Nat → Nat)
      (fas : Nat → Option FAttr), bs 0 = b ∧ bs fs.length = b' ∧ n = ((List.range fs.length).map ns).sum ∧
      ∀ i (h : i < fs.length) (h' : i < vs.length), InForce fs old env vs i (fas i) ∧
        (fs[i].attrs.isUse = true → OrderOk fs[i].attrs (env.extend (vs.take i))) ∧
        encField fs[i] (env.extend (vs.take i)) vs[i] ca (fas i) (bs i) = (.ok (ns i), bs (i + 1))) := by
  induction fs with
  | nil =>
    intro ca old env vs b b' n hl
    simp only [encFields, pure_apply, Prod.mk.injEq, Out.ok.injEq, List.length_nil]
    constructor
    · rintro ⟨rfl, rfl⟩
      exact ⟨fun _ => b, fun _ => 0, fun _ => none, rfl, rfl, rfl, fun i h => absurd h (by simp)⟩
    · rintro ⟨bs, ns, fas, h0, h1, h2, _⟩
      exact ⟨h2.symm, by rw [← h0, ← h1]⟩
  | cons f fs ih =>
    intro ca old env vs b b' n hl
    cases vs with
    | nil => simp at hl
    | cons v vs =>
    simp only [encFields, bind_apply]
    have hl' : fs.length = vs.length := by simpa using hl
    constructor
    · intro h
      rcases h0 : (if true && !f.attrs.isUse then (Pure.pure old : M (Option FAttr)) else f.attrs.toCode env) b
        with ⟨o, b0⟩
      rw [h0] at h
      cases o with
      | ok fa =>
        obtain ⟨ho, rfl, rfl⟩ := (keepCode_iff f old env b b0 fa).1 h0
        simp only at h
        rcases h1 : encField f env v ca (firstInForce f old env) b0 with ⟨o, b1⟩
        rw [h1] at h
        cases o with
        | ok m =>
          simp only at h
          rcases h2 : encFields true fs ca (firstInForce f old env) (env.push v) vs b1 with ⟨o2, b2⟩
          rw [h2] at h
          cases o2 with
          | ok r =>
            simp only [pure_apply, Prod.mk.injEq, Out.ok.injEq] at h
            obtain ⟨rfl, rfl⟩ := h
            obtain ⟨bs, ns, fas, e0, e1, es, hs⟩ := (ih _ _ _ _ _ _ _ hl').mp h2
            refine ⟨fun i => match i with | 0 => b0 | i + 1 => bs i, fun i => match i with | 0 => m | i + 1 => ns i,
              fun i => match i with | 0 => firstInForce f old env | i + 1 => fas i, rfl, e1, ?_, ?_⟩
            · rw [List.length_cons, List.range_succ_eq_map]
              simp only [List.map_cons, List.map_map, List.sum_cons, es]
              rfl
            · intro i hi hi'
              cases i with
              | zero =>
                refine ⟨(inForce_zero _ _ _ _ _ _).2 rfl, ?_, ?_⟩
                · simpa [Env.extend_nil] using ho
                · simpa [Env.extend_nil, e0] using h1
              | succ i =>
                obtain ⟨g1, g2, g3⟩ := hs i (by simpa using hi) (by simpa using hi')
                refine ⟨(inForce_succ _ _ _ _ _ _ _ _).2 g1, ?_, ?_⟩
                · simpa [Env.push_extend] using g2
                · simpa [Env.push_extend] using g3
          | _ => simp at h
        | _ => simp at h
      | _ => simp at h
    · rintro ⟨bs, ns, fas, h0, h1, hn, hs⟩
      obtain ⟨f0, o0, s0⟩ := hs 0 (by simp) (by simp)
      simp only [List.getElem_cons_zero, List.take_zero, Env.extend_nil, h0] at s0 o0
      have hf0 := (inForce_zero _ _ _ _ _ _).1 f0
      rw [hf0] at s0
      rw [(keepCode_iff f old env b b (firstInForce f old env)).2 ⟨o0, rfl, rfl⟩]
      simp only
      rw [s0]
      have r := (ih ca (firstInForce f old env) (env.push v) vs (bs 1) b'
        ((List.range fs.length).map fun i => ns (i + 1)).sum hl').mpr
        ⟨fun i => bs (i + 1), fun i => ns (i + 1), fun i => fas (i + 1), rfl, h1, rfl, ?_⟩
      · simp only
        rw [show bs (0 + 1) = bs 1 from rfl, r]
        simp only [pure_apply, Prod.mk.injEq, Out.ok.injEq, and_true]
        rw [hn, List.length_cons, List.range_succ_eq_map]
        simp only [List.map_cons, List.map_map, List.sum_cons]
        rfl
      · intro i hi hi'
        obtain ⟨g1, g2, g3⟩ := hs (i + 1) (by simpa using hi) (by simpa using hi')
        refine ⟨(inForce_succ _ _ _ _ _ _ _ _).1 g1, ?_, ?_⟩
        · simpa [Env.push_extend] using g2
        · simpa [Env.push_extend] using g3

/-- In `(#[byteorder = "LE"] u16, u16)` the little-endian order is in force at the second field too. -/
example : InForce (V := Val) [u16Field { isUse := true, byteorder := some (.lit .le) }, u16Field {}] none {}
    [.num 1, .num 1] 1 (some { byteorder := some .le }) :=
  .inl ⟨0, _, by omega, rfl, rfl, fun k g h1 h2 hg => by
    obtain rfl : k = 1 := by omega
    simp only [List.getElem?_cons_succ, List.getElem?_cons_zero, Option.some.injEq] at hg
    subst hg
    rfl, by simp [ownModifiers, u16Field, askedOrder]⟩

example : decFields true [u16Field { isUse := true, byteorder := some (.lit .le) }, u16Field {}] none none {}
    ⟨[1, 0, 1, 0], 0⟩ = (.ok [.num 1, .num 1], ⟨[1, 0, 1, 0], 4⟩) := by decide +kernel

end JBytes
