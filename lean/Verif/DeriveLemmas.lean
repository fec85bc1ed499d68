import Verif.Derive
import Verif.Safe
/-! # Helper lemmas about the derived code -/

namespace JBytes
open M

variable {V : Type}

/-- The scope after several more fields. -/
def Env.extend (env : Env V) (vs : List V) : Env V := { env with fields := env.fields ++ vs }

theorem Env.extend_nil (env : Env V) : env.extend [] = env := by simp [Env.extend]

theorem Env.push_extend (env : Env V) (v : V) (vs : List V) : (env.push v).extend vs = env.extend (v :: vs) := by
  simp [Env.extend, Env.push]

theorem Env.extend_append (env : Env V) (vs ws : List V) : (env.extend vs).extend ws = env.extend (vs ++ ws) := by
  simp [Env.extend]

/-- The container modifiers, with the cache, after some fields have been decoded. -/
def cachedAfter : List (Field V) → Option CAttr → Env V → List V → Option CAttr
  | f :: fs, ca, env, v :: vs => cachedAfter fs (cacheVars f.attrs ca (env.push v)) (env.push v) vs
  | _, ca, _, _ => ca

theorem cachedAfter_append (fs gs : List (Field V)) : ∀ (ca : Option CAttr) (env : Env V) (vs ws : List V),
    fs.length = vs.length → cachedAfter (fs ++ gs) ca env (vs ++ ws)
      = cachedAfter gs (cachedAfter fs ca env vs) (env.extend vs) ws := by
  induction fs with
  | nil =>
    intro ca env vs ws h
    cases vs with
    | nil => simp [cachedAfter, Env.extend_nil]
    | cons => simp at h
  | cons f fs ih =>
    intro ca env vs ws h
    cases vs with
    | nil => simp at h
    | cons v vs =>
      simp only [List.cons_append, cachedAfter]
      rw [ih _ _ vs ws (by simpa using h), Env.push_extend]

/-- No field caches a variable: the container modifiers stay as they are. -/
theorem cachedAfter_none (fs : List (Field V)) (h : ∀ f ∈ fs, f.attrs.variableName = none) :
    ∀ (ca : Option CAttr) (env : Env V) (vs : List V), cachedAfter fs ca env vs = ca := by
  induction fs with
  | nil => intro ca env vs; rfl
  | cons f fs ih =>
    intro ca env vs
    cases vs with
    | nil => rfl
    | cons v vs =>
      simp only [cachedAfter, cacheVars, h f (by simp)]
      exact ih (fun g hg => h g (by simp [hg])) _ _ _

/-- Without `keep` the left-over modifiers are not looked at. -/
theorem decFields_old (fs : List (Field V)) (ca : Option CAttr) (old : Option FAttr) (env : Env V) :
    decFields false fs ca old env = decFields false fs ca none env := by
  cases fs <;> rfl

theorem encFields_old (fs : List (Field V)) (ca : Option CAttr) (old : Option FAttr) (env : Env V) (vs : List V) :
    encFields false fs ca old env vs = encFields false fs ca none env vs := by
  cases fs <;> cases vs <;> rfl

/-- One field of a struct: its own modifiers, then its decoder. -/
def fieldStep (f : Field V) (ca : Option CAttr) (env : Env V) : M V := do
  let fa ← f.attrs.toCode env
  decField f env ca fa

theorem decFields_cons (f : Field V) (fs : List (Field V)) (ca : Option CAttr) (env : Env V) (b : Buf) :
    decFields false (f :: fs) ca none env b = (fieldStep f ca env >>= fun v =>
      decFields false fs (cacheVars f.attrs ca (env.push v)) none (env.push v) >>= fun vs =>
      (Pure.pure (v :: vs) : M (List V))) b := by
  simp only [decFields, fieldStep, Bool.false_and, Bool.false_eq_true, if_false, bind_apply]
  rcases f.attrs.toCode env b with ⟨o, b1⟩
  cases o with
  | ok fa =>
    simp only
    rcases decField f env ca fa b1 with ⟨o2, b2⟩
    cases o2 with
    | ok v => simp only; rw [decFields_old]
    | _ => rfl
  | _ => rfl

/-- One field of a struct: its own modifiers, then its encoder. -/
def fieldEnc (f : Field V) (ca : Option CAttr) (env : Env V) (v : V) : M Nat := do
  let fa ← f.attrs.toCode env
  encField f env v ca fa

theorem encFields_cons (f : Field V) (fs : List (Field V)) (ca : Option CAttr) (env : Env V) (v : V) (vs : List V)
    (b : Buf) : encFields false (f :: fs) ca none env (v :: vs) b = (fieldEnc f ca env v >>= fun n =>
      encFields false fs ca none (env.push v) vs >>= fun m => (Pure.pure (n + m) : M Nat)) b := by
  simp only [encFields, fieldEnc, Bool.false_and, Bool.false_eq_true, if_false, bind_apply]
  rcases f.attrs.toCode env b with ⟨o, b1⟩
  cases o with
  | ok fa =>
    simp only
    rcases encField f env v ca fa b1 with ⟨o2, b2⟩
    cases o2 with
    | ok n => simp only; rw [encFields_old]
    | _ => rfl
  | _ => rfl

theorem decFields_length (fs : List (Field V)) : ∀ (keep : Bool) (ca : Option CAttr) (old : Option FAttr) (env : Env V)
    (b b' : Buf) (vs : List V), decFields keep fs ca old env b = (.ok vs, b') → vs.length = fs.length := by
  induction fs with
  | nil =>
    intro keep ca old env b b' vs h
    simp only [decFields, pure_apply, Prod.mk.injEq, Out.ok.injEq] at h
    simp [← h.1]
  | cons f fs ih =>
    intro keep ca old env b b' vs h
    simp only [decFields, bind_apply] at h
    rcases h1 : (if (keep && !f.attrs.isUse) = true then (Pure.pure old : M _) else f.attrs.toCode env) b with ⟨o, b1⟩
    rw [h1] at h
    cases o with
    | ok fa =>
      simp only at h
      rcases h2 : decField f env ca fa b1 with ⟨o2, b2⟩
      rw [h2] at h
      cases o2 with
      | ok v =>
        simp only at h
        rcases h3 : decFields keep fs (cacheVars f.attrs ca (env.push v)) fa (env.push v) b2 with ⟨o3, b3⟩
        rw [h3] at h
        cases o3 with
        | ok ws =>
          simp only [pure_apply, Prod.mk.injEq, Out.ok.injEq] at h
          rw [← h.1]
          simp [ih _ _ _ _ _ _ _ h3]
        | _ => simp at h
      | _ => simp at h
    | _ => simp at h

/-- Decoding of two groups of fields, one after the other. -/
theorem decFields_append (fs gs : List (Field V)) : ∀ (ca : Option CAttr) (env : Env V) (b : Buf),
    decFields false (fs ++ gs) ca none env b = (decFields false fs ca none env >>= fun vs =>
      decFields false gs (cachedAfter fs ca env vs) none (env.extend vs) >>= fun ws =>
      (Pure.pure (vs ++ ws) : M (List V))) b := by
  induction fs with
  | nil =>
    intro ca env b
    simp only [List.nil_append, decFields, bind_apply, pure_apply, cachedAfter, Env.extend_nil]
    rcases decFields false gs ca none env b with ⟨o, b1⟩
    cases o <;> rfl
  | cons f fs ih =>
    intro ca env b
    rw [List.cons_append, decFields_cons, bind_apply, bind_apply, decFields_cons, bind_apply]
    rcases fieldStep f ca env b with ⟨o, b1⟩
    cases o with
    | ok v =>
      simp only [bind_apply]
      rw [ih]
      simp only [bind_apply]
      rcases decFields false fs (cacheVars f.attrs ca (env.push v)) none (env.push v) b1 with ⟨o2, b2⟩
      cases o2 with
      | ok vs =>
        simp only [pure_apply, cachedAfter, Env.push_extend]
        rcases decFields false gs _ none _ b2 with ⟨o3, b3⟩
        cases o3 <;> rfl
      | _ => rfl
    | _ => rfl

theorem encFields_append (fs gs : List (Field V)) : ∀ (ca : Option CAttr) (env : Env V) (vs ws : List V),
    fs.length = vs.length → ∀ b : Buf,
    encFields false (fs ++ gs) ca none env (vs ++ ws) b = (encFields false fs ca none env vs >>= fun n =>
      encFields false gs ca none (env.extend vs) ws >>= fun m => (Pure.pure (n + m) : M Nat)) b := by
  induction fs with
  | nil =>
    intro ca env vs ws h b
    cases vs with
    | cons => simp at h
    | nil =>
      simp only [List.nil_append, encFields, bind_apply, pure_apply, Env.extend_nil]
      rcases encFields false gs ca none env ws b with ⟨o, b1⟩
      cases o <;> simp
  | cons f fs ih =>
    intro ca env vs ws h b
    cases vs with
    | nil => simp at h
    | cons v vs =>
      rw [List.cons_append, List.cons_append, encFields_cons, bind_apply, bind_apply, encFields_cons, bind_apply]
      rcases fieldEnc f ca env v b with ⟨o, b1⟩
      cases o with
      | ok n =>
        simp only [bind_apply]
        rw [ih ca (env.push v) vs ws (by simpa using h)]
        simp only [bind_apply, Env.push_extend]
        rcases encFields false fs ca none (env.push v) vs b1 with ⟨o2, b2⟩
        cases o2 with
        | ok m =>
          simp only [pure_apply]
          rcases encFields false gs ca none (env.extend (v :: vs)) ws b2 with ⟨o3, b3⟩
          cases o3 <;> simp [Nat.add_assoc]
        | _ => rfl
      | _ => rfl

theorem decField_offset (f : Field V) (env : Env V) (ca : Option CAttr) (fa : Option FAttr) (o : Nat)
    (h : (f.attrs.offset.map (· env)) = some o) (b : Buf) :
    decField f env ca fa b = decField { f with attrs := { f.attrs with offset := none } } env ca fa
      ⟨b.data, wadd b.pos o⟩ := by
  cases he : f.attrs.offset with
  | none => rw [he] at h; simp at h
  | some e =>
    rw [he] at h
    simp only [Option.map_some, Option.some.injEq] at h
    subst h
    simp only [decField, skipOffset, he, bind_apply, advance_apply, pure_apply]
    rfl

theorem toCode_unused (a : FieldAttrs V) (env : Env V) (h : a.isUse = false) :
    a.toCode env = Pure.pure none := by
  simp [FieldAttrs.toCode, h]

/-- Nothing can leak: fields without modifiers come first, with nothing left over from before. -/
def NoLeak (old : Option FAttr) (fs : List (Field V)) : Prop :=
  fs.Pairwise (fun f g => f.attrs.isUse = true → g.attrs.isUse = true) ∧
  (old = none ∨ ∀ f ∈ fs, f.attrs.isUse = true)

theorem NoLeak.head {old : Option FAttr} {f : Field V} {fs : List (Field V)} (h : NoLeak old (f :: fs))
    (env : Env V) : (if true && !f.attrs.isUse then (Pure.pure old : M (Option FAttr)) else f.attrs.toCode env)
      = f.attrs.toCode env := by
  cases hu : f.attrs.isUse with
  | true => simp
  | false =>
    rw [toCode_unused _ _ hu]
    rcases h.2 with h0 | h0
    · simp [h0]
    · have := h0 f (by simp); rw [hu] at this; cases this

theorem NoLeak.tail {old : Option FAttr} {f : Field V} {fs : List (Field V)} (h : NoLeak old (f :: fs))
    (env : Env V) (b b1 : Buf) (fa : Option FAttr) (hc : f.attrs.toCode env b = (.ok fa, b1)) : NoLeak fa fs := by
  refine ⟨(List.pairwise_cons.mp h.1).2, ?_⟩
  cases hu : f.attrs.isUse with
  | true => exact .inr fun g hg => (List.pairwise_cons.mp h.1).1 g hg hu
  | false =>
    rw [toCode_unused _ _ hu, pure_apply] at hc
    exact .inl (by simpa using (congrArg Prod.fst hc).symm)

theorem decFields_noLeak (fs : List (Field V)) : ∀ (ca : Option CAttr) (old : Option FAttr) (env : Env V) (b : Buf),
    NoLeak old fs → decFields true fs ca old env b = decFields false fs ca none env b := by
  induction fs with
  | nil => intro ca old env b _; rfl
  | cons f fs ih =>
    intro ca old env b h
    simp only [decFields, Bool.false_and, Bool.false_eq_true, if_false]
    rw [h.head, bind_apply, bind_apply]
    rcases h1 : f.attrs.toCode env b with ⟨o, b1⟩
    cases o with
    | ok fa =>
      simp only [bind_apply]
      rcases decField f env ca fa b1 with ⟨o2, b2⟩
      cases o2 with
      | ok v => simp only; rw [ih _ fa _ _ (h.tail env b b1 fa h1), decFields_old fs _ fa]
      | _ => rfl
    | _ => rfl

theorem encFields_noLeak (fs : List (Field V)) : ∀ (ca : Option CAttr) (old : Option FAttr) (env : Env V)
    (vs : List V) (b : Buf), NoLeak old fs →
    encFields true fs ca old env vs b = encFields false fs ca none env vs b := by
  induction fs with
  | nil => intro ca old env vs b _; cases vs <;> rfl
  | cons f fs ih =>
    intro ca old env vs b h
    cases vs with
    | nil => rfl
    | cons v vs =>
    simp only [encFields, Bool.false_and, Bool.false_eq_true, if_false]
    rw [h.head, bind_apply, bind_apply]
    rcases h1 : f.attrs.toCode env b with ⟨o, b1⟩
    cases o with
    | ok fa =>
      simp only [bind_apply]
      rcases encField f env v ca fa b1 with ⟨o2, b2⟩
      cases o2 with
      | ok n => simp only; rw [ih _ fa _ _ _ (h.tail env b b1 fa h1), encFields_old fs _ fa]
      | _ => rfl
    | _ => rfl

end JBytes
