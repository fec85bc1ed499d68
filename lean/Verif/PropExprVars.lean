import Verif.PropExpr
import Verif.PropGetter
/-!
# C87: variables in expressions

`#[jbytes(get_variable_name = "a,b")]` on a type makes variables `a` and `b` in the generated functions, with the values
cached by `variable_name`.  Here is `AttrExpr.lean` with these variables.
-/

namespace JBytes

/-! ## Model -/

/-- The variables of a type with their values: `usize`, derive/src/jbytes/derive_struct.rs:174-188 and 229-244,
derive/src/jbytes/derive_enum.rs:95-110 and 416-431.  That the value is the one in the cache is `C56`. -/
abbrev ExprVars := List (Text × Int)

/-- The variables as things with names. -/
def varThings (vs : ExprVars) : List (Sel × Thing) :=
  vs.map fun v => (.name v.1, .int ['u', 's', 'i', 'z', 'e'] v.2)

/-- `AttrValue::List(..).to_string()`, derive/src/jbytes/parse.rs:149. -/
def joinedVars : ExprVars → Text
  | [] => []
  | [v] => v.1
  | v :: w :: vs => v.1 ++ [',', ' '] ++ joinedVars (w :: vs)

/-- Whether the prefix is left out: only in `length`, if the text of the expression is a part of the names of the variables
(`contains`), derive/src/jbytes/attribute.rs:187-194; `get_variable_name` is handed over to the fields, not to the variants,
derive/src/jbytes/derive_struct.rs:249, derive/src/jbytes/derive_enum.rs:530 and 542. -/
def localText (p : Place) (len : Bool) (vs : ExprVars) (src : Text) : Bool :=
  p != .variant && len && decide (src <:+: joinedVars vs)

/-- What the decoder sees: a field decoded before hides a variable, for its `let` comes later. -/
def decodeNumberV (p : Place) (u : ExprUse) (vs : ExprVars) (before : List (Sel × Thing)) (ts : List Tok) : Option Int :=
  numberIn (decodeScope (before ++ varThings vs)) (emitted u (decodePrefix p u ++ ts))

/-- What the encoder sees: the variables and, as in `encodeScope`, `self` or references to the fields of the variant, which
hide the variables (`match self` comes later, derive/src/jbytes/derive_enum.rs:416-434). -/
def encodeScopeV (p : Place) (vs : ExprVars) (fs : List (Sel × Thing)) : Scope :=
  if p = .structField then ⟨fun x => (fieldNamed (varThings vs) x).map fun t => (false, t), some (.record fs)⟩
  else ⟨fun x => ((fieldNamed fs x).map fun t => (true, t)).or ((fieldNamed (varThings vs) x).map fun t => (false, t)),
    some (.record [])⟩

/-- The number that an expression with the text `src` and the tokens `ts` gives when encoding; `len`: it is for `length`. -/
def encodeNumberV (p : Place) (u : ExprUse) (len : Bool) (vs : ExprVars) (src : Text) (fs : List (Sel × Thing))
    (ts : List Tok) : Option Int :=
  numberIn (encodeScopeV p vs fs) (emitted u ((if localText p len vs src then [] else encodePrefix p u) ++ ts))

/-! ## Specification -/

/-- A variable of the type. -/
def IsVar (vs : ExprVars) (x : Text) : Prop := ∃ z, (x, z) ∈ vs

/-- A field. -/
def IsField (fs : List (Sel × Thing)) (x : Text) : Prop := ∃ t, (Sel.name x, t) ∈ fs

/-! ## Helpers -/

theorem fieldNamed_append (a b : List (Sel × Thing)) (x : Text) :
    fieldNamed (a ++ b) x = (fieldNamed a x).or (fieldNamed b x) := by
  unfold fieldNamed
  rw [List.find?_append]
  cases a.find? fun p => p.1.variable == x <;> rfl

theorem fieldNamed_mem {fs : List (Sel × Thing)} {x : Text} {t : Thing} (h : fieldNamed fs x = some t) :
    x ∈ fs.map fun p => p.1.variable := by
  obtain ⟨p, hp, -⟩ := Option.map_eq_some_iff.1 h
  have h1 := List.find?_some hp
  exact List.mem_map.2 ⟨p, List.mem_of_find?_eq_some hp, by simpa using h1⟩

theorem fieldNamed_vars (vs : ExprVars) (x : Text) : (∃ t, fieldNamed (varThings vs) x = some t) ↔ IsVar vs x := by
  induction vs with
  | nil => exact ⟨fun ⟨t, h⟩ => (by cases h), fun ⟨z, h⟩ => (by cases h)⟩
  | cons v vs ih =>
    obtain ⟨y, z⟩ := v
    unfold fieldNamed varThings at ih ⊢
    rw [List.map_cons, List.find?_cons]
    by_cases hxy : y = x
    · subst hxy
      have : ((Sel.name y).variable == y) = true := beq_self_eq_true y
      simp only [this]
      exact ⟨fun _ => ⟨z, List.mem_cons_self⟩, fun _ => ⟨_, rfl⟩⟩
    · have : ((Sel.name y).variable == x) = false := beq_eq_false_iff_ne.2 hxy
      simp only [this]
      rw [ih]
      constructor
      · rintro ⟨w, hw⟩
        exact ⟨w, List.mem_cons_of_mem _ hw⟩
      · rintro ⟨w, hw⟩
        rcases List.mem_cons.1 hw with h | h
        · exact absurd (congrArg Prod.fst h).symm hxy
        · exact ⟨w, h⟩

theorem fieldNamed_field {fs : List (Sel × Thing)} (hnamed : ∀ p ∈ fs, ∃ x, p.1 = .name x) (x : Text) :
    (∃ t, fieldNamed fs x = some t) ↔ IsField fs x := by
  constructor
  · rintro ⟨t, h⟩
    obtain ⟨p, hp, -⟩ := Option.map_eq_some_iff.1 h
    have h1 := List.find?_some hp
    have h2 := List.mem_of_find?_eq_some hp
    obtain ⟨y, hy⟩ := hnamed p h2
    obtain ⟨s, t'⟩ := p
    subst hy
    have : y = x := by simpa [Sel.variable] using h1
    subst this
    exact ⟨t', h2⟩
  · rintro ⟨t, h⟩
    unfold fieldNamed
    cases hf : fs.find? fun p => p.1.variable == x with
    | some p => exact ⟨_, rfl⟩
    | none =>
      exfalso
      have := List.find?_eq_none.1 hf _ h
      simp [Sel.variable] at this

/-- In a record of named fields the selector finds what the name finds. -/
theorem lookup_of_fieldNamed : ∀ {fs : List (Sel × Thing)}, (∀ p ∈ fs, ∃ x, p.1 = .name x) → ∀ x,
    fs.lookup (.name x) = fieldNamed fs x
  | [], _, _ => rfl
  | p :: fs, hnamed, x => by
    obtain ⟨y, hy⟩ := hnamed p List.mem_cons_self
    obtain ⟨s, v⟩ := p
    subst hy
    have ih := lookup_of_fieldNamed (fun p hp => hnamed p (List.mem_cons_of_mem _ hp)) x
    unfold fieldNamed at ih ⊢
    rw [List.find?_cons, List.lookup_cons]
    by_cases hxy : x = y
    · subst hxy
      have : ((Sel.name x).variable == x) = true := beq_self_eq_true x
      simp only [beq_self_eq_true, this]
      rfl
    · have h1 : ((Sel.name x) == Sel.name y) = false := by simpa using hxy
      have h2 : ((Sel.name y).variable == x) = false := by
        show (y == x) = false
        simpa using fun h : y = x => hxy h.symm
      simp only [h1, h2]
      exact ih

/-- Fields and variables have different names: what the names mean. -/
theorem distinct_split {fs : List (Sel × Thing)} {vs : ExprVars} (hd : Distinct (fs ++ varThings vs)) :
    Distinct fs ∧ ∀ x t, fieldNamed (varThings vs) x = some t → fieldNamed fs x = none := by
  unfold Distinct at hd
  rw [List.map_append] at hd
  have h := List.nodup_append.1 hd
  refine ⟨h.1, fun x t hx => ?_⟩
  cases hf : fieldNamed fs x with
  | none => rfl
  | some t' => exact absurd rfl (h.2.2 x (fieldNamed_mem hf) x (fieldNamed_mem hx))

theorem fieldNamed_all {fs before : List (Sel × Thing)} {vs : ExprVars} (hb : before <+: fs)
    (hd : Distinct (fs ++ varThings vs)) {x : Text} {t : Thing} (h : fieldNamed (before ++ varThings vs) x = some t) :
    fieldNamed (fs ++ varThings vs) x = some t := by
  rw [fieldNamed_append] at h ⊢
  cases h1 : fieldNamed before x with
  | some t' =>
    rw [h1] at h
    rw [fieldNamed_before hb h1]
    exact h
  | none =>
    rw [h1] at h
    have h : fieldNamed (varThings vs) x = some t := h
    rw [(distinct_split hd).2 x t h, h]
    rfl

theorem decodeScopeV_of {fs before : List (Sel × Thing)} {vs : ExprVars} (hb : before <+: fs)
    (hd : Distinct (fs ++ varThings vs)) : ScopeOf (fs ++ varThings vs) (decodeScope (before ++ varThings vs)) where
  name x b t hx := by
    obtain ⟨u, hu, he⟩ := Option.map_eq_some_iff.1 hx
    cases he
    exact fieldNamed_all hb hd hu
  self t ht := by cases ht

theorem encodeScopeV_of (p : Place) {fs : List (Sel × Thing)} {vs : ExprVars} (hd : Distinct (fs ++ varThings vs)) :
    ScopeOf (fs ++ varThings vs) (encodeScopeV p vs fs) := by
  have hs := distinct_split hd
  have hv : ∀ x t, fieldNamed (varThings vs) x = some t → fieldNamed (fs ++ varThings vs) x = some t := by
    intro x t h
    rw [fieldNamed_append, hs.2 x t h, h]
    rfl
  have hf : ∀ x t, fieldNamed fs x = some t → fieldNamed (fs ++ varThings vs) x = some t := by
    intro x t h
    rw [fieldNamed_append, h]
    rfl
  unfold encodeScopeV
  split
  · refine ⟨fun x b t h => ?_, fun t h => ?_⟩
    · obtain ⟨u, hu, he⟩ := Option.map_eq_some_iff.1 h
      cases he
      exact hv _ _ hu
    · cases h
      exact ⟨fs, rfl, fun s u h => hf _ _ (fieldNamed_of_lookup fs hs.1 s u h)⟩
  · refine ⟨fun x b t h => ?_, fun t h => (by cases h; exact ⟨[], rfl, fun _ _ h => (by cases h)⟩)⟩
    simp only at h
    cases h1 : fieldNamed fs x with
    | some t' =>
      rw [h1] at h
      cases h
      exact hf _ _ h1
    | none =>
      rw [h1] at h
      obtain ⟨u, hu, he⟩ := Option.map_eq_some_iff.1 (show (fieldNamed (varThings vs) x).map (fun t => (false, t)) = _ from h)
      cases he
      exact hv _ _ hu

theorem steps_subst_names (f : Text → Expr) : ∀ (ts : List Tok) (st : List ExprFrame × ExprNext), NotField st →
    (∀ y ∈ bareNames ts, f y = .name y) → exprSteps (substState f st) ts = (exprSteps st ts).map (substState f)
  | [], _, _, _ => rfl
  | t :: ts, st, hnf, h => by
    have hstep : exprStep (substState f st) t = (exprStep st t).map (substState f) := by
      by_cases hx : ∃ x, t = .name x
      · obtain ⟨x, rfl⟩ := hx
        obtain ⟨S, n⟩ := st
        cases n with
        | field e => exact absurd hnf id
        | operator e => rfl
        | operand =>
          have hfx : f x = .name x := h x List.mem_cons_self
          show some (S.map (ExprFrame.subst f), ExprNext.operator (.name x)) =
            some (S.map (ExprFrame.subst f), ExprNext.operator (f x))
          rw [hfx]
      · exact step_subst f st t fun _ x hx' => hx ⟨x, hx'⟩
    rw [exprSteps, exprSteps, hstep]
    cases h1 : exprStep st t with
    | none => rfl
    | some st1 =>
      show exprSteps (substState f st1) ts = (exprSteps st1 ts).map (substState f)
      by_cases hd : t = .dot
      · subst hd
        obtain ⟨S, e, rfl, rfl⟩ := step_dot h1
        cases ts with
        | nil => rfl
        | cons t2 ts =>
          rw [exprSteps, exprSteps, step_subst f _ t2 fun h => absurd h id]
          cases t2 with
          | name x => exact steps_subst_names f ts _ trivial h
          | num x => exact steps_subst_names f ts _ trivial h
          | _ => rfl
      · refine steps_subst_names f ts st1 (step_notField hd h1) ?_
        intro y hy
        apply h
        cases t with
        | name x => exact List.mem_cons_of_mem _ hy
        | dot => exact absurd rfl hd
        | _ => exact hy

theorem rest_subst_names (f : Text → Expr) (ts : List Tok) (st : List ExprFrame × ExprNext) (hnf : NotField st)
    (h : ∀ y ∈ bareNames ts, f y = .name y) : (exprSteps (substState f st) ts).bind exprEnd =
      ((exprSteps st ts).bind exprEnd).map (Expr.subst f) := by
  rw [steps_subst_names f ts st hnf h]
  cases exprSteps st ts with
  | none => rfl
  | some st' => exact end_subst f st'

/-- A name without a meaning makes the whole meaningless. -/
theorem bare_none {S : Scope} {y : Text} (hy : S.name y = none) (ts : List Tok) (st : List ExprFrame × ExprNext)
    (hnf : NotField st) (hm : y ∈ bareNames ts) : ((exprSteps st ts).bind exprEnd).bind (Expr.eval S) = none := by
  cases h1 : exprSteps st ts with
  | none => rfl
  | some st' =>
    have hh := steps_bare y ts st st' hnf hm h1
    cases h2 : exprEnd st' with
    | none => simp [h2]
    | some e =>
      simp only [Option.bind_some, h2]
      refine (end_has _ hh h2).eval_none ?_
      show (S.name y).map _ = none
      rw [hy]
      rfl

/-! ## The properties -/

/-- **C87** (agreement): with fields and variables of different names, an expression that is accepted in both directions
gives the same number in both – unless it begins with a number and stands in a struct, behind `self.`. -/
theorem C87_agree_partial (p : Place) (u : ExprUse) (len : Bool) (vs : ExprVars) (src : Text) (fs before : List (Sel × Thing))
    (ts : List Tok) (n m : Int) (hb : before <+: fs) (hd : Distinct (fs ++ varThings vs))
    (hnum : p = .structField → localText p len vs src = false → NoNumberFirst ts) (hn : decodeNumberV p u vs before ts = some n)
    (hm : encodeNumberV p u len vs src fs ts = some m) : n = m := by
  have hv : p = .variant → u = .offset := by
    intro hp
    subst hp
    cases u with
    | offset => rfl
    | number => exact absurd hn (by rw [show decodeNumberV .variant .number vs before ts = none from C77_on_variant _ (by decide) _ _]; simp)
    | order => exact absurd hn (by rw [show decodeNumberV .variant .order vs before ts = none from C77_on_variant _ (by decide) _ _]; simp)
  have hdec : decodePrefix p u = [] := by
    cases p <;> cases u <;> first | rfl | (exact absurd (hv rfl) (by decide))
  unfold decodeNumberV at hn
  rw [hdec] at hn
  unfold encodeNumberV at hm
  refine numberIn_agree (decodeScopeV_of hb hd) (encodeScopeV_of p hd) ?_ hn hm
  cases hl : localText p len vs src with
  | true => rfl
  | false =>
    rw [hl] at hm
    refine (parse_prefix u (encodePrefix p u) ts ?_ ?_ ?_).symm
    · cases p <;> cases u <;> first | exact .inl rfl | exact .inr (.inl rfl) | exact .inr (.inr rfl)
    · intro h
      refine hnum ?_ hl
      cases p with
      | structField => rfl
      | namedField => cases u <;> cases h
      | tupleField => cases u <;> cases h
      | variant => rw [hv rfl] at h; cases h
    · intro h
      unfold numberIn at hm
      rw [show (if (false = true) then ([] : List Tok) else encodePrefix p u) = encodePrefix p u from rfl, h] at hm
      cases hm

/-- **C87** (structs): an expression that is accepted when decoding is accepted when encoding, with the same number, exactly
if it is in a `length`, its text is a part of the names of the variables, and all names in it are variables; or if not,
and it begins with the name of a field and all other names in it are variables. -/
theorem C87_struct_iff (u : ExprUse) (len : Bool) (vs : ExprVars) (src : Text) (fs before : List (Sel × Thing)) (ts : List Tok)
    (n m : Int) (hb : before <+: fs) (hd : Distinct (fs ++ varThings vs)) (hnamed : ∀ p ∈ fs, ∃ x, p.1 = .name x)
    (hn : decodeNumberV .structField u vs before ts = some n) :
    encodeNumberV .structField u len vs src fs ts = some m ↔ m = n ∧
      ((len = true ∧ src <:+: joinedVars vs) ∧ (∀ y ∈ bareNames ts, IsVar vs y) ∨
        ¬ (len = true ∧ src <:+: joinedVars vs) ∧
          ∃ f rest, ts = .name f :: rest ∧ IsField fs f ∧ ∀ y ∈ bareNames rest, IsVar vs y) := by
  have hs := distinct_split hd
  have hscope : encodeScopeV .structField vs fs =
      ⟨fun x => (fieldNamed (varThings vs) x).map fun t => (false, t), some (.record fs)⟩ := rfl
  have hnone : ∀ y, ¬ IsVar vs y → (encodeScopeV .structField vs fs).name y = none := by
    intro y hy
    rw [hscope]
    cases h : fieldNamed (varThings vs) y with
    | none => simp only [h, Option.map_none]
    | some t => exact absurd ((fieldNamed_vars vs y).1 ⟨t, h⟩) hy
  have hloc : localText .structField len vs src = true ↔ len = true ∧ src <:+: joinedVars vs := by
    unfold localText
    simp
  -- the meaning of names, for the other direction
  let f : Text → Expr := fun x => if (fieldNamed (varThings vs) x).isSome then .name x else .field .self (.name x)
  have hfvar : ∀ y, IsVar vs y → f y = .name y := by
    intro y hy
    obtain ⟨t, ht⟩ := (fieldNamed_vars vs y).2 hy
    show (if (fieldNamed (varThings vs) y).isSome then Expr.name y else _) = _
    rw [ht]
    rfl
  have hf : ∀ x b t, (decodeScope (before ++ varThings vs)).name x = some (b, t) →
      (f x).eval (encodeScopeV .structField vs fs) = some (.val b t) := by
    intro x b t h
    obtain ⟨t', ht', he⟩ := Option.map_eq_some_iff.1 h
    cases he
    rw [fieldNamed_append] at ht'
    cases h1 : fieldNamed before x with
    | some t2 =>
      rw [h1] at ht'
      cases ht'
      have h2 := fieldNamed_before hb h1
      have h3 : fieldNamed (varThings vs) x = none := by
        cases h4 : fieldNamed (varThings vs) x with
        | none => rfl
        | some t4 => rw [hs.2 x t4 h4] at h2; cases h2
      have : f x = .field .self (.name x) := by
        show (if (fieldNamed (varThings vs) x).isSome then Expr.name x else _) = _
        rw [h3]
        rfl
      rw [this]
      have h5 := lookup_of_fieldNamed hnamed x
      rw [h2] at h5
      simp [Expr.eval, hscope, evalField, h5]
    | none =>
      rw [h1] at ht'
      have ht' : fieldNamed (varThings vs) x = some t := ht'
      rw [hfvar x ((fieldNamed_vars vs x).1 ⟨t, ht'⟩)]
      simp [Expr.eval, hscope, ht']
  constructor
  · intro hm
    by_cases hl : len = true ∧ src <:+: joinedVars vs
    · refine ⟨(C87_agree_partial .structField u len vs src fs before ts n m hb hd
        (fun _ h => by rw [hloc.2 hl] at h; cases h) hn hm).symm, .inl ⟨hl, fun y hy => ?_⟩⟩
      refine Classical.byContradiction fun hno => ?_
      have : encodeNumberV .structField u len vs src fs ts = none := by
        apply numberIn_none
        rw [hloc.2 hl, parse_emitted]
        exact bare_none (hnone y hno) (ts ++ emitEnd u) _ trivial (by rw [bareNames_end]; exact hy)
      rw [this] at hm
      cases hm
    · have hlf : localText .structField len vs src = false := Bool.eq_false_iff.2 fun h => hl (hloc.1 h)
      have hts : ∃ g rest, ts = .name g :: rest := by
        refine Classical.byContradiction fun hno => ?_
        have : encodeNumberV .structField u len vs src fs ts = none := by
          apply numberIn_none
          rw [hlf, parse_emitted]
          cases ts with
          | nil => cases u <;> rfl
          | cons t ts =>
            cases t with
            | name x => exact absurd ⟨x, ts, rfl⟩ hno
            | num k =>
              refine rest_none (.field .self (.index k)) ?_ (ts ++ emitEnd u)
                (emitStart u, .operator (.field .self (.index k))) (.inr .here)
              have h5 : fs.lookup (.index k) = none := by
                rw [List.lookup_eq_none_iff]
                intro p hp
                obtain ⟨x, hx⟩ := hnamed p hp
                rw [hx]
                rfl
              simp [Expr.eval, hscope, evalField, h5]
            | _ => cases u <;> rfl
        rw [this] at hm
        cases hm
      obtain ⟨g, rest, rfl⟩ := hts
      refine ⟨(C87_agree_partial .structField u len vs src fs before _ n m hb hd (fun _ _ k r h => by cases h) hn hm).symm,
        .inr ⟨hl, g, rest, rfl, ?_, ?_⟩⟩
      · refine Classical.byContradiction fun hno => ?_
        have : encodeNumberV .structField u len vs src fs (.name g :: rest) = none := by
          apply numberIn_none
          rw [hlf, parse_emitted]
          refine rest_none (.field .self (.name g)) ?_ (rest ++ emitEnd u)
            (emitStart u, .operator (.field .self (.name g))) (.inr .here)
          have h5 := lookup_of_fieldNamed hnamed g
          have h6 : fieldNamed fs g = none := by
            cases h6 : fieldNamed fs g with
            | none => rfl
            | some t => exact absurd ((fieldNamed_field hnamed g).1 ⟨t, h6⟩) hno
          rw [h6] at h5
          simp [Expr.eval, hscope, evalField, h5]
        rw [this] at hm
        cases hm
      · intro y hy
        refine Classical.byContradiction fun hno => ?_
        have : encodeNumberV .structField u len vs src fs (.name g :: rest) = none := by
          apply numberIn_none
          rw [hlf, parse_emitted]
          exact bare_none (hnone y hno) (rest ++ emitEnd u) (emitStart u, .operator (.field .self (.name g))) trivial
            (by rw [bareNames_end]; exact hy)
        rw [this] at hm
        cases hm
  · rintro ⟨rfl, ⟨hl, hall⟩ | ⟨hl, g, rest, rfl, hg, hall⟩⟩
    · unfold encodeNumberV
      rw [hloc.2 hl]
      refine numberIn_subst f (S := decodeScope (before ++ varThings vs)) rfl hf ?_ hn
      rw [parse_emitted, parse_emitted]
      have := rest_subst_names f (ts ++ emitEnd u) (emitStart u, .operand) trivial
        (by rw [bareNames_end]; exact fun y hy => hfvar y (hall y hy))
      cases u <;> exact this
    · have hlf : localText .structField len vs src = false := Bool.eq_false_iff.2 fun h => hl (hloc.1 h)
      unfold encodeNumberV
      rw [hlf]
      refine numberIn_subst f (S := decodeScope (before ++ varThings vs)) rfl hf ?_ hn
      rw [parse_emitted, parse_emitted]
      have hfg : f g = .field .self (.name g) := by
        obtain ⟨t, ht⟩ := (fieldNamed_field hnamed g).2 hg
        have h3 : fieldNamed (varThings vs) g = none := by
          cases h4 : fieldNamed (varThings vs) g with
          | none => rfl
          | some t4 => rw [hs.2 g t4 h4] at ht; cases ht
        show (if (fieldNamed (varThings vs) g).isSome then Expr.name g else _) = _
        rw [h3]
        rfl
      have := rest_subst_names f (rest ++ emitEnd u) (emitStart u, .operator (.name g)) trivial
        (by rw [bareNames_end]; exact fun y hy => hfvar y (hall y hy))
      have he : substState f (emitStart u, .operator (.name g)) = (emitStart u, .operator (.field .self (.name g))) := by
        show ((emitStart u).map (ExprFrame.subst f), ExprNext.operator (f g)) = _
        rw [hfg]
        cases u <;> rfl
      rw [he] at this
      cases u <;> exact this

/-- Every name is a part of the list of names. -/
theorem var_infix {vs : ExprVars} {x : Text} (h : IsVar vs x) : x <:+: joinedVars vs := by
  obtain ⟨z, h⟩ := h
  induction vs with
  | nil => cases h
  | cons v vs ih =>
    cases vs with
    | nil =>
      rcases List.mem_cons.1 h with h | h
      · subst h
        exact List.infix_refl _
      · cases h
    | cons w vs =>
      rcases List.mem_cons.1 h with h | h
      · subst h
        exact ⟨[], [',', ' '] ++ joinedVars (w :: vs), by simp [joinedVars]⟩
      · exact (ih h).trans ⟨v.1 ++ [',', ' '], [], by simp [joinedVars]⟩

/-- **C87** (`length`): the documented use, `length = "x"` for a variable `x`, gives the value of the variable in the
encoder, on a field of a struct as on one of a variant without a field of that name. -/
theorem C87_length (p : Place) (hp : p ≠ .variant) (vs : ExprVars) (x : Text) (fs : List (Sel × Thing)) (z : Nat)
    (hz : z < 2 ^ 64) (hx : fieldNamed (varThings vs) x = some (.int ['u', 's', 'i', 'z', 'e'] z))
    (hf : fieldNamed fs x = none) :
    encodeNumberV p .number true vs x fs [.name x] = some z := by
  have hvar : IsVar vs x := (fieldNamed_vars vs x).1 ⟨_, hx⟩
  have hl : localText p true vs x = true := by
    unfold localText
    cases p <;> first | exact absurd rfl hp | simp [var_infix hvar]
  have hname : (encodeScopeV p vs fs).name x = some (false, .int ['u', 's', 'i', 'z', 'e'] z) := by
    unfold encodeScopeV
    split
    · simp [hx]
    · simp [hx, hf]
  unfold encodeNumberV
  rw [hl]
  show numberIn (encodeScopeV p vs fs) (emitted .number [.name x]) = _
  have hpar : parseExpr (emitted .number [.name x]) = some (.cast (.name x) ['u', 's', 'i', 'z', 'e']) := rfl
  unfold numberIn
  rw [hpar]
  have hk : ∃ k, intNamed ['u', 's', 'i', 'z', 'e'] = some k ∧ asInt k (z : Int) = z := by
    refine ⟨⟨8, false⟩, rfl, asInt_fits _ (by decide) _ ?_⟩
    simp only [FitsInt]
    exact ⟨Int.natCast_nonneg z, by exact_mod_cast hz⟩
  obtain ⟨k, hk, hz'⟩ := hk
  simp [Expr.eval, hname, evalCast, hk, hz']

/-- **C87** (variants): a single name in a number of a field of a variant, which the decoder accepts, is accepted by the
encoder – with the same number – exactly if it is a variable, in a `length`; or a field, and not in a `length` where it is a
part of the names of the variables.  On an unnamed field: exactly if it is a variable. -/
theorem C87_variant_iff (p : Place) (len : Bool) (vs : ExprVars) (fs before : List (Sel × Thing)) (x : Text) (n m : Int)
    (hb : before <+: fs) (hd : Distinct (fs ++ varThings vs))
    (hp : p = .namedField ∨ p = .tupleField) (hn : decodeNumberV p .number vs before [.name x] = some n) :
    encodeNumberV p .number len vs x fs [.name x] = some m ↔ m = n ∧
      (p = .namedField ∧ (IsVar vs x ∧ len = true ∨ ¬ IsVar vs x ∧ ¬ (len = true ∧ x <:+: joinedVars vs)) ∨
        p = .tupleField ∧ IsVar vs x) := by
  have hs := distinct_split hd
  have hpar : parseExpr (emitted .number [.name x]) = some (.cast (.name x) ['u', 's', 'i', 'z', 'e']) := rfl
  have hpar2 : parseExpr (emitted .number [.star, .name x]) = some (.cast (.deref (.name x)) ['u', 's', 'i', 'z', 'e']) := rfl
  have hdecn : numberIn (decodeScope (before ++ varThings vs)) (emitted .number [.name x]) = some n := by
    rcases hp with rfl | rfl <;> exact hn
  have hscope : encodeScopeV p vs fs = ⟨fun x => ((fieldNamed fs x).map fun t => (true, t)).or
      ((fieldNamed (varThings vs) x).map fun t => (false, t)), some (.record [])⟩ := by
    rcases hp with rfl | rfl <;> rfl
  -- what the name is
  obtain ⟨t, ht⟩ : ∃ t, fieldNamed (before ++ varThings vs) x = some t := by
    obtain ⟨e, ty, h1, h2⟩ := numberIn_some hdecn
    rw [hpar] at h1
    cases h1
    obtain ⟨a, ha, -⟩ := Option.bind_eq_some_iff.1 (show ((Expr.name x).eval _).bind (evalCast _) = _ from h2)
    obtain ⟨q, hq, -⟩ := Option.map_eq_some_iff.1 ha
    obtain ⟨t, ht, -⟩ := Option.map_eq_some_iff.1 hq
    exact ⟨t, ht⟩
  have hnum : ∀ S : Scope, S.name x = some (false, t) → numberIn S (emitted .number [.name x]) = some n := by
    intro S hS
    rw [← hdecn]
    unfold numberIn
    rw [hpar]
    simp [Expr.eval, hS, decodeScope, ht]
  have hnum2 : ∀ S : Scope, S.name x = some (true, t) → numberIn S (emitted .number [.star, .name x]) = some n := by
    intro S hS
    rw [← hdecn]
    unfold numberIn
    rw [hpar, hpar2]
    simp [Expr.eval, hS, decodeScope, ht, evalDeref]
  have hbad : ∀ S : Scope, S.name x = some (true, t) → numberIn S (emitted .number [.name x]) = none := by
    intro S hS
    unfold numberIn
    rw [hpar]
    cases t <;> simp [Expr.eval, hS, evalCast]
  have hbad2 : ∀ S : Scope, S.name x = some (false, t) → numberIn S (emitted .number [.star, .name x]) = none := by
    intro S hS
    unfold numberIn
    rw [hpar2]
    simp [Expr.eval, hS, evalDeref]
  have hloc : localText p len vs x = true ↔ len = true ∧ x <:+: joinedVars vs := by
    unfold localText
    rcases hp with rfl | rfl <;> simp
  have hpre : encodePrefix p .number = if p = .namedField then [.star] else [] := by
    rcases hp with rfl | rfl <;> rfl
  by_cases hvar : IsVar vs x
  · obtain ⟨t', ht'⟩ := (fieldNamed_vars vs x).2 hvar
    have hfn := hs.2 x t' ht'
    have htt : t' = t := by
      have := fieldNamed_all hb hd ht
      rw [fieldNamed_append, hfn, ht'] at this
      exact Option.some.inj this
    subst htt
    have hS : (encodeScopeV p vs fs).name x = some (false, t') := by rw [hscope]; simp [hfn, ht']
    unfold encodeNumberV
    cases hlen : localText p len vs x with
    | true =>
      have hl := hloc.1 hlen
      rw [show (if (true = true) then ([] : List Tok) else encodePrefix p .number) ++ [.name x] = [.name x] from rfl, hnum _ hS]
      rcases hp with rfl | rfl
      · simp [hvar, hl.1, eq_comm]
      · simp [hvar, eq_comm]
    | false =>
      have hl : len = false := by
        cases len with
        | false => rfl
        | true => rw [hloc.2 ⟨rfl, var_infix hvar⟩] at hlen; cases hlen
      rcases hp with rfl | rfl
      · rw [show numberIn _ (emitted .number ((if (false = true) then ([] : List Tok) else encodePrefix .namedField .number) ++
          [.name x])) = none from hbad2 _ hS]
        simp [hvar, hl]
      · rw [show numberIn _ (emitted .number ((if (false = true) then ([] : List Tok) else encodePrefix .tupleField .number) ++
          [.name x])) = some n from hnum _ hS]
        simp [hvar, eq_comm]
  · have hfn : fieldNamed fs x = some t := by
      have h := fieldNamed_all hb hd ht
      rw [fieldNamed_append] at h
      cases h1 : fieldNamed fs x with
      | some t' => rw [h1] at h; exact h
      | none =>
        rw [h1] at h
        exact absurd ((fieldNamed_vars vs x).1 ⟨t, h⟩) hvar
    have hS : (encodeScopeV p vs fs).name x = some (true, t) := by rw [hscope]; simp [hfn]
    unfold encodeNumberV
    cases hlen : localText p len vs x with
    | true =>
      have hl := hloc.1 hlen
      rw [show (if (true = true) then ([] : List Tok) else encodePrefix p .number) ++ [.name x] = [.name x] from rfl, hbad _ hS]
      simp [hvar, hl]
    | false =>
      have hl : ¬ (len = true ∧ x <:+: joinedVars vs) := fun h => by rw [hloc.2 h] at hlen; cases hlen
      rcases hp with rfl | rfl
      · rw [show numberIn _ (emitted .number ((if (false = true) then ([] : List Tok) else encodePrefix .namedField .number) ++
          [.name x])) = some n from hnum2 _ hS]
        simp only [Option.some.injEq, true_and, reduceCtorEq, false_and, or_false]
        exact ⟨fun h => ⟨h.symm, .inr ⟨hvar, hl⟩⟩, fun h => h.1.symm⟩
      · rw [show numberIn _ (emitted .number ((if (false = true) then ([] : List Tok) else encodePrefix .tupleField .number) ++
          [.name x])) = none from hbad _ hS]
        simp [hvar]

/-- C87 fails.  Accepted by the decoder and not by the encoder of a struct with the variable `k`: `count = "k"`,
`length = "k + 1"`; with the variable `width` and the field `id`: `length = "id"`.  And with the field `n` and the variable
`n` both are accepted, with different numbers: the field when decoding, the variable when encoding. -/
theorem C87_violated :
    (decodeNumberV .structField .number [(['k'], 3)] [] [.name ['k']] = some 3 ∧
      encodeNumberV .structField .number false [(['k'], 3)] ['k'] [] [.name ['k']] = none) ∧
    (decodeNumberV .structField .number [(['k'], 3)] [] [.name ['k'], .plus, .num 1] = some 4 ∧
      encodeNumberV .structField .number true [(['k'], 3)] ['k', ' ', '+', ' ', '1'] [] [.name ['k'], .plus, .num 1] = none) ∧
    (decodeNumberV .structField .number [(['w', 'i', 'd', 't', 'h'], 3)] [(.name ['i', 'd'], .int ['u', '8'] 5)]
        [.name ['i', 'd']] = some 5 ∧
      encodeNumberV .structField .number true [(['w', 'i', 'd', 't', 'h'], 3)] ['i', 'd'] [(.name ['i', 'd'], .int ['u', '8'] 5)]
        [.name ['i', 'd']] = none) ∧
    (decodeNumberV .structField .number [(['n'], 3)] [(.name ['n'], .int ['u', '8'] 5)] [.name ['n']] = some 5 ∧
      encodeNumberV .structField .number true [(['n'], 3)] ['n'] [(.name ['n'], .int ['u', '8'] 5)] [.name ['n']] = some 3) ∧
    (decodeNumberV .namedField .number [(['k'], 3)] [] [.name ['k']] = some 3 ∧
      encodeNumberV .namedField .number false [(['k'], 3)] ['k'] [] [.name ['k']] = none) := by
  decide +kernel

/-! ## Examples -/

/-- `length = "n - k"` with the field `n` and the variable `k`: `self.n - k` when encoding. -/
example : encodeNumberV .structField .number true [(['k'], 3)] ['n', ' ', '-', ' ', 'k']
    [(.name ['n'], .int ['u', 's', 'i', 'z', 'e'] 10)] [.name ['n'], .minus, .name ['k']] = some 7 :=
  (C87_struct_iff .number true [(['k'], 3)] _ _ [(.name ['n'], .int ['u', 's', 'i', 'z', 'e'] 10)] _ 7 7 (List.prefix_refl _)
    (by show [['n'], ['k']].Nodup; decide) (by intro p hp; rcases List.mem_cons.1 hp with rfl | hp; exact ⟨_, rfl⟩; cases hp)
    (by decide +kernel)).2
    ⟨rfl, .inr ⟨by decide, _, _, rfl, ⟨_, List.mem_cons_self⟩, by
      intro y hy
      rcases List.mem_cons.1 (show y ∈ [['k']] from hy) with rfl | h
      · exact ⟨3, List.mem_cons_self⟩
      · cases h⟩⟩

/-- tests/test_modifier_variable_name.rs: `length = "length"` with `get_variable_name = "length"`. -/
example : encodeNumberV .namedField .number true [(['l', 'e', 'n'], 12)] ['l', 'e', 'n'] [(.name ['d'], .record [])]
    [.name ['l', 'e', 'n']] = some 12 :=
  C87_length .namedField (by decide) _ _ _ 12 (by decide) rfl rfl

end JBytes
