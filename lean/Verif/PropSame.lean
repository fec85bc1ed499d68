import Verif.Same
import Verif.PropHttpMore
/-!
# C102: types that hold the same data are interchangeable on the wire
-/

namespace JBytes
open M

variable {V : Type}

theorem orderCode_within (o : Option (OrderAttr V)) (g : Env V → Env V) (env : Env V) :
    orderCode (o.map (OrderAttr.within g)) env = orderCode o (g env) := by
  rcases o with _ | (o | e) <;> rfl

theorem modifiers_within (a : FieldAttrs V) (g : Env V → Env V) (o : Option ByteOrder) (env : Env V) :
    (a.within g).modifiers o env = a.modifiers o (g env) := by
  simp [FieldAttrs.modifiers, FieldAttrs.within, Option.map_map, Function.comp_def]

theorem toCode_within (a : FieldAttrs V) (g : Env V → Env V) (env : Env V) :
    (a.within g).toCode env = a.toCode (g env) := by
  have h : (a.within g).anySet = a.anySet := by simp [FieldAttrs.anySet, FieldAttrs.within]
  unfold FieldAttrs.toCode
  rw [h]
  simp only [modifiers_within]
  show (if (a.isUse && a.anySet) = true then orderCode (a.byteorder.map (OrderAttr.within g)) env >>= _ else _) = _
  rw [orderCode_within]

theorem decField_within (f : Field V) (g : Env V → Env V) (env : Env V) (ca : Option CAttr) (fa : Option FAttr) :
    decField (f.within g) env ca fa = decField f (g env) ca fa := by
  have h1 : skipOffset (f.within g).attrs env = skipOffset f.attrs (g env) := by
    simp only [skipOffset, Field.within, FieldAttrs.within]
    cases f.attrs.offset <;> rfl
  have h2 : decCond (f.within g) env = decCond f (g env) := by
    funext ca fa
    simp only [decCond, Field.within, FieldAttrs.within]
    cases f.attrs.ifExpr <;> rfl
  have h3 : finishValue (f.within g).attrs env = finishValue f.attrs (g env) := by
    funext v
    obtain ⟨a, d, e, x, y⟩ := f
    obtain ⟨_, _, _, _, _, _, _, _, _, _, _, _, _, vd, _, _, _, _, _, _, _, _, _, _, _, _, _, _, cv⟩ := a
    cases vd <;> cases cv <;> rfl
  have h4 : decPlain (f.within g) env = decPlain f (g env) := by
    funext ca fa
    unfold decPlain
    rw [h2, h3]
    rfl
  unfold decField
  rw [h1, h4]
  simp only [Field.within, FieldAttrs.within]
  cases f.attrs.withDecode <;> rfl

theorem encField_within (f : Field V) (g : Env V → Env V) (env : Env V) (v : V) (ca : Option CAttr) (fa : Option FAttr) :
    encField (f.within g) env v ca fa = encField f (g env) v ca fa := by
  have h1 : padOffset (f.within g).attrs env = padOffset f.attrs (g env) := by
    simp only [padOffset, Field.within, FieldAttrs.within]
    cases f.attrs.offset <;> rfl
  have h2 : encPlain (f.within g) env v ca fa = encPlain f (g env) v ca fa := by
    unfold encPlain
    rw [h1]
    simp only [Field.within, FieldAttrs.within]
    cases f.attrs.valueEncode <;> rfl
  have h3 : encText (f.within g).attrs v ca fa = encText f.attrs v ca fa := rfl
  unfold encField
  rw [h2, h3]
  simp only [Field.within, FieldAttrs.within, Option.isSome_map]
  cases f.attrs.withEncode <;> rfl

theorem fieldStep_within (f : Field V) (g : Env V → Env V) (ca : Option CAttr) (env : Env V) :
    fieldStep (f.within g) ca env = fieldStep f ca (g env) := by
  unfold fieldStep
  simp only [decField_within]
  rw [show (f.within g).attrs = f.attrs.within g from rfl, toCode_within]

theorem fieldEnc_within (f : Field V) (g : Env V → Env V) (ca : Option CAttr) (env : Env V) (v : V) :
    fieldEnc (f.within g) ca env v = fieldEnc f ca (g env) v := by
  unfold fieldEnc
  simp only [encField_within]
  rw [show (f.within g).attrs = f.attrs.within g from rfl, toCode_within]

theorem cacheVars_within (a : FieldAttrs V) (g : Env V → Env V) (ca : Option CAttr) (env : Env V) :
    cacheVars (a.within g) ca env = cacheVars a ca (g env) := by
  simp only [cacheVars, FieldAttrs.within]
  cases a.variableName with
  | none => rfl
  | some l => simp [List.map_map, Function.comp_def]

/-- Fields whose expressions are read in another scope, when that scope grows in step. -/
theorem decFields_within (g : Env V → Env V) (P : Env V → Prop) (hP : ∀ env v, P env → P (env.push v))
    (hg : ∀ env v, P env → g (env.push v) = (g env).push v) (fs : List (Field V)) :
    ∀ (ca : Option CAttr) (env : Env V) (b : Buf), P env →
      decFields false (fs.map (Field.within g)) ca none env b = decFields false fs ca none (g env) b := by
  induction fs with
  | nil => intro ca env b h; rfl
  | cons f fs ih =>
    intro ca env b h
    rw [List.map_cons, decFields_cons, decFields_cons, bind_apply, bind_apply, fieldStep_within]
    rcases fieldStep f ca (g env) b with ⟨o, b1⟩
    cases o with
    | ok v =>
      simp only [bind_apply]
      rw [show (f.within g).attrs = f.attrs.within g from rfl, cacheVars_within, ih _ _ _ (hP env v h), hg env v h]
    | _ => rfl

theorem encFields_within (g : Env V → Env V) (P : Env V → Prop) (hP : ∀ env v, P env → P (env.push v))
    (hg : ∀ env v, P env → g (env.push v) = (g env).push v) (fs : List (Field V)) :
    ∀ (ca : Option CAttr) (env : Env V) (vs : List V) (b : Buf), P env →
      encFields false (fs.map (Field.within g)) ca none env vs b = encFields false fs ca none (g env) vs b := by
  induction fs with
  | nil => intro ca env vs b h; rfl
  | cons f fs ih =>
    intro ca env vs b h
    cases vs with
    | nil => rfl
    | cons v vs =>
      rw [List.map_cons, encFields_cons, encFields_cons, bind_apply, bind_apply, fieldEnc_within]
      rcases fieldEnc f ca (g env) v b with ⟨o, b1⟩
      cases o with
      | ok n =>
        simp only [bind_apply]
        rw [ih _ _ _ _ (hP env v h), hg env v h]
      | _ => rfl

theorem inner_push (a : Nat) (env : Env V) (v : V) (h : a ≤ env.fields.length) :
    (env.push v).inner a = (env.inner a).push v := by
  simp [Env.inner, Env.push, List.drop_append, Nat.sub_eq_zero_of_le h]

theorem outer_push (wrap : List V → V) (a n : Nat) (env : Env V) (v : V) (h : a + n ≤ env.fields.length) :
    (env.push v).outer wrap a n = (env.outer wrap a n).push v := by
  have h1 : a - env.fields.length = 0 := by omega
  have h2 : n - (env.fields.length - a) = 0 := by omega
  have h3 : a + n - env.fields.length = 0 := by omega
  simp [Env.outer, Env.push, gather, List.take_append, List.drop_append, h1, h2, h3]

theorem decFields_inner (a : Nat) (fs : List (Field V)) (ca : Option CAttr) (env : Env V) (b : Buf)
    (h : env.fields.length = a) :
    decFields false (fs.map (Field.within (Env.inner a))) ca none env b = decFields false fs ca none {} b := by
  rw [decFields_within (Env.inner a) (fun env => a ≤ env.fields.length)
    (fun env v h => by simp only [Env.push, List.length_append, List.length_singleton]; omega)
    (fun env v h => inner_push a env v h) fs ca env b (by omega)]
  rw [show env.inner a = {} from by simp [Env.inner, ← h]]

theorem encFields_inner (a : Nat) (fs : List (Field V)) (ca : Option CAttr) (env : Env V) (vs : List V) (b : Buf)
    (h : env.fields.length = a) :
    encFields false (fs.map (Field.within (Env.inner a))) ca none env vs b = encFields false fs ca none {} vs b := by
  rw [encFields_within (Env.inner a) (fun env => a ≤ env.fields.length)
    (fun env v h => by simp only [Env.push, List.length_append, List.length_singleton]; omega)
    (fun env v h => inner_push a env v h) fs ca env vs b (by omega)]
  rw [show env.inner a = {} from by simp [Env.inner, ← h]]

theorem outer_extend (wrap : List V → V) (vars : List (String × Nat)) (as ns : List V) :
    Env.outer wrap as.length ns.length ((Env.extend { vars := vars } as).extend ns) =
      ((Env.extend { vars := vars } as).push (wrap ns)) := by
  simp [Env.outer, Env.extend, Env.push, gather]

theorem decFields_outer (wrap : List V → V) (fs : List (Field V)) (ca : Option CAttr) (vars : List (String × Nat))
    (as ns : List V) (b : Buf) :
    decFields false (fs.map (Field.within (Env.outer wrap as.length ns.length))) ca none
        ((Env.extend { vars := vars } as).extend ns) b =
      decFields false fs ca none ((Env.extend { vars := vars } as).push (wrap ns)) b := by
  rw [decFields_within (Env.outer wrap as.length ns.length) (fun env => as.length + ns.length ≤ env.fields.length)
    (fun env v h => by simp only [Env.push, List.length_append, List.length_singleton]; omega)
    (fun env v h => outer_push wrap _ _ env v h) fs ca _ b (by simp [Env.extend])]
  rw [outer_extend]

theorem encFields_outer (wrap : List V → V) (fs : List (Field V)) (ca : Option CAttr) (vars : List (String × Nat))
    (as ns vs : List V) (b : Buf) :
    encFields false (fs.map (Field.within (Env.outer wrap as.length ns.length))) ca none
        ((Env.extend { vars := vars } as).extend ns) vs b =
      encFields false fs ca none ((Env.extend { vars := vars } as).push (wrap ns)) vs b := by
  rw [encFields_within (Env.outer wrap as.length ns.length) (fun env => as.length + ns.length ≤ env.fields.length)
    (fun env v h => by simp only [Env.push, List.length_append, List.length_singleton]; omega)
    (fun env v h => outer_push wrap _ _ env v h) fs ca _ vs b (by simp [Env.extend])]
  rw [outer_extend]

/-- A struct that can be a group: no `get_variable_name`, no codec of its own, named fields. -/
structure Groupable (c : Option CAttr) (N : StructDef V) : Prop where
  container : N.container = c
  getVars : N.getVars = []
  tuple : N.tuple = false
  dec : N.withDecode = none
  enc : N.withEncode = none

/-- A field without modifiers. -/
theorem fieldStep_bare (d : Dec V) (e : Enc V) (x y : V) (ca : Option CAttr) (env : Env V) (b : Buf) :
    fieldStep { attrs := {}, dec := d, enc := e, dflt := x, noneV := y } ca env b = d ca none b :=
  fieldStep_plain _ ⟨rfl, rfl, rfl, rfl, rfl, rfl⟩ rfl rfl rfl rfl rfl rfl ca env b

theorem fieldEnc_bare (d : Dec V) (e : Enc V) (x y : V) (ca : Option CAttr) (env : Env V) (v : V) (b : Buf) :
    fieldEnc { attrs := {}, dec := d, enc := e, dflt := x, noneV := y } ca env v b = e v ca none b := by
  simp only [fieldEnc, FieldAttrs.toCode, Bool.false_and, Bool.false_eq_true, if_false, bind_apply, pure_apply, encField,
    Bool.or_self, encText, Option.isSome_none, Bool.not_false, Bool.or_true, if_true, encPlain, padOffset]
  rcases e v ca none b with ⟨o, b1⟩
  cases o <;> simp

theorem groupField_step (wrap : List V → V) (unwrap : V → List V) (N : StructDef V) (x : V) (ca : Option CAttr)
    (env : Env V) (b : Buf) :
    fieldStep (groupField wrap unwrap N x) ca env b = mapM' wrap (decStruct N ca none) b :=
  fieldStep_bare _ _ _ _ ca env b

theorem grouped_dec (wrap : List V → V) (unwrap : V → List V) (c : Option CAttr) (names : List String)
    (A : List (Field V)) (N : StructDef V) (B : List (Field V)) (x : V) (ca : Option CAttr) (fa : Option FAttr) :
    decStruct (grouped wrap unwrap c names A N B x) ca fa =
      decFields false (A ++ groupField wrap unwrap N x :: B) c none { vars := localVars names ca } := rfl

theorem flat_dec (wrap : List V → V) (c : Option CAttr) (names : List String)
    (A : List (Field V)) (N : StructDef V) (B : List (Field V)) (ca : Option CAttr) (fa : Option FAttr) :
    decStruct (flat wrap c names A N B) ca fa =
      decFields false (A ++ (N.fields.map (Field.within (Env.inner A.length)) ++
        B.map (Field.within (Env.outer wrap A.length N.fields.length)))) c none { vars := localVars names ca } := rfl

/-- C102, grouping: gathering consecutive fields into a struct of their own, with the same container modifiers,
changes nothing about which bytes are read, which are refused, how and where: the values are the same, with those of
the group gathered. -/
theorem C102_grouped_decode (wrap : List V → V) (unwrap : V → List V) (c : Option CAttr) (names : List String)
    (A : List (Field V)) (N : StructDef V) (B : List (Field V)) (x : V) (hN : Groupable c N)
    (hA : ∀ f ∈ A, f.attrs.variableName = none) (hv : ∀ f ∈ N.fields, f.attrs.variableName = none)
    (ca : Option CAttr) (fa : Option FAttr) (b : Buf) :
    decStruct (grouped wrap unwrap c names A N B x) ca fa b =
      mapM' (gather wrap A.length N.fields.length) (decStruct (flat wrap c names A N B) ca fa) b := by
  obtain ⟨h1, h2, h3, h4, h5⟩ := hN
  have hw : ∀ f ∈ N.fields.map (Field.within (Env.inner A.length)), f.attrs.variableName = none := by
    intro f hf
    obtain ⟨g, hg, rfl⟩ := List.mem_map.1 hf
    simp [Field.within, FieldAttrs.within, hv g hg]
  rw [mapM'_apply, grouped_dec, flat_dec]
  generalize localVars names ca = vars
  rw [decFields_append, decFields_append, bind_apply, bind_apply]
  rcases e1 : decFields false A c none { vars := vars } b with ⟨o, b1⟩
  cases o with
  | ok as =>
    have la := decFields_length A _ _ _ _ _ _ _ e1
    simp only [bind_apply]
    rw [cachedAfter_none A hA, decFields_cons, decFields_append, bind_apply, bind_apply, groupField_step, mapM'_apply,
      decFields_inner A.length N.fields c _ _ (by simp [Env.extend, la])]
    have : decStruct N c none b1 = decFields false N.fields c none {} b1 := by
      unfold decStruct
      rw [h4, h3, h1, h2]
      rfl
    rw [this]
    rcases e2 : decFields false N.fields c none {} b1 with ⟨o2, b2⟩
    cases o2 with
    | ok ns =>
      have ln := decFields_length N.fields _ _ _ _ _ _ _ e2
      simp only [bind_apply]
      rw [cachedAfter_none (N.fields.map (Field.within (Env.inner A.length))) hw, ← la, ← ln,
        decFields_outer wrap B c vars as ns b2]
      rw [show cacheVars (groupField wrap unwrap N x).attrs c
        ((Env.extend { vars := vars } as).push (wrap ns)) = c from rfl]
      rcases decFields false B c none ((Env.extend { vars := vars } as).push (wrap ns)) b2 with ⟨o3, b3⟩
      cases o3 with
      | ok bs => simp [pure_apply, gather]
      | _ => rfl
    | _ => rfl
  | _ => rfl

theorem grouped_enc (wrap : List V → V) (unwrap : V → List V) (c : Option CAttr) (names : List String)
    (A : List (Field V)) (N : StructDef V) (B : List (Field V)) (x : V) (vs : List V) (ca : Option CAttr)
    (fa : Option FAttr) :
    encStruct (grouped wrap unwrap c names A N B x) vs ca fa =
      encFields false (A ++ groupField wrap unwrap N x :: B) c none { vars := localVars names ca } vs := rfl

theorem flat_enc (wrap : List V → V) (c : Option CAttr) (names : List String)
    (A : List (Field V)) (N : StructDef V) (B : List (Field V)) (vs : List V) (ca : Option CAttr) (fa : Option FAttr) :
    encStruct (flat wrap c names A N B) vs ca fa =
      encFields false (A ++ (N.fields.map (Field.within (Env.inner A.length)) ++
        B.map (Field.within (Env.outer wrap A.length N.fields.length)))) c none { vars := localVars names ca } vs := rfl

theorem groupField_enc (wrap : List V → V) (unwrap : V → List V) (N : StructDef V) (x : V) (ca : Option CAttr)
    (env : Env V) (v : V) (b : Buf) :
    fieldEnc (groupField wrap unwrap N x) ca env v b = encStruct N (unwrap v) ca none b :=
  fieldEnc_bare _ _ _ _ ca env v b

/-- C102, grouping: the same bytes are written, the same values refused, and the same count returned. -/
theorem C102_grouped_encode (wrap : List V → V) (unwrap : V → List V) (hu : ∀ vs, unwrap (wrap vs) = vs)
    (c : Option CAttr) (names : List String) (A : List (Field V)) (N : StructDef V) (B : List (Field V)) (x : V)
    (hN : Groupable c N) (as ns bs : List V) (ha : as.length = A.length) (hn : ns.length = N.fields.length)
    (ca : Option CAttr) (fa : Option FAttr) (b : Buf) :
    encStruct (grouped wrap unwrap c names A N B x) (as ++ wrap ns :: bs) ca fa b =
      encStruct (flat wrap c names A N B) (as ++ (ns ++ bs)) ca fa b := by
  obtain ⟨h1, h2, h3, h4, h5⟩ := hN
  rw [grouped_enc, flat_enc]
  generalize localVars names ca = vars
  rw [encFields_append _ _ _ _ _ _ ha.symm, encFields_append _ _ _ _ _ _ ha.symm, bind_apply, bind_apply]
  rcases encFields false A c none { vars := vars } as b with ⟨o, b1⟩
  cases o with
  | ok n =>
    simp only [bind_apply]
    rw [encFields_cons, encFields_append _ _ _ _ _ _ (by simpa using hn.symm), bind_apply, bind_apply, groupField_enc, hu,
      encFields_inner A.length N.fields c _ _ _ (by simp [Env.extend, ha])]
    have : encStruct N ns c none b1 = encFields false N.fields c none {} ns b1 := by
      unfold encStruct
      rw [h5, h1, h2]
      rfl
    rw [this]
    rcases encFields false N.fields c none {} ns b1 with ⟨o2, b2⟩
    cases o2 with
    | ok m =>
      simp only [bind_apply]
      rw [← ha, ← hn, encFields_outer wrap B c vars as ns bs b2]
    | _ => rfl
  | _ => rfl

/-! ## One field -/

/-- C102, wrappers: a struct of one field without modifiers reads and writes what the type of the field reads and
writes without modifiers, whatever the modifiers where it is used. -/
theorem C102_wrapper (d : Dec V) (e : Enc V) (x v : V) (ca : Option CAttr) (fa : Option FAttr) (b : Buf) :
    decStruct (wrapper d e x) ca fa b = mapM' (fun v => [v]) (d none none) b ∧
    encStruct (wrapper d e x) [v] ca fa b = e v none none b := by
  constructor
  · show decFields false [_] none none _ b = _
    rw [decFields_one, bind_apply, mapM'_apply, fieldStep_bare]
    rcases d none none b with ⟨o, b1⟩
    cases o <;> rfl
  · show encFields false [_] none none _ [v] b = _
    rw [encFields_cons, bind_apply, fieldEnc_bare]
    rcases e v none none b with ⟨o, b1⟩
    cases o <;> rfl

/-! ## Sequences -/

/-- C102, arrays and tuples: `[T; N]` and `(T, .., T)` read alike, under all modifiers. -/
theorem C102_array_tuple_decode {α : Type} (d : Dec α) (n : Nat) (ca : Option CAttr) (fa : Option FAttr) :
    decArray n d ca fa = decTuple (List.replicate n d) ca fa := by
  unfold decArray
  induction n with
  | zero => rfl
  | succ n ih =>
    rw [List.replicate_succ]
    unfold repeatM decTuple
    rw [ih]

/-- C102, arrays and tuples: `[T; N]` and `(T, .., T)` write alike, under all modifiers. -/
theorem C102_array_tuple_encode {α : Type} (e : Enc α) (l : List α) (ca : Option CAttr) (fa : Option FAttr) :
    encArray e l ca fa = encTuple (List.replicate l.length e) l ca fa := by
  unfold encArray
  induction l with
  | nil => rfl
  | cons a l ih =>
    rw [List.length_cons, List.replicate_succ]
    unfold encAll encTuple
    rw [ih]

/-- C102, vectors and arrays: `count = n` makes `Vec<T>` read like `[T; n]`, when neither the count nor the other
modifiers mean something to `T`. -/
theorem C102_vec_array_decode {α : Type} (fuel : Nat) (d : Dec α) (n : Nat) (ca : Option CAttr) (fr : FAttr)
    (hc : fr.count = some n) (hl : fr.loopSkipStarts = none) (hd : d ca (some fr) = d ca none) :
    decVec fuel d ca (some fr) = decArray n d ca none := by
  simp only [decVec, Option.bind_some, hl, decCounted, getCount, hc, hd]
  rfl

/-- C102, vectors and arrays: the same on the other side. -/
theorem C102_vec_array_encode {α : Type} (e : Enc α) (l : List α) (n : Nat) (ca : Option CAttr) (fr : FAttr)
    (hc : fr.count = some n) (hl : fr.loopSkipStarts = none) (hb : fr.byteCountOutside = none)
    (hd : ∀ a, e a ca (some fr) = e a ca none) (b : Buf) :
    encVec e l ca (some fr) b = encArray e l ca none b := by
  simp only [encVec, Option.bind_some, hl, pushCount, hb, hc, hd, Option.isSome_some, if_true, encArray]
  simp only [bind_apply, pure_apply]
  rcases encAll (fun a => e a ca none) l b with ⟨o, b1⟩
  cases o <;> simp

/-- C102, integers: `count` alone means nothing to them. -/
theorem C102_vec_array_int (fuel : Nat) (k : IntKind) (n : Nat) (l : List Nat) (ca : Option CAttr) (b : Buf) :
    decVec fuel (decInt k) ca (some { count := some n }) b = decArray n (decInt k) ca none b ∧
    encVec (encInt k) l ca (some { count := some n }) b = encArray (encInt k) l ca none b :=
  ⟨by rw [C102_vec_array_decode fuel (decInt k) n ca _ rfl rfl rfl],
    C102_vec_array_encode (encInt k) l n ca _ rfl rfl rfl (fun _ => rfl) b⟩

/-- C102, sets: without `loop_skip_starts` a `HashSet<T>` is read from the bytes a `Vec<T>` is read from, and each of
the values of the vector is in it. -/
theorem C102_set [DecidableEq V] (fuel : Nat) (d : Dec V) (ca : Option CAttr) (fa : Option FAttr)
    (hl : fa.bind (·.loopSkipStarts) = none) (b : Buf) :
    (∃ l s b', decVec fuel d ca fa b = (.ok l, b') ∧ decSet d ca fa b = (.ok s, b') ∧ s.Nodup ∧ ∀ v, v ∈ s ↔ v ∈ l) ∨
    ((∀ l b', decVec fuel d ca fa b ≠ (.ok l, b')) ∧ decSet d ca fa b = decVec fuel d ca fa b) := by
  have h1 : decVec fuel d ca fa = decCounted d ca fa := by simp only [decVec, hl]
  rw [h1]
  unfold decSet
  rw [bind_apply]
  rcases e : decCounted d ca fa b with ⟨o, b1⟩
  cases o with
  | ok l => exact .inl ⟨l, _, b1, rfl, rfl, nodup_foldl_setInsert l [] List.nodup_nil,
      fun v => by simp [mem_foldl_setInsert]⟩
  | _ => exact .inr ⟨(fun _ _ h => by simp at h), rfl⟩

/-- The pair of two types is the tuple. -/
theorem decPair_tuple {α β : Type} (dk : Dec α) (dv : Dec β) (ca : Option CAttr) (fa : Option FAttr) (b : Buf) :
    mapM' (fun p => [Sum.inl p.1, Sum.inr p.2]) (decPair dk dv ca fa) b =
      decTuple [fun ca fa => mapM' (Sum.inl (β := β)) (dk ca fa), fun ca fa => mapM' (Sum.inr (α := α)) (dv ca fa)] ca fa b := by
  rw [mapM'_apply]
  simp only [decPair, decTuple, bind_apply, mapM'_apply]
  rcases dk ca fa b with ⟨o, b1⟩
  cases o with
  | ok k =>
    simp only [bind_apply, mapM'_apply]
    rcases dv ca fa b1 with ⟨o, b2⟩
    cases o <;> rfl
  | _ => rfl

/-- C102, maps: without `split`, `linend` and `loop_skip_starts` a `HashMap<K, V>` is read from the bytes a
`Vec<(K, V)>` is read from. -/
theorem C102_map_decode {α β : Type} [DecidableEq α] (fuel : Nat) (dk : Dec α) (dv : Dec β) (ca : Option CAttr)
    (fa : Option FAttr) (hl : fa.bind (·.loopSkipStarts) = none) (hk : keyFattr fa = fa) (hv : valFattr fa = fa)
    (b : Buf) :
    decMap dk dv ca fa b = mapM' (fun l => l.foldl mapInsert []) (decVec fuel (decPair dk dv) ca fa) b := by
  have h1 : decVec fuel (decPair dk dv) ca fa = decCounted (decPair dk dv) ca fa := by simp only [decVec, hl]
  have h2 : decEntry dk dv ca fa = decPair dk dv ca fa := by
    unfold decEntry decPair
    rw [hk, hv]
  rw [h1]
  unfold decMap mapM'
  rw [decEntries_eq]
  unfold decCounted
  simp only [h2]

/-- C102, maps: the same on the other side (in the order in which the map gives its entries). -/
theorem C102_map_encode {α β : Type} (ek : Enc α) (ev : Enc β) (l : List (α × β)) (ca : Option CAttr)
    (fa : Option FAttr) (hl : fa.bind (·.loopSkipStarts) = none) (hk : keyFattr fa = fa) (hv : valFattr fa = fa) :
    encMap ek ev l ca fa = encVec (encPair ek ev) l ca fa := by
  unfold encMap
  simp only [encVec, hl, hk, hv]
  rfl

/-! ## The properties fail without these conditions -/

unseal usizeMod isizeMax in
/-- C102 in full is false.  The byte order of the outer container does not reach the group; the modifiers of a field
do not reach what is wrapped; the `count` of a vector reaches the vectors in it; `loop_skip_starts` is for vectors
and not for sets. -/
theorem C102_violated :
    (∃ (c : Option CAttr) (N : StructDef Pkt) (b b' : Buf), c = some { byteorder := some .le } ∧
      N = { fields := [Pkt.int ⟨2, false⟩ {}] } ∧
      decStruct (grouped Pkt.record Pkt.parts c [] [] N [] .unit) none none b = (.ok [.record [.num 256]], b') ∧
      decStruct (flat Pkt.record c [] [] N []) none none b = (.ok [.num 1], b')) ∧
    (∃ (fa : Option FAttr) (b b' : Buf), fa = some { byteorder := some .le } ∧
      decStruct (wrapper (decInt ⟨2, false⟩) (encInt ⟨2, false⟩) 0) none fa b = (.ok [256], b') ∧
      decInt ⟨2, false⟩ none fa b = (.ok 1, b')) ∧
    (∃ (fa : Option FAttr) (b b' : Buf), fa = some { count := some 2 } ∧
      decVec 0 (decVec 0 (decInt ⟨1, false⟩)) none fa b = (.ok [[1, 7], [1, 8]], b') ∧
      decArray 2 (decVec 0 (decInt ⟨1, false⟩)) none none b = (.ok [[7], [8]], b')) ∧
    (∃ (fa : Option FAttr) (b b' : Buf), fa = some { loopSkipStarts := some [1] } ∧
      decVec 2 (decInt ⟨1, false⟩) none fa b = (.ok [], b) ∧ decSet (decInt ⟨1, false⟩) none fa b = (.ok [8, 9], b') ∧
      b ≠ b') := by
  refine ⟨⟨_, _, ⟨[1, 0], 0⟩, ⟨[1, 0], 2⟩, rfl, rfl, rfl, rfl⟩, ⟨_, ⟨[1, 0], 0⟩, ⟨[1, 0], 2⟩, rfl, rfl, rfl⟩,
    ⟨_, ⟨[1, 7, 1, 8], 0⟩, ⟨[1, 7, 1, 8], 4⟩, rfl, rfl, rfl⟩,
    ⟨_, ⟨[2, 8, 9], 0⟩, ⟨[2, 8, 9], 3⟩, rfl, rfl, rfl, by decide⟩⟩

/-! ## Cases -/

/-- `struct { kind: u8, len: u8, #[jbytes(length = len)] body: &[u8], sum: u16 }`, with `len` and `body` in a struct of
their own: all hypotheses are met, and the expression `len` is read in its own scope. -/
def bodyGroup : StructDef Pkt where
  fields := [Pkt.int ⟨1, false⟩ {}, Pkt.slice { isUse := true, length := some fun env =>
    match (env.fields[0]? : Option Pkt) with | some (.num n) => n | _ => 0 }]

unseal usizeMod isizeMax in
example : Groupable none bodyGroup ∧ (∀ f ∈ bodyGroup.fields, f.attrs.variableName = none) ∧
    decStruct (flat Pkt.record none [] [Pkt.int ⟨1, false⟩ {}] bodyGroup [Pkt.int ⟨2, false⟩ {}]) none none
        ⟨[5, 2, 65, 66, 1, 0], 0⟩ = (.ok [.num 5, .num 2, .bytes [65, 66], .num 256], ⟨[5, 2, 65, 66, 1, 0], 6⟩) ∧
    decStruct (grouped Pkt.record Pkt.parts none [] [Pkt.int ⟨1, false⟩ {}] bodyGroup [Pkt.int ⟨2, false⟩ {}] .unit)
        none none ⟨[5, 2, 65, 66, 1, 0], 0⟩ =
      (.ok [.num 5, .record [.num 2, .bytes [65, 66]], .num 256], ⟨[5, 2, 65, 66, 1, 0], 6⟩) := by
  refine ⟨⟨rfl, rfl, rfl, rfl, rfl⟩, ?_, rfl, rfl⟩
  intro f hf
  simp only [bodyGroup, List.mem_cons, List.not_mem_nil, or_false] at hf
  rcases hf with rfl | rfl <;> rfl

unseal usizeMod isizeMax in
example : decMap (decInt ⟨1, false⟩) (decInt ⟨1, false⟩) none none ⟨[2, 1, 7, 1, 8], 0⟩ =
      (.ok [(1, 8)], ⟨[2, 1, 7, 1, 8], 5⟩) ∧
    decVec 0 (decPair (decInt ⟨1, false⟩) (decInt ⟨1, false⟩)) none none ⟨[2, 1, 7, 1, 8], 0⟩ =
      (.ok [(1, 7), (1, 8)], ⟨[2, 1, 7, 1, 8], 5⟩) := ⟨rfl, rfl⟩

end JBytes
