import Verif.GenCode
/-!
# The generated program does what the model of derive says (C83), and when it is accepted (C84)
-/

namespace JBytes
open M

variable {V : Type}

/-! ## Laws of the monad -/

theorem m_bind_assoc {α β γ : Type} (m : M α) (f : α → M β) (g : β → M γ) :
    ((m >>= f) >>= g) = (m >>= fun a => f a >>= g) := by
  funext b
  show M.bind (M.bind m f) g b = M.bind m (fun a => M.bind (f a) g) b
  simp only [M.bind]
  rcases m b with ⟨o, b'⟩
  cases o <;> rfl

theorem m_pure_bind {α β : Type} (a : α) (f : α → M β) : ((Pure.pure a : M α) >>= f) = f a := rfl

theorem m_bind_congr {α β : Type} {m : M α} {f g : α → M β} (h : ∀ a, f a = g a) : (m >>= f) = (m >>= g) := by
  rw [show f = g from funext h]

/-! ## Locals -/

theorem lookup_here {β : Type} (x : Name) (v : β) (L : List (Name × β)) : ((x, v) :: L).lookup x = some v := by
  simp [List.lookup]

theorem lookup_past {β : Type} {x y : Name} (h : x ≠ y) (v : β) (L : List (Name × β)) :
    ((y, v) :: L).lookup x = L.lookup x := by
  have : (x == y) = false := by simpa using h
  simp [List.lookup, this]

theorem valueAt_past (U : UsizeIn V) {x y : Name} (h : x ≠ y) (v : LocalVal V) (L : Locals V) :
    valueAt U ((y, v) :: L) x = valueAt U L x := by unfold valueAt; rw [lookup_past h]

theorem usizeAt_past (U : UsizeIn V) {x y : Name} (h : x ≠ y) (v : LocalVal V) (L : Locals V) :
    usizeAt U ((y, v) :: L) x = usizeAt U L x := by unfold usizeAt; rw [lookup_past h]

theorem cattrAt_past {x y : Name} (h : x ≠ y) (v : LocalVal V) (L : Locals V) :
    cattrAt ((y, v) :: L) x = cattrAt L x := by unfold cattrAt; rw [lookup_past h]

theorem fattrAt_past {x y : Name} (h : x ≠ y) (v : LocalVal V) (L : Locals V) :
    fattrAt ((y, v) :: L) x = fattrAt L x := by unfold fattrAt; rw [lookup_past h]

theorem isReader_past {x y : Name} (h : x ≠ y) (v : LocalVal V) (L : Locals V) :
    isReader ((y, v) :: L) x = isReader L x := by unfold isReader; rw [lookup_past h]

/-- A name that none of the helpers of a generated decoder has. -/
def Clear (x : Name) : Prop := x ≠ nInput ∧ x ≠ nCattrNew ∧ x ≠ nCattrNew2 ∧ x ≠ nFattrNew ∧ x ≠ nPosition

theorem mapM_valueAt_congr (U : UsizeIn V) {L L' : Locals V} :
    ∀ {ns : List Name}, (∀ y ∈ ns, valueAt U L' y = valueAt U L y) → ns.mapM (valueAt U L') = ns.mapM (valueAt U L)
  | [], _ => rfl
  | n :: ns, h => by
    rw [List.mapM_cons, List.mapM_cons, h n (by simp), mapM_valueAt_congr U fun y hy => h y (by simp [hy])]

theorem filterMap_of_mapM (U : UsizeIn V) {L : Locals V} :
    ∀ {ns : List Name} {vs : List V}, ns.mapM (valueAt U L) = some vs → ns.filterMap (valueAt U L) = vs
  | [], vs, h => by cases h; rfl
  | n :: ns, vs, h => by
    rw [List.mapM_cons] at h
    cases h1 : valueAt U L n with
    | none => rw [h1] at h; cases h
    | some v =>
      rw [h1] at h
      cases h2 : ns.mapM (valueAt U L) with
      | none => rw [h2] at h; cases h
      | some ws =>
        rw [h2] at h
        cases h
        rw [List.filterMap_cons, h1, filterMap_of_mapM U h2]

theorem mapM_append_one (U : UsizeIn V) {L : Locals V} {x : Name} {v : V} :
    ∀ {ns : List Name} {vs : List V}, ns.mapM (valueAt U L) = some vs → valueAt U L x = some v →
      (ns ++ [x]).mapM (valueAt U L) = some (vs ++ [v])
  | [], vs, h, hx => by cases h; rw [List.nil_append, List.mapM_cons, hx]; rfl
  | n :: ns, vs, h, hx => by
    rw [List.cons_append]
    rw [List.mapM_cons] at h ⊢
    cases h1 : valueAt U L n with
    | none => rw [h1] at h; cases h
    | some w =>
      rw [h1] at h
      cases h2 : ns.mapM (valueAt U L) with
      | none => rw [h2] at h; cases h
      | some ws =>
        rw [h2] at h
        cases h
        rw [mapM_append_one U h2 hx]
        rfl

/-- What the locals hold between two fields: the input, the modifiers of the container, the fields so far and the
variables. -/
structure Sees (U : UsizeIn V) (vs : List String) (ns : List Name) (L : Locals V) (ca : Option CAttr) (env : Env V) :
    Prop where
  reader : isReader L nInput = true
  cattr : cattrAt L nCattrNew = some ca
  fields : ns.mapM (valueAt U L) = some env.fields
  vars : (vs.map fun s => (s, (usizeAt U L s.toList).getD 0)) = env.vars

theorem Sees.envAt {U : UsizeIn V} {vs : List String} {ns : List Name} {L : Locals V} {ca : Option CAttr} {env : Env V}
    (h : Sees U vs ns L ca env) : envAt U vs ns L = env := by
  unfold JBytes.envAt
  rw [h.vars, filterMap_of_mapM U h.fields]

/-- A helper gets a new value. -/
theorem Sees.push {U : UsizeIn V} {vs : List String} {ns : List Name} {L : Locals V} {ca : Option CAttr} {env : Env V}
    (h : Sees U vs ns L ca env) {x : Name} (v : LocalVal V) (hx : x ∉ ns) (hv : ∀ s ∈ vs, s.toList ≠ x) (hi : x ≠ nInput)
    (hc : x ≠ nCattrNew) : Sees U vs ns ((x, v) :: L) ca env where
  reader := by rw [isReader_past (Ne.symm hi)]; exact h.reader
  cattr := by rw [cattrAt_past (Ne.symm hc)]; exact h.cattr
  fields := (mapM_valueAt_congr U (L := L) fun y hy => valueAt_past U (fun e : y = x => hx (e ▸ hy)) v L).trans h.fields
  vars := by
    rw [← h.vars]
    refine List.map_congr_left fun s hs => ?_
    rw [usizeAt_past U (hv s hs)]

theorem Sees.pushCattr {U : UsizeIn V} {vs : List String} {ns : List Name} {L : Locals V} {ca : Option CAttr} {env : Env V}
    (h : Sees U vs ns L ca env) (c : Option CAttr) (hx : nCattrNew ∉ ns) (hv : ∀ s ∈ vs, s.toList ≠ nCattrNew) :
    Sees U vs ns ((nCattrNew, .cattr c) :: L) c env where
  reader := by rw [isReader_past (by decide)]; exact h.reader
  cattr := by unfold cattrAt; rw [lookup_here]
  fields := (mapM_valueAt_congr U (L := L) fun y hy =>
    valueAt_past U (fun e : y = nCattrNew => hx (e ▸ hy)) _ L).trans h.fields
  vars := by
    rw [← h.vars]
    refine List.map_congr_left fun s hs => ?_
    rw [usizeAt_past U (hv s hs)]

/-- The local of a field gets its value. -/
theorem Sees.pushField {U : UsizeIn V} {vs : List String} {ns : List Name} {L : Locals V} {ca : Option CAttr} {env : Env V}
    (h : Sees U vs ns L ca env) {x : Name} (v : V) (hx : x ∉ ns) (hv : ∀ s ∈ vs, s.toList ≠ x) (hi : x ≠ nInput)
    (hc : x ≠ nCattrNew) : Sees U vs (ns ++ [x]) ((x, .value v) :: L) ca (env.push v) where
  reader := (h.push (.value v) hx hv hi hc).reader
  cattr := (h.push (.value v) hx hv hi hc).cattr
  fields := mapM_append_one U (h.push (.value v) hx hv hi hc).fields (by unfold valueAt; rw [lookup_here])
  vars := (h.push (.value v) hx hv hi hc).vars

/-! ## Running the statements of a field -/

theorem runAll_append (U : UsizeIn V) (vs : List String) :
    ∀ (a b : List (Stmt V)) (L : Locals V), runAll U vs (a ++ b) L = (runAll U vs a L >>= runAll U vs b)
  | [], _, _ => rfl
  | s :: a, b, L => by
    show (Stmt.run U vs L s >>= fun L' => runAll U vs (a ++ b) L') =
      ((Stmt.run U vs L s >>= fun L' => runAll U vs a L') >>= runAll U vs b)
    rw [m_bind_assoc]
    exact m_bind_congr fun L' => runAll_append U vs a b L'

theorem runAll_one (U : UsizeIn V) (vs : List String) (s : Stmt V) (L : Locals V) {β : Type} (K : Locals V → M β) :
    (runAll U vs [s] L >>= K) = (Stmt.run U vs L s >>= K) := by
  show ((Stmt.run U vs L s >>= fun L' => Pure.pure L') >>= K) = _
  rw [m_bind_assoc]
  rfl

theorem runAll_nil (U : UsizeIn V) (vs : List String) (L : Locals V) {β : Type} (K : Locals V → M β) :
    (runAll U vs [] L >>= K) = K L := rfl

/-- The field is read by a codec, which is given the modifiers. -/
def Field.Calls (f : Field V) : Prop :=
  f.attrs.withDecode.isSome = true ∨ (f.attrs.skip = false ∧ f.attrs.skipDecode = false)

/-- What is known after the value of the field is there. -/
structure After (U : UsizeIn V) (vs : List String) (ns : List Name) (x : Name) (L L' : Locals V) (ca : Option CAttr)
    (env : Env V) (v : V) : Prop where
  sees : Sees U vs (ns ++ [x]) L' ca (env.push v)
  fattr : fattrAt L' nFattrNew = fattrAt L nFattrNew

variable {U : UsizeIn V} {vs : List String} {ns : List Name} {x : Name} {L : Locals V} {ca : Option CAttr} {env : Env V}

theorem callWith_eq (h : Sees U vs ns L ca env) {fa : Option FAttr} (hf : fattrAt L nFattrNew = some fa) (d : Dec V) :
    callWith L d = d ca fa := by
  unfold callWith
  rw [h.reader, h.cattr, hf]

theorem setPosition_run {p : Nat} (hr : isReader L nInput = true) (hp : usizeAt U L nPosition = some p) :
    Stmt.run U vs L .setPosition = (setPos p >>= fun _ => Pure.pure L) := by
  unfold Stmt.run onInput
  simp only [hp, if_pos hr]

theorem emitOffset_run (h : Sees U vs ns L ca env) (a : FieldAttrs V) {β : Type} (K : Locals V → M β) :
    (runAll U vs (emitOffset ns a) L >>= K) = (skipOffset a env >>= fun _ => K L) := by
  unfold emitOffset skipOffset
  cases a.offset with
  | none => rfl
  | some e =>
    show (runAll U vs [Stmt.advance ns e] L >>= K) = _
    rw [runAll_one]
    show ((onInput L (M.advance (e (envAt U vs ns L))) >>= fun _ => Pure.pure L) >>= K) = _
    unfold onInput
    rw [if_pos h.reader, h.envAt, m_bind_assoc]
    rfl

theorem emitFinish_run (a : FieldAttrs V) (v : V) (hx : x ∉ ns) (hv : ∀ s ∈ vs, s.toList ≠ x)
    (hc : Clear x) {L' : Locals V} (hL : valueAt U L' x = some v) (h' : Sees U vs ns L' ca env)
    (hf : fattrAt L' nFattrNew = fattrAt L nFattrNew)
    {β : Type} {K : Locals V → M β} {K' : V → M β}
    (hK : ∀ v L'', After U vs ns x L L'' ca env v → K L'' = K' v) :
    (runAll U vs (emitFinish ns x a) L' >>= K) = (finishValue a env v >>= K') := by
  have step : ∀ (w : V) (L'' : Locals V), valueAt U L'' x = some w → Sees U vs ns L'' ca env →
      fattrAt L'' nFattrNew = fattrAt L nFattrNew →
      (runAll U vs (match a.checkValue with
        | some c => [Stmt.check ns x c]
        | none => []) L'' >>= K) = ((match a.checkValue with
        | some c => if c env w then Pure.pure w else fail .invalidValue
        | none => Pure.pure w : M V) >>= K') := by
    intro w L'' hw hs hfa
    have aft : After U vs ns x L L'' ca env w := ⟨⟨hs.reader, hs.cattr, mapM_append_one U hs.fields hw, hs.vars⟩, hfa⟩
    cases a.checkValue with
    | none => exact hK w L'' aft
    | some c =>
      show (runAll U vs [Stmt.check ns x c] L'' >>= K) = _
      rw [runAll_one]
      show ((match valueAt U L'' x with
        | some v => if c (envAt U vs ns L'') v then Pure.pure L'' else fail .invalidValue
        | none => panic : M (Locals V)) >>= K) = _
      rw [hw, hs.envAt]
      show ((if c env w = true then Pure.pure L'' else fail .invalidValue : M (Locals V)) >>= K) =
        ((if c env w = true then Pure.pure w else fail .invalidValue : M V) >>= K')
      by_cases e : c env w = true
      · rw [if_pos e, if_pos e]; exact hK w L'' aft
      · rw [if_neg e, if_neg e]; rfl
  unfold emitFinish finishValue
  rw [runAll_append, m_bind_assoc]
  cases a.valueDecode with
  | none => exact step v L' hL h' hf
  | some g =>
    show (runAll U vs [Stmt.convert ns x g] L' >>= _) = _
    rw [runAll_one]
    show ((match valueAt U L' x with
      | some v => Pure.pure ((x, LocalVal.value (g (envAt U vs ns L') v)) :: L')
      | none => panic : M (Locals V)) >>= _) = _
    rw [hL, h'.envAt]
    refine step (g env v) ((x, .value (g env v)) :: L') (by unfold valueAt; rw [lookup_here])
      (h'.push _ hx hv hc.1 hc.2.1) ?_
    rw [fattrAt_past (Ne.symm hc.2.2.2.1)]
    exact hf

theorem emitPlain_run (h : Sees U vs ns L ca env) (f : NamedField V) {fa : Option FAttr}
    (hf : fattrAt L nFattrNew = some fa) (hx : x ∉ ns) (hv : ∀ s ∈ vs, s.toList ≠ x) (hc : Clear x)
    (hpn : nPosition ∉ ns) (hpv : ∀ s ∈ vs, s.toList ≠ nPosition)
    {β : Type} {K : Locals V → M β} {K' : V → M β} (hK : ∀ v L', After U vs ns x L L' ca env v → K L' = K' v) :
    (runAll U vs (emitPlain ns x f) L >>= K) = (decPlain f.field env ca fa >>= K') := by
  have read : ∀ L0 : Locals V, Sees U vs ns L0 ca env → fattrAt L0 nFattrNew = some fa →
      (emitRead f.field).run L0 (envAt U vs ns L0) = decCond f.field env ca fa := by
    intro L0 h0 hf0
    unfold emitRead decCond
    rw [h0.envAt]
    cases f.field.attrs.ifExpr with
    | none => exact callWith_eq h0 hf0 _
    | some c =>
      show (if c env = true then callWith L0 f.field.dec else Pure.pure f.field.noneV) =
        (if c env = true then f.field.dec ca fa else Pure.pure f.field.noneV)
      rw [callWith_eq h0 hf0]
  unfold emitPlain
  by_cases hu : f.field.attrs.untake = true
  · rw [if_pos hu, if_pos hu]
    have e1 : decPlain f.field env ca fa = (getPos >>= fun p => decCond f.field env ca fa >>= fun v =>
        setPos p >>= fun _ => finishValue f.field.attrs env v) := by
      unfold decPlain
      simp only [if_pos hu]
    rw [e1, runAll_append, runAll_append, runAll_append, m_bind_assoc, m_bind_assoc, m_bind_assoc, runAll_one]
    show ((onInput L getPos >>= fun p => Pure.pure ((nPosition, LocalVal.num p) :: L)) >>= _) = _
    unfold onInput
    rw [if_pos h.reader, m_bind_assoc, m_bind_assoc]
    refine m_bind_congr fun p => ?_
    rw [m_pure_bind, runAll_one]
    have h1 := h.push (.num p) hpn hpv (by decide) (by decide)
    have hf1 : fattrAt ((nPosition, LocalVal.num p) :: L) nFattrNew = some fa := by rw [fattrAt_past (by decide)]; exact hf
    show (((emitRead f.field).run _ _ >>= fun v => Pure.pure ((x, LocalVal.value v) :: (nPosition, LocalVal.num p) :: L)) >>= _) = _
    rw [read _ h1 hf1, m_bind_assoc, m_bind_assoc]
    refine m_bind_congr fun v => ?_
    rw [m_pure_bind, runAll_one]
    have h2 := h1.push (.value v) hx hv hc.1 hc.2.1
    rw [setPosition_run (p := p) h2.reader (by
      rw [usizeAt_past U (Ne.symm hc.2.2.2.2)]; unfold usizeAt; rw [lookup_here]), m_bind_assoc, m_bind_assoc]
    refine m_bind_congr fun _ => ?_
    rw [m_pure_bind]
    exact emitFinish_run f.field.attrs v hx hv hc (by unfold valueAt; rw [lookup_here]) h2
      (by rw [fattrAt_past (Ne.symm hc.2.2.2.1), hf1, hf]) hK
  · rw [if_neg hu, if_neg hu, List.nil_append, List.append_nil, runAll_append, m_bind_assoc]
    have e1 : decPlain f.field env ca fa = (decCond f.field env ca fa >>= fun v => finishValue f.field.attrs env v) := by
      unfold decPlain
      simp only [if_neg hu]
      rfl
    rw [e1, runAll_one]
    show (((emitRead f.field).run _ _ >>= fun v => Pure.pure ((x, LocalVal.value v) :: L)) >>= _) = _
    rw [read _ h hf, m_bind_assoc, m_bind_assoc]
    refine m_bind_congr fun v => ?_
    rw [m_pure_bind]
    exact emitFinish_run f.field.attrs v hx hv hc (by unfold valueAt; rw [lookup_here])
      (h.push (.value v) hx hv hc.1 hc.2.1) (by rw [fattrAt_past (Ne.symm hc.2.2.2.1)]) hK

theorem emitValue_run (h : Sees U vs ns L ca env) (f : NamedField V) {fa : Option FAttr}
    (hf : f.field.Calls → fattrAt L nFattrNew = some fa) (hx : x ∉ ns) (hv : ∀ s ∈ vs, s.toList ≠ x) (hc : Clear x)
    (hpn : nPosition ∉ ns) (hpv : ∀ s ∈ vs, s.toList ≠ nPosition)
    {β : Type} {K : Locals V → M β} {K' : V → M β} (hK : ∀ v L', After U vs ns x L L' ca env v → K L' = K' v) :
    (runAll U vs (emitValue ns x f) L >>= K) = ((match f.field.attrs.withDecode with
      | some g => g env ca fa
      | none =>
        if f.field.attrs.skip || f.field.attrs.skipDecode then Pure.pure f.field.dflt
        else
          match f.field.attrs.fromStr with
          | some ps => do
            let s ← decStr ca fa
            match ps.1 s with
            | some v => Pure.pure v
            | none => fail .fail
          | none => decPlain f.field env ca fa : M V) >>= K') := by
  have bindRun : ∀ (r : Rhs V) (m : M V), r.run L env = m →
      (runAll U vs [Stmt.bind ns x f.ty r] L >>= K) = (m >>= K') := by
    intro r m hr
    rw [runAll_one]
    show ((r.run L (envAt U vs ns L) >>= fun v => Pure.pure ((x, LocalVal.value v) :: L)) >>= K) = _
    rw [h.envAt, hr, m_bind_assoc]
    refine m_bind_congr fun v => ?_
    exact hK v _ ⟨h.pushField v hx hv hc.1 hc.2.1, by rw [fattrAt_past (Ne.symm hc.2.2.2.1)]⟩
  unfold emitValue
  cases hw : f.field.attrs.withDecode with
  | some g => exact bindRun _ _ (callWith_eq h (hf (.inl (by rw [hw]; rfl))) _)
  | none =>
    show (runAll U vs (if (f.field.attrs.skip || f.field.attrs.skipDecode) = true then _ else _) L >>= K) =
      ((if (f.field.attrs.skip || f.field.attrs.skipDecode) = true then _ else _ : M V) >>= K')
    by_cases hs : (f.field.attrs.skip || f.field.attrs.skipDecode) = true
    · rw [if_pos hs, if_pos hs]
      exact bindRun _ _ rfl
    · rw [if_neg hs, if_neg hs]
      have hcall : f.field.Calls := .inr (by simpa using hs)
      cases f.field.attrs.fromStr with
      | some ps => exact bindRun _ _ (callWith_eq h (hf hcall) _)
      | none => exact emitPlain_run h f (hf hcall) hx hv hc hpn hpv hK

theorem foldl_cache (env : Env V) : ∀ (l : List (String × (Env V → Nat))) (c : CAttr),
    l.foldl (fun c e => { c with vars := (e.1, e.2 env) :: c.vars }) c =
      { c with vars := (l.map fun e => (e.1, e.2 env)).reverse ++ c.vars }
  | [], c => by simp
  | e :: l, c => by
    rw [List.foldl_cons, foldl_cache env l]
    simp

theorem emitCache_run {L' : Locals V} {v : V} (ha : After U vs ns x L L' ca env v) (a : FieldAttrs V)
    (hcn : nCattrNew ∉ ns ++ [x]) (hcv : ∀ s ∈ vs, s.toList ≠ nCattrNew) {β : Type} {K : Locals V → M β} {K' : M β}
    (hK : ∀ L'', After U vs ns x L L'' (cacheVars a ca (env.push v)) env v → K L'' = K') :
    (runAll U vs (emitCache ns x a) L' >>= K) = K' := by
  unfold emitCache
  unfold cacheVars at hK
  cases hvn : a.variableName with
  | none =>
    rw [hvn] at hK
    exact hK L' ha
  | some l =>
    rw [hvn] at hK
    show (runAll U vs [Stmt.cache (ns ++ [x]) l] L' >>= K) = _
    rw [runAll_one]
    have e : Stmt.run U vs L' (Stmt.cache (ns ++ [x]) l) = Pure.pure ((nCattrNew, LocalVal.cattr (some { ca.getD {} with
        vars := (l.map fun x => (x.1, x.2 (env.push v))).reverse ++ (ca.getD {}).vars })) :: L') := by
      unfold Stmt.run
      simp only [ha.sees.cattr, ha.sees.envAt, foldl_cache]
    rw [e, m_pure_bind]
    exact hK _ ⟨ha.sees.pushCattr _ hcn hcv, by rw [fattrAt_past (by decide)]; exact ha.fattr⟩

theorem emitField_run (h : Sees U vs ns L ca env) (f : NamedField V) {fa : Option FAttr}
    (hf : f.field.Calls → fattrAt L nFattrNew = some fa) (hx : x ∉ ns) (hv : ∀ s ∈ vs, s.toList ≠ x) (hc : Clear x)
    (hn : ∀ y ∈ ns, Clear y) (hvc : ∀ s ∈ vs, Clear s.toList)
    {β : Type} {K : Locals V → M β} {K' : V → M β}
    (hK : ∀ v L', After U vs ns x L L' (cacheVars f.field.attrs ca (env.push v)) env v → K L' = K' v) :
    (runAll U vs (emitField ns x f) L >>= K) = (decField f.field env ca fa >>= K') := by
  have hpn : nPosition ∉ ns := fun hm => (hn _ hm).2.2.2.2 rfl
  have hpv : ∀ s ∈ vs, s.toList ≠ nPosition := fun s hs => (hvc s hs).2.2.2.2
  have hcn : nCattrNew ∉ ns ++ [x] := by
    intro hm
    rcases List.mem_append.1 hm with hm | hm
    · exact (hn _ hm).2.1 rfl
    · exact hc.2.1 (List.mem_singleton.1 hm).symm
  unfold emitField
  rw [runAll_append, runAll_append, m_bind_assoc, m_bind_assoc, emitOffset_run h]
  have e : decField f.field env ca fa = (skipOffset f.field.attrs env >>= fun _ => match f.field.attrs.withDecode with
      | some g => g env ca fa
      | none =>
        if f.field.attrs.skip || f.field.attrs.skipDecode then Pure.pure f.field.dflt
        else
          match f.field.attrs.fromStr with
          | some ps => do
            let s ← decStr ca fa
            match ps.1 s with
            | some v => Pure.pure v
            | none => fail .fail
          | none => decPlain f.field env ca fa) := rfl
  rw [e, m_bind_assoc]
  refine m_bind_congr fun _ => ?_
  exact emitValue_run h f hf hx hv hc hpn hpv fun v L' ha =>
    emitCache_run ha f.field.attrs hcn (fun s hs => (hvc s hs).2.1) fun L'' ha' => hK v L'' ha'

/-- Every field that is read by a codec has modifiers in scope: it, or one before it, has modifiers of its own. -/
def Prepared : Bool → List (Field V) → Prop
  | _, [] => True
  | st, f :: fs => (f.Calls → (st || f.attrs.isUse) = true) ∧ Prepared (st || f.attrs.isUse) fs

theorem emitFields_run (tuple : Bool) (hvc : ∀ s ∈ vs, Clear s.toList) :
    ∀ (fs : List (Name × NamedField V)) (ns : List Name) (L : Locals V) (ca : Option CAttr) (old : Option FAttr)
      (env : Env V) (st : Bool), Sees U vs ns L ca env → (st = true → fattrAt L nFattrNew = some old) →
      (tuple = true → Prepared st (fs.map (·.2.field))) →
      (∀ p ∈ fs, Clear p.1) → (∀ y ∈ ns, Clear y) → (ns ++ fs.map (·.1)).Nodup →
      (∀ s ∈ vs, ∀ p ∈ fs, s.toList ≠ p.1) →
      ∀ {β : Type} {K : Locals V → M β} {K' : List V → M β},
        (∀ ws L', (ns ++ fs.map (·.1)).mapM (valueAt U L') = some (env.fields ++ ws) → K L' = K' ws) →
        (runAll U vs (emitFields tuple ns fs) L >>= K) =
          (decFields tuple (fs.map (·.2.field)) ca old env >>= K')
  | [], ns, L, ca, old, env, st, h, hf, hp, hc, hn, hnd, hd, β, K, K', hK => by
    refine hK [] L ?_
    rw [List.map_nil, List.append_nil, List.append_nil]
    exact h.fields
  | (x, f) :: fs, ns, L, ca, old, env, st, h, hf, hp, hc, hn, hnd, hd, β, K, K', hK => by
    have hx : x ∉ ns := fun hm => (List.nodup_append.1 hnd).2.2 x hm x (by simp) rfl
    have hcx : Clear x := hc (x, f) (by simp)
    have hvx : ∀ s ∈ vs, s.toList ≠ x := fun s hs => hd s hs (x, f) (by simp)
    have hn' : ∀ y ∈ ns ++ [x], Clear y := by
      intro y hy
      rcases List.mem_append.1 hy with hy | hy
      · exact hn y hy
      · rw [List.mem_singleton.1 hy]; exact hcx
    have enames : (ns ++ [x]) ++ fs.map (·.1) = ns ++ ((x, f) :: fs).map (·.1) := by simp
    have hnd' : ((ns ++ [x]) ++ fs.map (·.1)).Nodup := by rw [enames]; exact hnd
    -- the rest, once the modifiers are in place
    have rest : ∀ (L0 : Locals V) (fa : Option FAttr), Sees U vs ns L0 ca env →
        (f.field.Calls → fattrAt L0 nFattrNew = some fa) →
        ((st || f.field.attrs.isUse || !tuple) = true → fattrAt L0 nFattrNew = some fa) →
        (runAll U vs (emitField ns x f ++ emitFields tuple (ns ++ [x]) fs) L0 >>= K) =
          ((decField f.field env ca fa >>= fun v =>
            decFields tuple (fs.map (·.2.field)) (cacheVars f.field.attrs ca (env.push v)) fa (env.push v) >>= fun vs =>
              Pure.pure (v :: vs)) >>= K') := by
      intro L0 fa h0 hf0 hst
      rw [runAll_append, m_bind_assoc, m_bind_assoc]
      refine emitField_run h0 f hf0 hx hvx hcx hn hvc fun v L' ha => ?_
      rw [m_bind_assoc]
      refine emitFields_run tuple hvc fs (ns ++ [x]) L' _ fa (env.push v) (st || f.field.attrs.isUse || !tuple) ha.sees
        (fun e => ha.fattr.trans (hst e)) (fun ht => ?_) (fun p hp => hc p (by simp [hp])) hn' hnd'
        (fun s hs p hp => hd s hs p (by simp [hp])) fun ws L'' hL => ?_
      · have := (hp ht).2
        rw [ht]
        simpa using this
      · refine hK (v :: ws) L'' ?_
        rw [← enames, hL]
        simp [Env.push]
    show (runAll U vs ((if (tuple && !f.field.attrs.isUse) = true then [] else [Stmt.modifiers ns f.field.attrs]) ++
      emitField ns x f ++ emitFields tuple (ns ++ [x]) fs) L >>= K) = (((if (tuple && !f.field.attrs.isUse) = true then Pure.pure old
        else f.field.attrs.toCode env : M (Option FAttr)) >>= fun fa => decField f.field env ca fa >>= fun v =>
            decFields tuple (fs.map (·.2.field)) (cacheVars f.field.attrs ca (env.push v)) fa (env.push v) >>= fun vs =>
              Pure.pure (v :: vs)) >>= K')
    by_cases hk : (tuple && !f.field.attrs.isUse) = true
    · rw [if_pos hk, if_pos hk, List.nil_append]
      have ht : tuple = true := by
        revert hk; cases tuple <;> simp
      have hu : f.field.attrs.isUse = false := by
        revert hk; cases f.field.attrs.isUse <;> simp
      refine rest L old h (fun hcall => hf ?_) fun e => hf ?_
      · have := (hp ht).1 hcall
        simpa [hu] using this
      · simpa [hu, ht] using e
    · rw [if_neg hk, if_neg hk, List.append_assoc, runAll_append, m_bind_assoc, runAll_one]
      show ((f.field.attrs.toCode (envAt U vs ns L) >>= fun fa => Pure.pure ((nFattrNew, LocalVal.fattr fa) :: L)) >>= _) = _
      rw [h.envAt, m_bind_assoc, m_bind_assoc]
      refine m_bind_congr fun fa => ?_
      rw [m_pure_bind]
      have e1 : fattrAt ((nFattrNew, LocalVal.fattr fa) :: L) nFattrNew = some fa := by unfold fattrAt; rw [lookup_here]
      exact rest _ fa (h.push _ (fun hm => (hn _ hm).2.2.2.1 rfl) (fun s hs => (hvc s hs).2.2.2.1) (by decide) (by decide))
        (fun _ => e1) fun _ => e1

/-! ## Types as text -/

/-- The text of the type keeps its meaning: it has no `::` and no `->` outside brackets. -/
def Unbroken (ts : List TyTok) : Prop :=
  ∀ pre suf j, ts ≠ pre ++ .punct ':' true :: .punct ':' j :: suf ∧ ts ≠ pre ++ .punct '-' true :: .punct '>' j :: suf

theorem Unbroken.tail {t : TyTok} {ts : List TyTok} (h : Unbroken (t :: ts)) : Unbroken ts := fun pre suf j =>
  ⟨fun e => (h (t :: pre) suf j).1 (by rw [e]; rfl), fun e => (h (t :: pre) suf j).2 (by rw [e]; rfl)⟩

/-- The tokens one by one. -/
def single : TyTok → Lexeme
  | .ident s => .word s
  | .punct c _ => .sign c
  | .group s => .group s

theorem single_respell (t : TyTok) : single (match t with
    | .punct c _ => .punct c (c == '\'')
    | t => t) = single t := by cases t <;> rfl

theorem lexemes_unbroken : ∀ {ts : List TyTok}, Unbroken ts → lexemes ts = ts.map single := by
  intro ts
  induction ts using lexemes.induct with
  | case1 => intro _; rfl
  | case2 j ts ih => intro h; exact absurd rfl (h [] ts j).1
  | case3 j ts ih => intro h; exact absurd rfl (h [] ts j).2
  | case4 c j ts h1 h2 ih =>
    intro h
    rw [lexemes.eq_4 c j ts h1 h2, ih h.tail]
    rfl
  | case5 s ts ih => intro h; rw [lexemes.eq_5, ih h.tail]; rfl
  | case6 s ts ih => intro h; rw [lexemes.eq_6, ih h.tail]; rfl

theorem lexemes_broken : ∀ {ts : List TyTok}, .pathSep ∉ lexemes ts → .arrow ∉ lexemes ts → Unbroken ts := by
  intro ts
  have cons : ∀ (t : TyTok) (ts : List TyTok), Unbroken ts →
      (∀ j suf, t :: ts ≠ .punct ':' true :: .punct ':' j :: suf) →
      (∀ j suf, t :: ts ≠ .punct '-' true :: .punct '>' j :: suf) → Unbroken (t :: ts) := by
    intro t ts h h1 h2 pre suf j
    cases pre with
    | nil => exact ⟨h1 j suf, h2 j suf⟩
    | cons p pre =>
      refine ⟨fun e => ?_, fun e => ?_⟩
      · rw [List.cons_append, List.cons.injEq] at e
        exact (h pre suf j).1 e.2
      · rw [List.cons_append, List.cons.injEq] at e
        exact (h pre suf j).2 e.2
  induction ts using lexemes.induct with
  | case1 => intro _ _ pre suf j; cases pre <;> exact ⟨by simp, by simp⟩
  | case2 j ts ih => intro h _; rw [lexemes] at h; exact absurd (by simp) h
  | case3 j ts ih => intro _ h; rw [lexemes] at h; exact absurd (by simp) h
  | case4 c j ts h1 h2 ih =>
    intro ha hb
    rw [lexemes.eq_4 c j ts h1 h2] at ha hb
    refine cons _ _ (ih (by simpa using ha) (by simpa using hb)) (fun k suf e => ?_) fun k suf e => ?_
    · rw [List.cons.injEq, TyTok.punct.injEq] at e
      exact h1 k suf e.2 e.1.1 e.1.2
    · rw [List.cons.injEq, TyTok.punct.injEq] at e
      exact h2 k suf e.2 e.1.1 e.1.2
  | case5 s ts ih =>
    intro ha hb
    rw [lexemes.eq_5] at ha hb
    exact cons _ _ (ih (by simpa using ha) (by simpa using hb)) (by simp) (by simp)
  | case6 s ts ih =>
    intro ha hb
    rw [lexemes.eq_6] at ha hb
    exact cons _ _ (ih (by simpa using ha) (by simpa using hb)) (by simp) (by simp)

theorem unbroken_respelled (ts : List TyTok) : Unbroken (respelled ts) := by
  have key : ∀ c j, TyTok.punct c j ∈ respelled ts → j = (c == '\'') := by
    intro c j hm
    obtain ⟨t, -, ht⟩ := List.mem_map.1 hm
    cases t with
    | punct c' j' => simp only [TyTok.punct.injEq] at ht; rw [← ht.1, ← ht.2]
    | ident s => simp at ht
    | group s => simp at ht
  intro pre suf j
  refine ⟨fun e => ?_, fun e => ?_⟩
  · have := key ':' true (by rw [e]; simp)
    revert this; decide
  · have := key '-' true (by rw [e]; simp)
    revert this; decide

/-- **C85**: the type that the generated decoder gives a local is the type of the field exactly when it has no `::` and no
`->` outside brackets. -/
theorem C85_iff (ts : List TyTok) : lexemes (respelled ts) = lexemes ts ↔ Unbroken ts := by
  have e : lexemes (respelled ts) = ts.map single := by
    rw [lexemes_unbroken (unbroken_respelled ts)]
    unfold respelled
    rw [List.map_map]
    exact List.map_congr_left fun t _ => single_respell t
  constructor
  · intro h
    rw [e] at h
    refine lexemes_broken ?_ ?_ <;> (rw [← h]; intro hm; obtain ⟨t, -, ht⟩ := List.mem_map.1 hm; cases t <;> cases ht)
  · intro h
    rw [e, lexemes_unbroken h]

/-! ## What rustc accepts -/

theorem typeAt_past {x y : Name} (h : x ≠ y) (t : LTy × Bool) (T : LTypes) : typeAt ((y, t) :: T) x = typeAt T x := by
  unfold typeAt; rw [lookup_past h]

theorem typeAt_here (x : Name) (t : LTy × Bool) (T : LTypes) : typeAt ((x, t) :: T) x = some t.1 := by
  unfold typeAt; rw [lookup_here]; rfl

theorem typesAfter_append : ∀ (a b : List (Stmt V)) (T : LTypes),
    typesAfter (a ++ b) T = (typesAfter a T).bind (typesAfter b)
  | [], _, _ => rfl
  | s :: a, b, T => by
    show (s.types T).bind (typesAfter (a ++ b)) = ((s.types T).bind (typesAfter a)).bind (typesAfter b)
    cases s.types T with
    | none => rfl
    | some T' => exact typesAfter_append a b T'

theorem typesAfter_one (s : Stmt V) (T : LTypes) : typesAfter [s] T = s.types T := by
  show (s.types T).bind (typesAfter []) = s.types T
  cases s.types T <;> rfl

/-- Types of the locals between two fields; `mt`: `cattr_new` is `mut`, `st`: there is a `fattr_new`. -/
structure Typed (T : LTypes) (mt st : Bool) (done : List (Name × NamedField V)) : Prop where
  reader : typeAt T nInput = some .reader
  cattr : T.lookup nCattrNew = some (.cattr, mt)
  fattr : (typeAt T nFattrNew == some .fattr) = st
  fields : ∀ p ∈ done, typeAt T p.1 = some (fieldTy p.2.ty)

theorem Typed.push {T : LTypes} {mt st : Bool} {done : List (Name × NamedField V)} (h : Typed T mt st done) {x : Name}
    (t : LTy × Bool) (hi : x ≠ nInput) (hc : x ≠ nCattrNew) (hf : x ≠ nFattrNew) (hd : ∀ p ∈ done, p.1 ≠ x) :
    Typed ((x, t) :: T) mt st done where
  reader := by rw [typeAt_past (Ne.symm hi)]; exact h.reader
  cattr := by rw [lookup_past (Ne.symm hc)]; exact h.cattr
  fattr := by rw [typeAt_past (Ne.symm hf)]; exact h.fattr
  fields := fun p hp => by rw [typeAt_past (hd p hp)]; exact h.fields p hp

theorem Typed.pushField {T : LTypes} {mt st : Bool} {done : List (Name × NamedField V)} (h : Typed T mt st done) {x : Name}
    (f : NamedField V) (hc : Clear x) (hd : ∀ p ∈ done, p.1 ≠ x) :
    Typed ((x, fieldTy f.ty, false) :: T) mt st (done ++ [(x, f)]) where
  reader := (h.push _ hc.1 hc.2.1 hc.2.2.2.1 hd).reader
  cattr := (h.push _ hc.1 hc.2.1 hc.2.2.2.1 hd).cattr
  fattr := (h.push _ hc.1 hc.2.1 hc.2.2.2.1 hd).fattr
  fields := fun p hp => by
    rcases List.mem_append.1 hp with hp | hp
    · exact (h.push _ hc.1 hc.2.1 hc.2.2.2.1 hd).fields p hp
    · rw [List.mem_singleton.1 hp]; exact typeAt_here _ _ _

theorem Typed.pushFattr {T : LTypes} {mt st : Bool} {done : List (Name × NamedField V)} (h : Typed T mt st done)
    (hd : ∀ p ∈ done, p.1 ≠ nFattrNew) : Typed ((nFattrNew, .fattr, false) :: T) mt true done where
  reader := by rw [typeAt_past (by decide)]; exact h.reader
  cattr := by rw [lookup_past (by decide)]; exact h.cattr
  fattr := by rw [typeAt_here]; rfl
  fields := fun p hp => by rw [typeAt_past (hd p hp)]; exact h.fields p hp

theorem Typed.call {T : LTypes} {mt st : Bool} {done : List (Name × NamedField V)} (h : Typed T mt st done) :
    callTyped T = st := by
  have e : typeAt T nCattrNew = some .cattr := by unfold typeAt; rw [h.cattr]; rfl
  unfold callTyped
  rw [h.reader, e, h.fattr]
  rfl

/-- The type of the field can stand where the macro puts it. -/
def typeFits (f : NamedField V) : Bool :=
  match f.field.attrs.withDecode with
  | some _ => spelledRight f.ty
  | none =>
    if f.field.attrs.skip || f.field.attrs.skipDecode then callable f.ty
    else
      match f.field.attrs.fromStr with
      | some _ => !f.fromStrOwn || callable f.ty
      | none => spelledRight f.ty

/-- See `Field.Calls`. -/
def Field.calls (f : Field V) : Bool := f.attrs.withDecode.isSome || !(f.attrs.skip || f.attrs.skipDecode)

theorem Field.calls_iff (f : Field V) : f.calls = true ↔ f.Calls := by
  unfold Field.calls Field.Calls
  simp

/-- The part of the condition that concerns the value. -/
def valueFits (st : Bool) (f : NamedField V) : Bool := (!f.field.calls || st) && typeFits f

/-- Everything that must hold of a field. -/
def fieldFits (mt st : Bool) (f : NamedField V) : Bool :=
  valueFits st f && (f.field.attrs.variableName.isNone || mt)

theorem emitFinish_types {T : LTypes} (hr : typeAt T nInput = some .reader) (ns : List Name) (x : Name) (a : FieldAttrs V) :
    typesAfter (emitFinish ns x a) T = some T := by
  unfold emitFinish
  rw [typesAfter_append]
  have step : typesAfter (match a.checkValue with
      | some c => [Stmt.check ns x c]
      | none => []) T = some T := by
    cases a.checkValue with
    | none => rfl
    | some c =>
      show typesAfter [Stmt.check ns x c] T = some T
      rw [typesAfter_one]
      exact if_pos hr
  cases a.valueDecode with
  | none => exact step
  | some g => exact step

theorem emitRead_accepted (f : Field V) (T : LTypes) (x : Name) (ty : List TyTok) :
    (emitRead f).accepted T x ty = (callTyped T && spelledRight ty) := by
  unfold emitRead
  cases f.attrs.ifExpr <;> rfl

theorem emitValue_types {T : LTypes} {mt st : Bool} {done : List (Name × NamedField V)} (h : Typed T mt st done)
    (ns : List Name) {x : Name} (f : NamedField V) (hc : Clear x) (hd : ∀ p ∈ done, p.1 ≠ x)
    (hpd : ∀ p ∈ done, p.1 ≠ nPosition) :
    ∃ T', typesAfter (emitValue ns x f) T = (if valueFits st f then some T' else none) ∧
      Typed T' mt st (done ++ [(x, f)]) := by
  have one : ∀ r : Rhs V, r.accepted T x f.ty = valueFits st f →
      ∃ T', typesAfter [Stmt.bind ns x f.ty r] T = (if valueFits st f then some T' else none) ∧
      Typed T' mt st (done ++ [(x, f)]) := by
    intro r hr
    refine ⟨(x, fieldTy f.ty, false) :: T, ?_, h.pushField f hc hd⟩
    rw [typesAfter_one]
    show (if r.accepted T x f.ty = true then some ((x, fieldTy f.ty, false) :: T) else none) = _
    rw [hr]
  unfold emitValue
  cases hw : f.field.attrs.withDecode with
  | some g =>
    refine one _ ?_
    show (callTyped T && spelledRight f.ty) = _
    rw [h.call]
    unfold valueFits typeFits Field.calls
    rw [hw]
    simp
  | none =>
    show ∃ T', typesAfter (if (f.field.attrs.skip || f.field.attrs.skipDecode) = true then _ else _) T = _ ∧ _
    by_cases hs : (f.field.attrs.skip || f.field.attrs.skipDecode) = true
    · rw [if_pos hs]
      refine one _ ?_
      show callable f.ty = _
      unfold valueFits typeFits Field.calls
      rw [hw, hs]
      simp
    · rw [if_neg hs]
      have hs' : (f.field.attrs.skip || f.field.attrs.skipDecode) = false := by simpa using hs
      cases hf : f.field.attrs.fromStr with
      | some ps =>
        refine one _ ?_
        show (callTyped T && x != nInput && (!f.fromStrOwn || callable f.ty)) = _
        have e : (x != nInput) = true := by simpa using hc.1
        rw [h.call, e]
        unfold valueFits typeFits Field.calls
        rw [hw, hs', hf]
        simp
      | none =>
        have hval : valueFits st f = (st && spelledRight f.ty) := by
          unfold valueFits typeFits Field.calls
          rw [hw, hs', hf]
          simp
        show ∃ T', typesAfter (emitPlain ns x f) T = _ ∧ _
        unfold emitPlain
        by_cases hu : f.field.attrs.untake = true
        · rw [if_pos hu, if_pos hu]
          have h1 := h.push (x := nPosition) (.usize, false) (by decide) (by decide) (by decide) hpd
          have h2 := h1.pushField f hc hd
          refine ⟨(x, fieldTy f.ty, false) :: (nPosition, .usize, false) :: T, ?_, h2⟩
          rw [typesAfter_append, typesAfter_append, typesAfter_append, typesAfter_one]
          have e1 : Stmt.types T (.letPosition : Stmt V) = some ((nPosition, .usize, false) :: T) := if_pos h.reader
          rw [e1]
          show ((typesAfter [Stmt.bind ns x f.ty (emitRead f.field)] _).bind (typesAfter [Stmt.setPosition])).bind _ = _
          rw [typesAfter_one]
          show ((if (emitRead f.field).accepted ((nPosition, .usize, false) :: T) x f.ty = true then _ else none : Option LTypes).bind
            (typesAfter [Stmt.setPosition])).bind _ = _
          rw [emitRead_accepted, h1.call, hval]
          by_cases ha : (st && spelledRight f.ty) = true
          · rw [if_pos ha]
            show (typesAfter [Stmt.setPosition] _).bind _ = _
            rw [typesAfter_one]
            have e2 : Stmt.types ((x, fieldTy f.ty, false) :: (nPosition, .usize, false) :: T) (.setPosition : Stmt V) =
                some ((x, fieldTy f.ty, false) :: (nPosition, .usize, false) :: T) := by
              refine if_pos ⟨h2.reader, ?_⟩
              rw [typeAt_past (Ne.symm hc.2.2.2.2), typeAt_here]
            rw [e2]
            exact emitFinish_types h2.reader _ _ _
          · rw [if_neg ha]
            rfl
        · rw [if_neg hu, if_neg hu, List.nil_append, List.append_nil]
          have h2 := h.pushField f hc hd
          refine ⟨(x, fieldTy f.ty, false) :: T, ?_, h2⟩
          rw [typesAfter_append, typesAfter_one]
          show (if (emitRead f.field).accepted T x f.ty = true then _ else none : Option LTypes).bind _ = _
          rw [emitRead_accepted, h.call, hval]
          by_cases ha : (st && spelledRight f.ty) = true
          · rw [if_pos ha]
            exact emitFinish_types h2.reader _ _ _
          · rw [if_neg ha]
            rfl

theorem emitField_types {T : LTypes} {mt st : Bool} {done : List (Name × NamedField V)} (h : Typed T mt st done)
    (ns : List Name) {x : Name} (f : NamedField V) (hc : Clear x) (hd : ∀ p ∈ done, p.1 ≠ x)
    (hdc : ∀ p ∈ done, Clear p.1) :
    ∃ T', typesAfter (emitField ns x f) T = (if fieldFits mt st f then some T' else none) ∧
      Typed T' mt st (done ++ [(x, f)]) := by
  obtain ⟨T1, e1, h1⟩ := emitValue_types h ns f hc hd fun p hp => (hdc p hp).2.2.2.2
  have e0 : typesAfter (emitOffset ns f.field.attrs) T = some T := by
    unfold emitOffset
    cases f.field.attrs.offset with
    | none => rfl
    | some e =>
      show typesAfter [Stmt.advance ns e] T = some T
      rw [typesAfter_one]
      exact if_pos h.reader
  unfold emitField
  rw [typesAfter_append, typesAfter_append, e0]
  show ∃ T', (typesAfter (emitValue ns x f) T).bind _ = _ ∧ _
  rw [e1]
  unfold fieldFits emitCache
  by_cases ha : valueFits st f = true
  · rw [if_pos ha, ha]
    show ∃ T', typesAfter _ T1 = _ ∧ _
    cases f.field.attrs.variableName with
    | none => exact ⟨T1, by simp [typesAfter], h1⟩
    | some l =>
      have hd1 : ∀ p ∈ done ++ [(x, f)], p.1 ≠ nCattrNew2 := by
        intro p hp
        rcases List.mem_append.1 hp with hp | hp
        · exact (hdc p hp).2.2.1
        · rw [List.mem_singleton.1 hp]; exact hc.2.2.1
      refine ⟨(nCattrNew2, .mods, false) :: T1, ?_, h1.push _ (by decide) (by decide) (by decide) hd1⟩
      show typesAfter [Stmt.cache (ns ++ [x]) l] T1 = _
      rw [typesAfter_one]
      show (if T1.lookup nCattrNew = some (.cattr, true) then some ((nCattrNew2, LTy.mods, false) :: T1) else none) = _
      rw [h1.cattr]
      cases mt <;> simp
  · rw [if_neg ha]
    have hb : valueFits st f = false := by simpa using ha
    exact ⟨T1, by rw [hb]; simp, h1⟩

/-- All fields; a tuple field takes over the modifiers before it. -/
def fieldsFit (tuple mt : Bool) : Bool → List (NamedField V) → Bool
  | _, [] => true
  | st, f :: fs => fieldFits mt (st || !tuple || f.field.attrs.isUse) f &&
      fieldsFit tuple mt (st || !tuple || f.field.attrs.isUse) fs

theorem emitFields_types (tuple mt : Bool) : ∀ (fs done : List (Name × NamedField V)) (ns : List Name) (T : LTypes) (st : Bool),
    Typed T mt st done → (∀ p ∈ done, Clear p.1) → (∀ p ∈ fs, Clear p.1) → ((done ++ fs).map (·.1)).Nodup →
    ∃ T', typesAfter (emitFields tuple ns fs) T = (if fieldsFit tuple mt st (fs.map (·.2)) then some T' else none) ∧
      ∀ p ∈ done ++ fs, typeAt T' p.1 = some (fieldTy p.2.ty)
  | [], done, ns, T, st, h, hdc, hc, hnd => ⟨T, rfl, by rw [List.append_nil]; exact h.fields⟩
  | (x, f) :: fs, done, ns, T, st, h, hdc, hc, hnd => by
    have hcx : Clear x := hc (x, f) (by simp)
    have hd : ∀ p ∈ done, p.1 ≠ x := by
      intro p hp e
      rw [List.map_append, List.nodup_append] at hnd
      exact hnd.2.2 p.1 (List.mem_map_of_mem hp) x (by simp) e
    have hdc' : ∀ p ∈ done ++ [(x, f)], Clear p.1 := by
      intro p hp
      rcases List.mem_append.1 hp with hp | hp
      · exact hdc p hp
      · rw [List.mem_singleton.1 hp]; exact hcx
    have e : done ++ (x, f) :: fs = (done ++ [(x, f)]) ++ fs := by simp
    have rest : ∀ T0, Typed T0 mt (st || !tuple || f.field.attrs.isUse) done →
        ∃ T', typesAfter (emitField ns x f ++ emitFields tuple (ns ++ [x]) fs) T0 =
          (if fieldsFit tuple mt st (((x, f) :: fs).map (·.2)) then some T' else none) ∧
        ∀ p ∈ done ++ (x, f) :: fs, typeAt T' p.1 = some (fieldTy p.2.ty) := by
      intro T0 h0
      obtain ⟨T1, e1, h1⟩ := emitField_types h0 ns f hcx hd hdc
      obtain ⟨T2, e2, h2⟩ := emitFields_types tuple mt fs (done ++ [(x, f)]) (ns ++ [x]) T1 _ h1 hdc'
        (fun p hp => hc p (by simp [hp])) (by rw [← e]; exact hnd)
      refine ⟨T2, ?_, by rw [e]; exact h2⟩
      rw [typesAfter_append, e1]
      show _ = (if (fieldFits mt (st || !tuple || f.field.attrs.isUse) f &&
        fieldsFit tuple mt (st || !tuple || f.field.attrs.isUse) (fs.map (·.2))) = true then some T2 else none)
      by_cases ha : fieldFits mt (st || !tuple || f.field.attrs.isUse) f = true
      · rw [if_pos ha, ha, Bool.true_and]
        exact e2
      · rw [if_neg ha]
        have hb : fieldFits mt (st || !tuple || f.field.attrs.isUse) f = false := by simpa using ha
        rw [hb]
        rfl
    show ∃ T', typesAfter ((if (tuple && !f.field.attrs.isUse) = true then [] else [Stmt.modifiers ns f.field.attrs]) ++
      emitField ns x f ++ emitFields tuple (ns ++ [x]) fs) T = _ ∧ _
    rw [List.append_assoc]
    by_cases hk : (tuple && !f.field.attrs.isUse) = true
    · rw [if_pos hk, List.nil_append]
      refine rest T ?_
      have ht : tuple = true := by revert hk; cases tuple <;> simp
      have hu : f.field.attrs.isUse = false := by revert hk; cases f.field.attrs.isUse <;> simp
      rw [ht, hu]
      simpa using h
    · rw [if_neg hk, typesAfter_append, typesAfter_one]
      refine rest _ ?_
      have : (st || !tuple || f.field.attrs.isUse) = true := by
        revert hk; cases tuple <;> cases f.field.attrs.isUse <;> simp
      rw [this]
      exact h.pushFattr fun p hp => (hdc p hp).2.2.2.1

/-! ## Structs -/

theorem tupleLocal_inj {i j : Nat} (h : tupleLocal i = tupleLocal j) : i = j := by
  have e : Nat.toDigits 10 i = Nat.toDigits 10 j := (List.cons.inj h).2
  rw [← Nat.ofDigitChars_toDigits (b := 10) (n := i) (by decide) (by decide), e,
    Nat.ofDigitChars_toDigits (by decide) (by decide)]

theorem tupleLocal_clear (i : Nat) : Clear (tupleLocal i) := by
  unfold Clear tupleLocal nInput nCattrNew nCattrNew2 nFattrNew nPosition
  simp

theorem withLocals_fields (s : Shape) : ∀ (n : Nat) (fs : List (NamedField V)), (withLocals s n fs).map (·.2) = fs
  | _, [] => rfl
  | n, f :: fs => by
    show f :: (withLocals s (n + 1) fs).map (·.2) = f :: fs
    rw [withLocals_fields s (n + 1) fs]

theorem withLocals_mem (s : Shape) : ∀ (n : Nat) (fs : List (NamedField V)) (p : Name × NamedField V),
    p ∈ withLocals s n fs → p.2 ∈ fs ∧ ((s = .tuple ∧ ∃ i, n ≤ i ∧ p.1 = tupleLocal i) ∨ (s ≠ .tuple ∧ p.1 = p.2.name))
  | _, [], p, h => by cases h
  | n, f :: fs, p, h => by
    rcases List.mem_cons.1 h with rfl | h
    · refine ⟨by simp, ?_⟩
      by_cases hs : s = .tuple
      · exact .inl ⟨hs, n, Nat.le_refl n, by simp [hs]⟩
      · exact .inr ⟨hs, by simp [hs]⟩
    · obtain ⟨h1, h2⟩ := withLocals_mem s (n + 1) fs p h
      refine ⟨by simp [h1], ?_⟩
      rcases h2 with ⟨hs, i, hi, e⟩ | h2
      · exact .inl ⟨hs, i, by omega, e⟩
      · exact .inr h2

theorem withLocals_nodup (s : Shape) : ∀ (n : Nat) (fs : List (NamedField V)),
    (s ≠ .tuple → (fs.map (·.name)).Nodup) → ((withLocals s n fs).map (·.1)).Nodup
  | _, [], _ => List.nodup_nil
  | n, f :: fs, h => by
    show ((if s = .tuple then tupleLocal n else f.name) :: (withLocals s (n + 1) fs).map (·.1)).Nodup
    rw [List.nodup_cons]
    refine ⟨fun hm => ?_, withLocals_nodup s (n + 1) fs fun hs => (List.nodup_cons.1 (h hs)).2⟩
    obtain ⟨p, hp, e⟩ := List.mem_map.1 hm
    obtain ⟨hf, ⟨hs, i, hi, ei⟩ | ⟨hs, en⟩⟩ := withLocals_mem s (n + 1) fs p hp
    · rw [if_pos hs, ei] at e
      have := tupleLocal_inj e
      omega
    · rw [if_neg hs, en] at e
      have := (List.nodup_cons.1 (h hs)).1
      exact this (List.mem_map.2 ⟨p.2, hf, e⟩)

/-- The names in a struct are different (as Rust demands), and none of them is the name of a helper of the generated code
or of a variable that is asked for. -/
structure GenStruct.Hygienic (S : GenStruct V) : Prop where
  fields : S.shape ≠ .tuple → ∀ f ∈ S.fields, Clear f.name
  distinct : S.shape ≠ .tuple → (S.fields.map (·.name)).Nodup
  vars : ∀ s ∈ S.getVars, Clear s.toList ∧ s.toList ≠ nCattr ∧ s.toList ≠ nCr ∧ s.toList ≠ nValue
  apart : ∀ s ∈ S.getVars, if S.shape = .tuple then ∀ i, s.toList ≠ tupleLocal i else ∀ f ∈ S.fields, s.toList ≠ f.name

theorem GenStruct.Hygienic.clear {S : GenStruct V} (h : S.Hygienic) : ∀ p ∈ withLocals S.shape 0 S.fields, Clear p.1 := by
  intro p hp
  obtain ⟨hf, ⟨hs, i, -, e⟩ | ⟨hs, e⟩⟩ := withLocals_mem _ _ _ p hp
  · rw [e]; exact tupleLocal_clear i
  · rw [e]; exact h.fields hs p.2 hf

theorem GenStruct.Hygienic.away {S : GenStruct V} (h : S.Hygienic) :
    ∀ s ∈ S.getVars, ∀ p ∈ withLocals S.shape 0 S.fields, s.toList ≠ p.1 := by
  intro s hs p hp
  obtain ⟨hf, ⟨ht, i, -, e⟩ | ⟨ht, e⟩⟩ := withLocals_mem _ _ _ p hp
  · have := h.apart s hs
    rw [if_pos ht] at this
    rw [e]; exact this i
  · have := h.apart s hs
    rw [if_neg ht] at this
    rw [e]; exact this p.2 hf

/-- The macro writes the type of the field behind a colon. -/
def NamedField.Annotated (f : NamedField V) : Prop :=
  f.field.attrs.withDecode.isSome = true ∨
    (f.field.attrs.skip = false ∧ f.field.attrs.skipDecode = false ∧ f.field.attrs.fromStr.isNone = true)

/-- The macro writes the type of the field in front of `::`. -/
def NamedField.Pathed (f : NamedField V) : Prop :=
  f.field.attrs.withDecode.isNone = true ∧
    (f.field.attrs.skip = true ∨ f.field.attrs.skipDecode = true ∨
      (f.field.attrs.fromStr.isSome = true ∧ f.fromStrOwn = true))

/-- The type of the field can stand where it is written. -/
def NamedField.TypeFits (f : NamedField V) : Prop :=
  (f.Annotated → Unbroken f.ty) ∧ (f.Pathed → ∃ s, f.ty = [.ident s])

theorem spelledRight_iff (ts : List TyTok) : spelledRight ts = true ↔ Unbroken ts := by
  unfold spelledRight
  rw [beq_iff_eq]
  exact C85_iff ts

theorem callable_iff (ts : List TyTok) : callable ts = true ↔ ∃ s, ts = [.ident s] := by
  unfold callable
  split
  · exact ⟨fun _ => ⟨_, rfl⟩, fun _ => rfl⟩
  · rename_i h
    exact ⟨fun h' => (by cases h'), fun ⟨s, e⟩ => absurd e (h s)⟩

theorem typeFits_iff (f : NamedField V) : typeFits f = true ↔ f.TypeFits := by
  unfold typeFits NamedField.TypeFits NamedField.Annotated NamedField.Pathed
  rw [← spelledRight_iff, ← callable_iff]
  cases f.field.attrs.withDecode <;> cases f.field.attrs.skip <;> cases f.field.attrs.skipDecode <;>
    cases f.field.attrs.fromStr <;> cases f.fromStrOwn <;> simp

theorem fieldsFit_iff (tuple mt : Bool) : ∀ (fs : List (NamedField V)) (st : Bool),
    fieldsFit tuple mt st fs = true ↔ (∀ f ∈ fs, f.TypeFits ∧ (f.field.attrs.variableName.isSome = true → mt = true)) ∧
      (∀ (i : Nat) (f : NamedField V), fs[i]? = some f → f.field.Calls → st = true ∨ tuple = false ∨
        ∃ (j : Nat) (g : NamedField V), j ≤ i ∧ fs[j]? = some g ∧ g.field.attrs.isUse = true)
  | [], st => by simp [fieldsFit]
  | f :: fs, st => by
    show (fieldFits mt (st || !tuple || f.field.attrs.isUse) f &&
      fieldsFit tuple mt (st || !tuple || f.field.attrs.isUse) fs) = true ↔ _
    rw [Bool.and_eq_true, fieldsFit_iff tuple mt fs]
    unfold fieldFits valueFits
    rw [Bool.and_eq_true, Bool.and_eq_true, typeFits_iff]
    constructor
    · rintro ⟨⟨⟨h1, h2⟩, h3⟩, h4, h5⟩
      refine ⟨fun g hg => ?_, fun i g hg hcall => ?_⟩
      · rcases List.mem_cons.1 hg with rfl | hg
        · refine ⟨h2, fun hv => ?_⟩
          cases hn : g.field.attrs.variableName with
          | none => rw [hn] at hv; cases hv
          | some l => rw [hn] at h3; simpa using h3
        · exact h4 g hg
      · cases i with
        | zero =>
          simp only [List.getElem?_cons_zero, Option.some.injEq] at hg
          subst hg
          rw [(Field.calls_iff _).2 hcall] at h1
          simp only [Bool.not_true, Bool.false_or, Bool.or_eq_true, Bool.not_eq_true'] at h1
          rcases h1 with (h1 | h1) | h1
          · exact .inl h1
          · exact .inr (.inl h1)
          · exact .inr (.inr ⟨0, f, Nat.le_refl 0, rfl, h1⟩)
        | succ i =>
          rw [List.getElem?_cons_succ] at hg
          rcases h5 i g hg hcall with h5 | h5 | ⟨j, k, hj, hk, hu⟩
          · simp only [Bool.or_eq_true, Bool.not_eq_true'] at h5
            rcases h5 with (h5 | h5) | h5
            · exact .inl h5
            · exact .inr (.inl h5)
            · exact .inr (.inr ⟨0, f, Nat.zero_le _, rfl, h5⟩)
          · exact .inr (.inl h5)
          · exact .inr (.inr ⟨j + 1, k, by omega, by rw [List.getElem?_cons_succ]; exact hk, hu⟩)
    · rintro ⟨h1, h2⟩
      refine ⟨⟨⟨?_, (h1 f (by simp)).1⟩, ?_⟩, fun g hg => h1 g (by simp [hg]), fun i g hg hcall => ?_⟩
      · cases hcall : f.field.calls with
        | false => rfl
        | true =>
          rcases h2 0 f rfl ((Field.calls_iff _).1 hcall) with h | h | ⟨j, g, hj, hg, hu⟩
          · simp [h]
          · simp [h]
          · obtain rfl : j = 0 := by omega
            simp only [List.getElem?_cons_zero, Option.some.injEq] at hg
            subst hg
            simp [hu]
      · cases hn : f.field.attrs.variableName with
        | none => rfl
        | some l => simpa using (h1 f (by simp)).2 (by rw [hn]; rfl)
      · rcases h2 (i + 1) g (by rw [List.getElem?_cons_succ]; exact hg) hcall with h | h | ⟨j, k, hj, hk, hu⟩
        · simp [h]
        · simp [h]
        · cases j with
          | zero =>
            simp only [List.getElem?_cons_zero, Option.some.injEq] at hk
            subst hk
            simp [hu]
          | succ j => exact .inr (.inr ⟨j, k, by omega, by rw [List.getElem?_cons_succ] at hk; exact hk, hu⟩)

theorem getVars_types (mt : Bool) : ∀ (vs : List String) (T : LTypes), (∀ s ∈ vs, Clear s.toList ∧ s.toList ≠ nCattr ∧ s.toList ≠ nCr ∧ s.toList ≠ nValue) →
    typeAt T nCattr = some .cattr → Typed (V := V) T mt false [] →
    ∃ T', typesAfter (vs.map (Stmt.getVar (V := V))) T = some T' ∧ Typed (V := V) T' mt false []
  | [], T, _, _, h => ⟨T, rfl, h⟩
  | s :: vs, T, hv, hc, h => by
    obtain ⟨⟨h1, h2, -, h4, -⟩, h6, h7⟩ := hv s (by simp)
    obtain ⟨T', e, h'⟩ := getVars_types mt vs ((s.toList, .usize, true) :: T) (fun s hs => hv s (by simp [hs]))
      (by rw [typeAt_past (Ne.symm h6)]; exact hc) (h.push _ h1 h2 h4 (fun p hp => by cases hp))
    refine ⟨T', ?_, h'⟩
    show ((if typeAt ((s.toList, .usize, true) :: T) nCattr = some .cattr ∧ s.toList ≠ nCr ∧ s.toList ≠ nValue then
      some ((s.toList, .usize, true) :: T) else none : Option LTypes).bind _) = _
    rw [if_pos ⟨by rw [typeAt_past (Ne.symm h6)]; exact hc, h7⟩]
    exact e

/-- **C84** (decoders of structs): exactly when rustc accepts the generated decoder, for hygienic names: the struct has
fields, their types can stand where the macro puts them, variables are cached only in structs without modifiers of
their own, and each field of a tuple struct that is read by a codec has modifiers or comes after one that has. -/
theorem C84_struct_iff (S : GenStruct V) (h : S.Hygienic) : S.decodeAccepted = true ↔
    S.shape ≠ .unit ∧
    (∀ f ∈ S.fields, f.TypeFits) ∧
    (∀ f ∈ S.fields, f.field.attrs.variableName.isSome = true → S.container = none) ∧
    (S.shape = .tuple → ∀ (i : Nat) (f : NamedField V), S.fields[i]? = some f → f.field.Calls →
      ∃ (j : Nat) (g : NamedField V), j ≤ i ∧ S.fields[j]? = some g ∧ g.field.attrs.isUse = true) := by
  have h0 : Typed (V := V) ((nCattrNew, .cattr, S.container.isNone) :: decodeParamTypes) S.container.isNone false [] :=
    ⟨by rw [typeAt_past (by decide)]; rfl, by rw [lookup_here], by rw [typeAt_past (by decide)]; rfl,
      fun p hp => by cases hp⟩
  obtain ⟨T1, e1, h1⟩ := getVars_types (V := V) _ S.getVars _ h.vars (by rw [typeAt_past (by decide)]; rfl) h0
  obtain ⟨T2, e2, h2⟩ := emitFields_types (V := V) (S.shape == .tuple) _ (withLocals S.shape 0 S.fields) [] [] T1 false h1
    (fun p hp => by cases hp) h.clear (withLocals_nodup _ _ _ h.distinct)
  have e : typesAfter S.decodeBody decodeParamTypes =
      (if fieldsFit (S.shape == .tuple) S.container.isNone false S.fields then some T2 else none) := by
    show typesAfter (S.getVars.map Stmt.getVar ++ _) _ = _
    rw [typesAfter_append, e1]
    rw [withLocals_fields] at e2
    exact e2
  unfold GenStruct.decodeAccepted
  rw [e]
  have hcon : constructAccepted S.shape (withLocals S.shape 0 S.fields) T2 = (S.shape != .unit) := by
    unfold constructAccepted
    have : ((withLocals S.shape 0 S.fields).all fun p => typeAt T2 p.1 == some (fieldTy p.2.ty)) = true := by
      rw [List.all_eq_true]
      intro p hp
      rw [beq_iff_eq]
      exact h2 p hp
    rw [this, Bool.and_true]
  by_cases hfit : fieldsFit (S.shape == .tuple) S.container.isNone false S.fields = true
  · rw [if_pos hfit]
    show constructAccepted _ _ _ = true ↔ _
    rw [hcon]
    obtain ⟨ha, hb⟩ := (fieldsFit_iff _ _ _ _).1 hfit
    constructor
    · intro hs
      refine ⟨by simpa using hs, fun f hf => (ha f hf).1, fun f hf hv => by simpa using (ha f hf).2 hv, fun ht i f hf hc => ?_⟩
      rcases hb i f hf hc with h' | h' | h'
      · cases h'
      · rw [ht] at h'; cases h'
      · exact h'
    · rintro ⟨hs, -⟩
      simpa using hs
  · rw [if_neg hfit]
    refine ⟨fun h' => (by cases h'), fun ⟨_, ha, hb, hc⟩ => absurd ((fieldsFit_iff _ _ _ _).2 ⟨fun f hf =>
      ⟨ha f hf, fun hv => by rw [hb f hf hv]; rfl⟩, fun i f hf hcall => ?_⟩) hfit⟩
    by_cases ht : S.shape = .tuple
    · exact .inr (.inr (hc ht i f hf hcall))
    · exact .inr (.inl (by simpa using ht))

theorem m_bind_pure (x : M α) : (x >>= fun a => Pure.pure a) = x := by
  funext b
  show M.bind x _ b = x b
  unfold M.bind
  generalize x b = r
  obtain ⟨o, b'⟩ := r
  cases o <;> rfl

theorem getVars_run (ca : Option CAttr) : ∀ (ss vs : List String) (L : Locals V), (∀ s ∈ ss ++ vs, Clear s.toList ∧ s.toList ≠ nCattr) →
    cattrAt L nCattr = some ca → ∀ (c : Option CAttr), isReader L nInput = true → cattrAt L nCattrNew = some c →
    (∀ s ∈ ss, usizeAt U L s.toList = some ((ca.bind fun c => c.vars.lookup s).getD 0)) →
    ∀ (ts : List String) {β : Type} {K : Locals V → M β} {K' : M β},
    (∀ L', isReader L' nInput = true → cattrAt L' nCattrNew = some c →
      (∀ s ∈ ss ++ vs, usizeAt U L' s.toList = some ((ca.bind fun c => c.vars.lookup s).getD 0)) →
      (∀ y, (∀ s ∈ vs, y ≠ s.toList) → L'.lookup y = L.lookup y) → K L' = K') →
    (runAll U ts (vs.map Stmt.getVar) L >>= K) = K'
  | ss, [], L, _, _, c, hr, hc, hs, ts, β, K, K', hK => hK L hr hc (by rw [List.append_nil]; exact hs) fun _ _ => rfl
  | ss, s :: vs, L, hv, hca, c, hr, hc, hs, ts, β, K, K', hK => by
    obtain ⟨⟨h1, h2, -, -, -⟩, h6⟩ := hv s (by simp)
    show ((Stmt.run U ts L (.getVar s) >>= fun L' => runAll U ts (vs.map Stmt.getVar) L') >>= K) = K'
    have e : Stmt.run U ts L (.getVar s) =
        Pure.pure ((s.toList, LocalVal.num ((ca.bind fun c => c.vars.lookup s).getD 0)) :: L) := by
      unfold Stmt.run
      rw [hca]
      rfl
    rw [e, m_pure_bind]
    have eL : ss ++ s :: vs = (ss ++ [s]) ++ vs := by simp
    refine getVars_run ca (ss ++ [s]) vs _ (by rw [← eL]; exact hv) (by rw [cattrAt_past (Ne.symm h6)]; exact hca) c
      (by rw [isReader_past (Ne.symm h1)]; exact hr) (by rw [cattrAt_past (Ne.symm h2)]; exact hc) (fun t ht => ?_) ts
      fun L' hr' hc' hs' hl' => hK L' hr' hc' (by rw [eL]; exact hs') fun y hy => by
        rw [hl' y fun t ht => hy t (by simp [ht]), lookup_past (hy s (by simp))]
    by_cases et : t.toList = s.toList
    · have : t = s := String.toList_inj.1 et
      rw [this]
      unfold usizeAt
      rw [lookup_here]
    · rw [usizeAt_past U et]
      rcases List.mem_append.1 ht with ht | ht
      · exact hs t ht
      · exact absurd (congrArg String.toList (List.mem_singleton.1 ht)) et

theorem prepared_of : ∀ (fs : List (NamedField V)) (st : Bool),
    (∀ (i : Nat) (f : NamedField V), fs[i]? = some f → f.field.Calls → st = true ∨
      ∃ (j : Nat) (g : NamedField V), j ≤ i ∧ fs[j]? = some g ∧ g.field.attrs.isUse = true) →
    Prepared st (fs.map (·.field))
  | [], _, _ => trivial
  | f :: fs, st, h => by
    refine ⟨fun hc => ?_, prepared_of fs _ fun i g hg hc => ?_⟩
    · rcases h 0 f rfl hc with h' | ⟨j, g, hj, hg, hu⟩
      · simp [h']
      · obtain rfl : j = 0 := by omega
        simp only [List.getElem?_cons_zero, Option.some.injEq] at hg
        subst hg
        simp [hu]
    · rcases h (i + 1) g (by rw [List.getElem?_cons_succ]; exact hg) hc with h' | ⟨j, k, hj, hk, hu⟩
      · exact .inl (by simp [h'])
      · cases j with
        | zero =>
          simp only [List.getElem?_cons_zero, Option.some.injEq] at hk
          subst hk
          exact .inl (by simp [hu])
        | succ j => exact .inr ⟨j, k, by omega, by rw [List.getElem?_cons_succ] at hk; exact hk, hu⟩

/-- **C83** (decoders of structs): with hygienic names an accepted decoder does what `decStruct` says, whatever the names
are: they are not mentioned on the right. -/
theorem C83_struct_partial (U : UsizeIn V) (S : GenStruct V) (h : S.Hygienic) (ha : S.decodeAccepted = true)
    (ca : Option CAttr) (fa : Option FAttr) : S.runDecode U ca fa = decStruct S.toDef ca fa := by
  obtain ⟨-, -, -, ht⟩ := (C84_struct_iff S h).1 ha
  show (runAll U S.getVars S.decodeBody (decodeParams ca fa) >>= _) = decFields (S.shape == .tuple) (S.fields.map (·.field))
    S.container none { vars := localVars S.getVars ca }
  have e0 : runAll U S.getVars S.decodeBody (decodeParams ca fa) = runAll U S.getVars (S.getVars.map Stmt.getVar ++
      emitFields (S.shape == .tuple) [] (withLocals S.shape 0 S.fields))
      ((nCattrNew, LocalVal.cattr S.container) :: decodeParams ca fa) := rfl
  rw [e0, runAll_append, m_bind_assoc]
  refine getVars_run ca [] S.getVars _ (fun s hs => ⟨(h.vars s hs).1, (h.vars s hs).2.1⟩) rfl S.container rfl rfl (fun s hs => by cases hs) _ fun L hr hc hv _ => ?_
  have hs : Sees U S.getVars [] L S.container { vars := localVars S.getVars ca } := by
    refine ⟨hr, hc, rfl, ?_⟩
    unfold localVars
    refine List.map_congr_left fun s hs => ?_
    rw [hv s (by simpa using hs)]
    rfl
  have ef : S.fields.map (·.field) = (withLocals S.shape 0 S.fields).map (·.2.field) := by
    conv => lhs; rw [← withLocals_fields S.shape 0 S.fields, List.map_map]
    rfl
  have eb : decFields (S.shape == .tuple) (S.fields.map (·.field)) S.container none { vars := localVars S.getVars ca } =
      (decFields (S.shape == .tuple) (S.fields.map (·.field)) S.container none { vars := localVars S.getVars ca } >>=
        fun vs => Pure.pure vs) := (m_bind_pure _).symm
  rw [eb, ef]
  refine emitFields_run (S.shape == .tuple) (fun s hs => (h.vars s hs).1) (withLocals S.shape 0 S.fields) [] L S.container none
    _ false hs (fun e => by cases e) (fun htt => ?_) h.clear (fun y hy => by cases hy) (withLocals_nodup _ _ _ h.distinct) h.away
    fun ws L' hL => ?_
  · rw [← ef]
    exact prepared_of S.fields false fun i f hf hcall => .inr (ht (by simpa using htt) i f hf hcall)
  · unfold construct
    rw [List.nil_append] at hL
    rw [hL]
    rfl

/-- The same declaration up to names: everything but the names of the fields is equal. -/
def SameButNames (S S' : GenStruct V) : Prop :=
  S'.container = S.container ∧ S'.getVars = S.getVars ∧ S'.shape = S.shape ∧
    S'.fields.map (fun f => (f.ty, f.field, f.fromStrOwn)) = S.fields.map (fun f => (f.ty, f.field, f.fromStrOwn))

theorem SameButNames.fields {S S' : GenStruct V} (h : SameButNames S S') : ∀ (i : Nat) (f : NamedField V),
    S'.fields[i]? = some f → ∃ g, S.fields[i]? = some g ∧ g.ty = f.ty ∧ g.field = f.field ∧ g.fromStrOwn = f.fromStrOwn := by
  intro i f hf
  have e := congrArg (fun l => l[i]?) h.2.2.2
  simp only [List.getElem?_map, hf, Option.map_some] at e
  cases hg : S.fields[i]? with
  | none => rw [hg] at e; cases e
  | some g =>
    rw [hg] at e
    simp only [Option.map_some, Option.some.injEq, Prod.mk.injEq] at e
    exact ⟨g, rfl, e.1.symm, e.2.1.symm, e.2.2.symm⟩

theorem SameButNames.symm {S S' : GenStruct V} (h : SameButNames S S') : SameButNames S' S :=
  ⟨h.1.symm, h.2.1.symm, h.2.2.1.symm, h.2.2.2.symm⟩

theorem SameButNames.accepted {S S' : GenStruct V} (h : SameButNames S S') (hs : S.Hygienic) (hs' : S'.Hygienic)
    (ha : S.decodeAccepted = true) : S'.decodeAccepted = true := by
  obtain ⟨h1, h2, h3, h4⟩ := (C84_struct_iff S hs).1 ha
  refine (C84_struct_iff S' hs').2 ⟨by rw [h.2.2.1]; exact h1, fun f hf => ?_, fun f hf hv => ?_, fun ht i f hf hc => ?_⟩
  · obtain ⟨i, hi⟩ := List.mem_iff_getElem?.1 hf
    obtain ⟨g, hg, e1, e2, e3⟩ := h.fields i f hi
    have := h2 g (List.mem_of_getElem? hg)
    unfold NamedField.TypeFits NamedField.Annotated NamedField.Pathed at this ⊢
    rw [e1, e2, e3] at this
    exact this
  · obtain ⟨i, hi⟩ := List.mem_iff_getElem?.1 hf
    obtain ⟨g, hg, e1, e2, e3⟩ := h.fields i f hi
    rw [h.1]
    exact h3 g (List.mem_of_getElem? hg) (by rw [e2]; exact hv)
  · obtain ⟨g, hg, e1, e2, e3⟩ := h.fields i f hf
    obtain ⟨j, k, hj, hk, hu⟩ := h4 (by rw [← h.2.2.1]; exact ht) i g hg (by rw [e2]; exact hc)
    obtain ⟨k', hk', e1', e2', e3'⟩ := h.symm.fields j k hk
    exact ⟨j, k', hj, hk', by rw [e2']; exact hu⟩

/-- **C83** (decoders of structs): renaming the fields – with names that no helper has – changes neither whether the
decoder is accepted nor what it does. -/
theorem C83_rename_partial (U : UsizeIn V) (S S' : GenStruct V) (h : SameButNames S S') (hs : S.Hygienic)
    (hs' : S'.Hygienic) : S'.decodeAccepted = S.decodeAccepted ∧
      (S.decodeAccepted = true → ∀ ca fa, S'.runDecode U ca fa = S.runDecode U ca fa) := by
  refine ⟨?_, fun ha ca fa => ?_⟩
  · cases e : S.decodeAccepted with
    | true => exact h.accepted hs hs' e
    | false =>
      cases e' : S'.decodeAccepted with
      | true => rw [h.symm.accepted hs' hs e'] at e; cases e
      | false => rfl
  · rw [C83_struct_partial U S hs ha, C83_struct_partial U S' hs' (h.accepted hs hs' ha)]
    have ef : S'.fields.map (·.field) = S.fields.map (·.field) := by
      have := congrArg (List.map fun t : List TyTok × Field V × Bool => t.2.1) h.2.2.2
      rw [List.map_map, List.map_map] at this
      exact this
    unfold GenStruct.toDef
    rw [h.1, h.2.1, h.2.2.1, ef]

/-! ## Where it fails -/

/-- A codec of one byte. -/
def byteCodec : Dec Nat := fun _ _ => do
  let x ← takeU8
  return x.toNat

/-- A field `name: ty` of one byte. -/
def byteField (name : Name) (ty : Name) (a : FieldAttrs Nat := {}) : NamedField Nat :=
  { name := name, ty := [.ident ty], field := { attrs := a, dec := byteCodec, enc := fun _ _ _ => Pure.pure 0, dflt := 0, noneV := 0 } }

/-- `struct S { <x>: usize, #[jbytes(untake)] next: u8 }` -/
def shadowed (x : Name) : GenStruct Nat :=
  { shape := .named
    fields := [byteField x ['u', 's', 'i', 'z', 'e'],
      byteField ['n', 'e', 'x', 't'] ['u', '8'] { isUse := true, untake := true }] }

/-- `struct S { #[jbytes(untake)] <x>: usize, next: u8 }` -/
def moved (x : Name) : GenStruct Nat :=
  { shape := .named
    fields := [byteField x ['u', 's', 'i', 'z', 'e'] { isUse := true, untake := true }, byteField ['n', 'e', 'x', 't'] ['u', '8']] }

unseal usizeMod isizeMax in
/-- **C83** is violated: renaming the field `start` to `position` gives another value – the position of the reader instead
of what was read – and with `untake` on it the reader is sent to the position that was read. -/
theorem C83_violated :
    (shadowed ['s', 't', 'a', 'r', 't']).decodeAccepted = true ∧ (shadowed ['p', 'o', 's', 'i', 't', 'i', 'o', 'n']).decodeAccepted = true ∧
    ((shadowed ['s', 't', 'a', 'r', 't']).runDecode ⟨id, id⟩ none none ⟨[9, 7, 8], 0⟩).1 = .ok [9, 7] ∧
    ((shadowed ['p', 'o', 's', 'i', 't', 'i', 'o', 'n']).runDecode ⟨id, id⟩ none none ⟨[9, 7, 8], 0⟩).1 = .ok [1, 7] ∧
    (moved ['s', 't', 'a', 'r', 't']).decodeAccepted = true ∧ (moved ['p', 'o', 's', 'i', 't', 'i', 'o', 'n']).decodeAccepted = true ∧
    ((moved ['s', 't', 'a', 'r', 't']).runDecode ⟨id, id⟩ none none ⟨[2, 7, 8], 0⟩).1 = .ok [2, 2] ∧
    ((moved ['p', 'o', 's', 'i', 't', 'i', 'o', 'n']).runDecode ⟨id, id⟩ none none ⟨[2, 7, 8], 0⟩).1 = .ok [2, 8] := by
  refine ⟨rfl, rfl, rfl, rfl, rfl, rfl, rfl, rfl⟩

theorem byteField_clear {x ty : Name} {a : FieldAttrs Nat} (h : Clear x) : Clear (byteField x ty a).name := h

theorem shadowed_hygienic {x : Name} (h : Clear x) (hn : x ≠ ['n', 'e', 'x', 't']) : (shadowed x).Hygienic := by
  refine ⟨fun _ f hf => ?_, fun _ => ?_, fun s hs => (by cases hs), fun s hs => (by cases hs)⟩
  · simp only [shadowed, List.mem_cons, List.not_mem_nil, or_false] at hf
    rcases hf with rfl | rfl
    · exact h
    · simp only [byteField, Clear]; decide
  · simp [shadowed, byteField, hn]

/-- A case of `C83_struct_partial` and `C83_rename_partial`: `start` may be called `offset`. -/
example : (shadowed ['s', 't', 'a', 'r', 't']).Hygienic ∧ (shadowed ['o', 'f', 'f', 's', 'e', 't']).Hygienic ∧
    (shadowed ['s', 't', 'a', 'r', 't']).decodeAccepted = true ∧
    SameButNames (shadowed ['s', 't', 'a', 'r', 't']) (shadowed ['o', 'f', 'f', 's', 'e', 't']) :=
  ⟨shadowed_hygienic (by simp only [Clear]; decide) (by decide), shadowed_hygienic (by simp only [Clear]; decide) (by decide),
    rfl, rfl, rfl, rfl, rfl⟩

/-- `Vec<u8>` -/
def vecU8 : List TyTok := [.ident ['V', 'e', 'c'], .punct '<' false, .ident ['u', '8'], .punct '>' false]

/-- `std::net::Ipv4Addr` -/
def pathType : List TyTok :=
  [.ident ['s', 't', 'd'], .punct ':' true, .punct ':' false, .ident ['n', 'e', 't'], .punct ':' true, .punct ':' false,
    .ident ['I', 'p', 'v', '4', 'A', 'd', 'd', 'r']]

/-- A struct with one field `a: ty`. -/
def oneField (s : Shape) (ty : List TyTok) (a : FieldAttrs Nat := {}) (c : Option CAttr := none) : GenStruct Nat :=
  { shape := s, container := c
    fields := [{ name := ['a'], ty := ty,
                 field := { attrs := a, dec := byteCodec, enc := fun _ _ _ => Pure.pure 0, dflt := 0, noneV := 0 } }] }

theorem oneField_hygienic (s : Shape) (ty : List TyTok) (a : FieldAttrs Nat) (c : Option CAttr) :
    (oneField s ty a c).Hygienic := by
  refine ⟨fun _ f hf => ?_, fun _ => ?_, fun s hs => (by cases hs), fun s hs => (by cases hs)⟩
  · simp only [oneField, List.mem_cons, List.not_mem_nil, or_false] at hf
    subst hf
    simp only [Clear]; decide
  · simp [oneField]

/-- **C84** is violated: the generated decoder is not accepted for `struct S;`, for `struct S(u8);` (while
`struct S { a: u8 }` is fine), for a skipped `Vec<u8>`, for a field whose type is a path, and for a cached variable in a
struct with modifiers. -/
theorem C84_violated :
    ({ shape := .unit } : GenStruct Nat).decodeAccepted = false ∧
    (oneField .named [.ident ['u', '8']]).decodeAccepted = true ∧
    (oneField .tuple [.ident ['u', '8']]).decodeAccepted = false ∧
    (oneField .tuple [.ident ['u', '8']] { isUse := true }).decodeAccepted = true ∧
    (oneField .named vecU8).decodeAccepted = true ∧
    (oneField .named vecU8 { isUse := true, skip := true }).decodeAccepted = false ∧
    (oneField .named pathType).decodeAccepted = false ∧
    (oneField .named [.ident ['u', '8']] { isUse := true, variableName := some [("n", fun _ => 0)] }).decodeAccepted = true ∧
    (oneField .named [.ident ['u', '8']] { isUse := true, variableName := some [("n", fun _ => 0)] }
      (some { byteCount := some 2 })).decodeAccepted = false :=
  ⟨rfl, rfl, rfl, rfl, rfl, rfl, rfl, rfl, rfl⟩

/-- Cases of `C84_struct_iff`, accepted and not. -/
example : (oneField .named vecU8).Hygienic ∧ (oneField .tuple vecU8).Hygienic :=
  ⟨oneField_hygienic .., oneField_hygienic ..⟩

/-- **C85** is violated: `std::net::Ipv4Addr` is written back as `std : : net : : Ipv4Addr `. -/
theorem C85_violated : lexemes (respelled pathType) ≠ lexemes pathType ∧
    typeText pathType = "std : : net : : Ipv4Addr ".toList := by decide

/-- A case of `C85_iff` on its good side: `&'a [u8]`. -/
example : Unbroken [.punct '&' false, .punct '\'' true, .ident ['a'], .group "[u8]".toList] := by
  rw [← C85_iff]; decide

end JBytes
