import Verif.GenEncode
import Verif.PropGenCode
/-!
# Generated encoders of structs do what the model of derive says (C83), and when they are accepted (C84)
-/

namespace JBytes
open M

variable {V : Type}

/-- A name that none of the helpers of a generated encoder has. -/
def EncClear (x : Name) : Prop := x ≠ nBuffer ∧ x ≠ nCattrNew ∧ x ≠ nFattrNew ∧ x ≠ nBytes

/-- What the locals hold between two statements. -/
structure EncSees (U : UsizeIn V) (vs : List String) (L : Locals V) (ca : Option CAttr) (vars : List (String × Nat)) (n : Nat) :
    Prop where
  buffer : isReader L nBuffer = true
  cattr : cattrAt L nCattrNew = some ca
  count : usizeAt U L nBytes = some n
  vars : (vs.map fun s => (s, (usizeAt U L s.toList).getD 0)) = vars

variable {U : UsizeIn V} {vs : List String} {ws : List V} {L : Locals V} {ca : Option CAttr} {fa : Option FAttr}
  {vars : List (String × Nat)} {n : Nat}

theorem EncSees.env (h : EncSees U vs L ca vars n) (i : Nat) : selfEnv U vs ws i L = { vars := vars, fields := ws.take i } := by
  unfold selfEnv
  rw [h.vars]

theorem EncSees.push (h : EncSees U vs L ca vars n) {x : Name} (v : LocalVal V) (hx : x ≠ nBuffer) (hc : x ≠ nCattrNew)
    (hb : x ≠ nBytes) (hv : ∀ s ∈ vs, s.toList ≠ x) : EncSees U vs ((x, v) :: L) ca vars n where
  buffer := by rw [isReader_past (Ne.symm hx)]; exact h.buffer
  cattr := by rw [cattrAt_past (Ne.symm hc)]; exact h.cattr
  count := by rw [usizeAt_past U (Ne.symm hb)]; exact h.count
  vars := by
    rw [← h.vars]
    refine List.map_congr_left fun s hs => ?_
    rw [usizeAt_past U (hv s hs)]

theorem EncSees.pushCount (h : EncSees U vs L ca vars n) (m : Nat) (hv : ∀ s ∈ vs, s.toList ≠ nBytes) :
    EncSees U vs ((nBytes, .num m) :: L) ca vars m where
  buffer := by rw [isReader_past (by decide)]; exact h.buffer
  cattr := by rw [cattrAt_past (by decide)]; exact h.cattr
  count := by unfold usizeAt; rw [lookup_here]
  vars := by
    rw [← h.vars]
    refine List.map_congr_left fun s hs => ?_
    rw [usizeAt_past U (hv s hs)]

theorem encRunAll_append (U : UsizeIn V) (vs : List String) (ws : List V) :
    ∀ (a b : List (EncStmt V)) (L : Locals V), encRunAll U vs ws (a ++ b) L = (encRunAll U vs ws a L >>= encRunAll U vs ws b)
  | [], _, _ => rfl
  | s :: a, b, L => by
    show (EncStmt.run U vs ws L s >>= fun L' => encRunAll U vs ws (a ++ b) L') =
      ((EncStmt.run U vs ws L s >>= fun L' => encRunAll U vs ws a L') >>= encRunAll U vs ws b)
    rw [m_bind_assoc]
    exact m_bind_congr fun L' => encRunAll_append U vs ws a b L'

theorem encRunAll_cons (U : UsizeIn V) (vs : List String) (ws : List V) (s : EncStmt V) (ss : List (EncStmt V)) (L : Locals V)
    {β : Type} (K : Locals V → M β) :
    (encRunAll U vs ws (s :: ss) L >>= K) = (EncStmt.run U vs ws L s >>= fun L' => encRunAll U vs ws ss L' >>= K) := by
  show ((EncStmt.run U vs ws L s >>= fun L' => encRunAll U vs ws ss L') >>= K) = _
  rw [m_bind_assoc]

/-- What is known after some statements of a field: `m` more bytes are counted. -/
structure EncAfter (U : UsizeIn V) (vs : List String) (L L' : Locals V) (ca : Option CAttr) (vars : List (String × Nat))
    (n : Nat) : Prop where
  sees : EncSees U vs L' ca vars n
  fattr : fattrAt L' nFattrNew = fattrAt L nFattrNew

theorem encodeWith_eq (h : EncSees U vs L ca vars n) (hf : fattrAt L nFattrNew = some fa) (e : Option CAttr → Option FAttr → M Nat) :
    encodeWith L e = e ca fa := by
  unfold encodeWith
  rw [h.buffer, h.cattr, hf]

theorem add_run (h : EncSees U vs L ca vars n) (hv : ∀ s ∈ vs, EncClear s.toList) (i : Nat) (r : EncRhs V) (m : M Nat)
    (hr : r.run U ws L { vars := vars, fields := ws.take i } = m) {β : Type} {K : Locals V → M β} {K' : Nat → M β}
    (hK : ∀ k L', EncAfter U vs L L' ca vars (n + k) → K L' = K' k) :
    (EncStmt.run U vs ws L (.add i r) >>= K) = (m >>= K') := by
  show ((r.run U ws L (selfEnv U vs ws i L) >>= fun k => match usizeAt U L nBytes with
    | some m => (Pure.pure ((nBytes, LocalVal.num (m + k)) :: L) : M (Locals V))
    | none => panic) >>= K) = _
  rw [h.env, hr, m_bind_assoc]
  refine m_bind_congr fun k => ?_
  rw [h.count, m_pure_bind]
  exact hK k _ ⟨h.pushCount _ fun s hs => (hv s hs).2.2.2, by rw [fattrAt_past (by decide)]⟩

theorem emitFill_run (h : EncSees U vs L ca vars n) (i : Nat) (a : FieldAttrs V) {β : Type} (K : Locals V → M β) :
    (encRunAll U vs ws (emitFill i a) L >>= K) = (padOffset a { vars := vars, fields := ws.take i } >>= fun _ => K L) := by
  unfold emitFill padOffset
  cases a.offset with
  | none => rfl
  | some e =>
    show (encRunAll U vs ws [EncStmt.fill i e a.full] L >>= K) = _
    rw [encRunAll_cons]
    show ((if isReader L nBuffer = true then (padLoop a.full (e (selfEnv U vs ws i L)) >>= fun _ => Pure.pure L) else panic) >>= _) = _
    rw [if_pos h.buffer, h.env, m_bind_assoc]
    rfl

/-- The field is converted before it is written. -/
def Field.Converts (f : Field V) : Prop :=
  f.attrs.withEncode.isNone = true ∧ f.attrs.skip = false ∧ f.attrs.skipEncode = false ∧
    (f.attrs.bits.isSome = true ∨ f.attrs.untake = false) ∧ f.attrs.valueEncode.isSome = true

theorem emitSend_run (h : EncSees U vs L ca vars n) (hv : ∀ s ∈ vs, EncClear s.toList) (i : Nat) (x : Name) (f : Field V) (v : V)
    (hi : ws[i]? = some v) (hf : fattrAt L nFattrNew = some fa)
    (hx : f.attrs.valueEncode.isSome = true → EncClear x ∧ ∀ s ∈ vs, s.toList ≠ x)
    {β : Type} {K : Locals V → M β} {K' : Nat → M β} (hK : ∀ k L', EncAfter U vs L L' ca vars (n + k) → K L' = K' k) :
    (encRunAll U vs ws (emitSend i x f) L >>= K) = (encPlain f { vars := vars, fields := ws.take i } v ca fa >>= K') := by
  have sf : ∀ k : V → M Nat, selfField ws i k = k v := by
    intro k; unfold selfField; rw [hi]
  unfold emitSend encPlain
  rw [encRunAll_append, m_bind_assoc, emitFill_run h, m_bind_assoc]
  refine m_bind_congr fun _ => ?_
  cases hve : f.attrs.valueEncode with
  | none =>
    show (encRunAll U vs ws [EncStmt.add i (.field i f.enc)] L >>= K) = _
    rw [encRunAll_cons]
    refine add_run h hv i _ _ ?_ hK
    show selfField ws i _ = _
    rw [sf]
    exact encodeWith_eq h hf _
  | some g =>
    obtain ⟨hc, ha⟩ := hx (by rw [hve]; rfl)
    show (encRunAll U vs ws [EncStmt.letSelf i x, .letValue i x g, .add i (.hidden x f.enc)] L >>= K) = _
    rw [encRunAll_cons]
    have e1 : EncStmt.run U vs ws L (.letSelf i x) = Pure.pure ((x, LocalVal.value v) :: L) := by
      unfold EncStmt.run; simp only [hi]
    rw [e1, m_pure_bind, encRunAll_cons]
    have h1 : EncSees U vs ((x, LocalVal.value v) :: L) ca vars n := h.push (.value v) hc.1 hc.2.1 hc.2.2.2 ha
    have e2 : EncStmt.run U vs ws ((x, LocalVal.value v) :: L) (.letValue i x g) =
        Pure.pure ((x, LocalVal.value (g { vars := vars, fields := ws.take i } v)) :: (x, LocalVal.value v) :: L) := by
      have : valueAt U ((x, LocalVal.value v) :: L) x = some v := by unfold valueAt; rw [lookup_here]
      unfold EncStmt.run
      simp only [this, h1.env]
    rw [e2, m_pure_bind, encRunAll_cons]
    have h2 := h1.push (.value (g { vars := vars, fields := ws.take i } v)) hc.1 hc.2.1 hc.2.2.2 ha
    have ef : fattrAt ((x, LocalVal.value (g { vars := vars, fields := ws.take i } v)) :: (x, LocalVal.value v) :: L) nFattrNew =
        fattrAt L nFattrNew := by
      rw [fattrAt_past (Ne.symm hc.2.2.1), fattrAt_past (Ne.symm hc.2.2.1)]
    refine add_run h2 hv i _ _ ?_ fun k L' h' => hK k L' ⟨h'.sees, h'.fattr.trans ef⟩
    have : valueAt U ((x, LocalVal.value (g { vars := vars, fields := ws.take i } v)) :: (x, LocalVal.value v) :: L) x =
        some (g { vars := vars, fields := ws.take i } v) := by unfold valueAt; rw [lookup_here]
    unfold EncRhs.run
    simp only [this]
    exact encodeWith_eq h2 (ef.trans hf) _

theorem emitEncode_run (h : EncSees U vs L ca vars n) (hv : ∀ s ∈ vs, EncClear s.toList) (i : Nat) (x : Name) (f : Field V) (v : V)
    (hi : ws[i]? = some v) (hf : fattrAt L nFattrNew = some fa)
    (hx : f.Converts → EncClear x ∧ ∀ s ∈ vs, s.toList ≠ x)
    {β : Type} {K : Locals V → M β} {K' : Nat → M β} (hK : ∀ k L', EncAfter U vs L L' ca vars (n + k) → K L' = K' k) :
    (encRunAll U vs ws (emitEncode i x f) L >>= K) = (encField f { vars := vars, fields := ws.take i } v ca fa >>= K') := by
  have sf : ∀ k : V → M Nat, selfField ws i k = k v := by
    intro k; unfold selfField; rw [hi]
  unfold emitEncode encField
  cases hw : f.attrs.withEncode with
  | some g =>
    show (encRunAll U vs ws [EncStmt.add i (.call i g)] L >>= K) = _
    rw [encRunAll_cons]
    refine add_run h hv i _ _ ?_ hK
    show selfField ws i _ = _
    rw [sf]
    exact encodeWith_eq h hf _
  | none =>
    show (encRunAll U vs ws (if (f.attrs.skip || f.attrs.skipEncode) = true then _ else _) L >>= K) =
      ((if (f.attrs.skip || f.attrs.skipEncode) = true then _ else _ : M Nat) >>= K')
    by_cases hs : (f.attrs.skip || f.attrs.skipEncode) = true
    · rw [if_pos hs, if_pos hs]
      exact hK 0 L ⟨h, rfl⟩
    · rw [if_neg hs, if_neg hs, encRunAll_append, m_bind_assoc, m_bind_assoc]
      -- the text
      have txt : ∀ {γ : Type} {K : Locals V → M γ} {K' : Nat → M γ}, (∀ k L', EncAfter U vs L L' ca vars (n + k) → K L' = K' k) →
          (encRunAll U vs ws (emitText i f.attrs) L >>= K) = (encText f.attrs v ca fa >>= K') := by
        intro γ K K' hK
        unfold emitText encText
        cases f.attrs.fromStr with
        | none => exact hK 0 L ⟨h, rfl⟩
        | some ps =>
          show (encRunAll U vs ws [EncStmt.add i (.text i ps.2)] L >>= K) = _
          rw [encRunAll_cons]
          refine add_run h hv i _ _ ?_ hK
          show selfField ws i _ = _
          rw [sf]
          exact encodeWith_eq h hf _
      refine txt fun k L' h' => ?_
      by_cases hb : (f.attrs.bits.isSome || !f.attrs.untake) = true
      · rw [if_pos hb, if_pos hb, m_bind_assoc]
        refine emitSend_run h'.sees hv i x f v hi (h'.fattr.trans hf) (fun hve => ?_) fun m L'' h'' => ?_
        · refine hx ⟨by rw [hw]; rfl, ?_, ?_, ?_, hve⟩
          · simp only [Bool.or_eq_true, not_or, Bool.not_eq_true] at hs; exact hs.1
          · simp only [Bool.or_eq_true, not_or, Bool.not_eq_true] at hs; exact hs.2
          · simpa using hb
        · exact hK (k + m) L'' ⟨by rw [← Nat.add_assoc]; exact h''.sees, h''.fattr.trans h'.fattr⟩
      · rw [if_neg hb, if_neg hb]
        exact hK k L' h'

theorem emitEncodes_run (hv : ∀ s ∈ vs, EncClear s.toList) (ws : List V) :
    ∀ (fs : List (Name × NamedField V)) (done : List V) (us : List V) (L : Locals V) (old : Option FAttr) (n : Nat),
      EncSees U vs L ca vars n → ws = done ++ us → us.length = fs.length →
      (∀ p ∈ fs, p.2.field.Converts → EncClear p.1 ∧ ∀ s ∈ vs, s.toList ≠ p.1) →
      ∀ {β : Type} {K : Locals V → M β} {K' : Nat → M β},
        (∀ k L', usizeAt U L' nBytes = some (n + k) → K L' = K' k) →
        (encRunAll U vs ws (emitEncodes done.length fs) L >>= K) =
          (encFields false (fs.map (·.2.field)) ca old { vars := vars, fields := done } us >>= K')
  | [], done, us, L, old, n, h, hw, hl, hx, β, K, K', hK => by
    cases us with
    | nil => exact hK 0 L h.count
    | cons u us => simp at hl
  | (x, f) :: fs, done, us, L, old, n, h, hw, hl, hx, β, K, K', hK => by
    cases us with
    | nil => simp at hl
    | cons u us =>
      have hi : ws[done.length]? = some u := by rw [hw]; simp
      have ht : ws.take done.length = done := by rw [hw]; simp
      show (encRunAll U vs ws (EncStmt.modifiers done.length f.field.attrs :: (emitEncode done.length x f.field ++
        emitEncodes (done.length + 1) fs)) L >>= K) = ((f.field.attrs.toCode { vars := vars, fields := done } >>= fun fa =>
          encField f.field { vars := vars, fields := done } u ca fa >>= fun n =>
            encFields false (fs.map (·.2.field)) ca fa { vars := vars, fields := done ++ [u] } us >>= fun m =>
              Pure.pure (n + m)) >>= K')
      rw [encRunAll_cons]
      show ((f.field.attrs.toCode (selfEnv U vs ws done.length L) >>= fun fa => Pure.pure ((nFattrNew, LocalVal.fattr fa) :: L)) >>=
        _) = _
      rw [h.env, ht, m_bind_assoc, m_bind_assoc]
      refine m_bind_congr fun fa => ?_
      rw [m_pure_bind, encRunAll_append, m_bind_assoc, m_bind_assoc]
      have h1 := h.push (.fattr fa) (by decide : nFattrNew ≠ nBuffer) (by decide) (by decide) fun s hs => (hv s hs).2.2.1
      have := emitEncode_run (ws := ws) h1 hv done.length x f.field u hi (fa := fa) (by unfold fattrAt; rw [lookup_here])
        (hx (x, f) (by simp)) (K := fun L' => encRunAll U vs ws (emitEncodes (done.length + 1) fs) L' >>= K)
        (K' := fun n => encFields false (fs.map (·.2.field)) ca fa { vars := vars, fields := done ++ [u] } us >>= fun m => K' (n + m))
        fun k L' h' => by
          have el : done.length + 1 = (done ++ [u]).length := by simp
          rw [el]
          refine emitEncodes_run hv ws fs (done ++ [u]) us L' fa (n + k) h'.sees (by rw [hw]; simp) (by simpa using hl)
            (fun p hp => hx p (by simp [hp])) fun m L'' hm => hK (k + m) L'' (by rw [← Nat.add_assoc]; exact hm)
      rw [ht] at this
      rw [this]
      refine m_bind_congr fun k => ?_
      rw [m_bind_assoc]
      rfl

theorem encGetVars_run (ca : Option CAttr) (ws : List V) : ∀ (ss vs : List String) (L : Locals V),
    (∀ s ∈ ss ++ vs, EncClear s.toList ∧ s.toList ≠ nCattr) →
    cattrAt L nCattr = some ca → ∀ (c : Option CAttr), isReader L nBuffer = true → cattrAt L nCattrNew = some c →
    usizeAt U L nBytes = some 0 →
    (∀ s ∈ ss, usizeAt U L s.toList = some ((ca.bind fun c => c.vars.lookup s).getD 0)) →
    ∀ (ts : List String) {β : Type} {K : Locals V → M β} {K' : M β},
    (∀ L', isReader L' nBuffer = true → cattrAt L' nCattrNew = some c → usizeAt U L' nBytes = some 0 →
      (∀ s ∈ ss ++ vs, usizeAt U L' s.toList = some ((ca.bind fun c => c.vars.lookup s).getD 0)) → K L' = K') →
    (encRunAll U ts ws (vs.map EncStmt.getVar) L >>= K) = K'
  | ss, [], L, _, _, c, hr, hc, hn, hs, ts, β, K, K', hK => hK L hr hc hn (by rw [List.append_nil]; exact hs)
  | ss, s :: vs, L, hv, hca, c, hr, hc, hn, hs, ts, β, K, K', hK => by
    obtain ⟨⟨h1, h2, -, h4⟩, h6⟩ := hv s (by simp)
    rw [List.map_cons, encRunAll_cons]
    have e : EncStmt.run U ts ws L (.getVar s) =
        Pure.pure ((s.toList, LocalVal.num ((ca.bind fun c => c.vars.lookup s).getD 0)) :: L) := by
      unfold EncStmt.run
      rw [hca]
      rfl
    rw [e, m_pure_bind]
    have eL : ss ++ s :: vs = (ss ++ [s]) ++ vs := by simp
    refine encGetVars_run ca ws (ss ++ [s]) vs _ (by rw [← eL]; exact hv) (by rw [cattrAt_past (Ne.symm h6)]; exact hca) c
      (by rw [isReader_past (Ne.symm h1)]; exact hr) (by rw [cattrAt_past (Ne.symm h2)]; exact hc)
      (by rw [usizeAt_past U (Ne.symm h4)]; exact hn) (fun t ht => ?_) ts
      fun L' hr' hc' hn' hs' => hK L' hr' hc' hn' (by rw [eL]; exact hs')
    by_cases et : t.toList = s.toList
    · have : t = s := String.toList_inj.1 et
      rw [this]
      unfold usizeAt
      rw [lookup_here]
    · rw [usizeAt_past U et]
      rcases List.mem_append.1 ht with ht | ht
      · exact hs t ht
      · exact absurd (congrArg String.toList (List.mem_singleton.1 ht)) et

/-! ## Names -/

theorem withNames_fields (s : Shape) : ∀ (n : Nat) (fs : List (NamedField V)), (withNames s n fs).map (·.2) = fs
  | _, [] => rfl
  | n, f :: fs => by
    show f :: (withNames s (n + 1) fs).map (·.2) = f :: fs
    rw [withNames_fields s (n + 1) fs]

theorem withNames_mem (s : Shape) : ∀ (n : Nat) (fs : List (NamedField V)) (p : Name × NamedField V),
    p ∈ withNames s n fs → p.2 ∈ fs ∧ ((s = .tuple ∧ ∃ i, p.1 = Nat.toDigits 10 i) ∨ (s ≠ .tuple ∧ p.1 = p.2.name))
  | _, [], p, h => by cases h
  | n, f :: fs, p, h => by
    rcases List.mem_cons.1 h with rfl | h
    · refine ⟨by simp, ?_⟩
      by_cases hs : s = .tuple
      · exact .inl ⟨hs, n, if_pos hs⟩
      · exact .inr ⟨hs, if_neg hs⟩
    · obtain ⟨h1, h2⟩ := withNames_mem s (n + 1) fs p h
      exact ⟨by simp [h1], h2⟩

theorem mem_withNames (s : Shape) : ∀ (n : Nat) (fs : List (NamedField V)) (f : NamedField V), f ∈ fs →
    ∃ x, (x, f) ∈ withNames s n fs
  | _, [], f, h => by cases h
  | n, g :: fs, f, h => by
    rcases List.mem_cons.1 h with rfl | h
    · exact ⟨_, List.mem_cons_self ..⟩
    · obtain ⟨x, hx⟩ := mem_withNames s (n + 1) fs f h
      exact ⟨x, List.mem_cons_of_mem _ hx⟩

/-- The names of the fields are identifiers, those of converted fields are none of the helpers' and no variable's; the
variables have names of their own. -/
structure GenStruct.EncHygienic (S : GenStruct V) : Prop where
  idents : S.shape ≠ .tuple → ∀ f ∈ S.fields, isIdent f.name = true
  fields : S.shape ≠ .tuple → ∀ f ∈ S.fields, f.field.Converts → EncClear f.name ∧ ∀ s ∈ S.getVars, s.toList ≠ f.name
  vars : ∀ s ∈ S.getVars, EncClear s.toList ∧ s.toList ≠ nCattr ∧ s.toList ≠ nCr ∧ s.toList ≠ nValue

/-- Types of the locals between two statements; there is a `fattr_new` where one is needed. -/
structure EncTyped (T : LTypes) : Prop where
  buffer : typeAt T nBuffer = some .reader
  cattr : typeAt T nCattrNew = some .cattr
  count : T.lookup nBytes = some (.usize, true)

theorem EncTyped.push {T : LTypes} (h : EncTyped T) {x : Name} (t : LTy × Bool) (h1 : x ≠ nBuffer) (h2 : x ≠ nCattrNew)
    (h3 : x ≠ nBytes) : EncTyped ((x, t) :: T) where
  buffer := by rw [typeAt_past (Ne.symm h1)]; exact h.buffer
  cattr := by rw [typeAt_past (Ne.symm h2)]; exact h.cattr
  count := by rw [lookup_past (Ne.symm h3)]; exact h.count

theorem encTypesAfter_append : ∀ (a b : List (EncStmt V)) (T : LTypes),
    encTypesAfter (a ++ b) T = (encTypesAfter a T).bind (encTypesAfter b)
  | [], _, _ => rfl
  | s :: a, b, T => by
    show (s.types T).bind (encTypesAfter (a ++ b)) = ((s.types T).bind (encTypesAfter a)).bind (encTypesAfter b)
    cases s.types T with
    | none => rfl
    | some T' => exact encTypesAfter_append a b T'

theorem add_types {T : LTypes} (h : EncTyped T) (hf : typeAt T nFattrNew = some .fattr) (i : Nat) (r : EncRhs V) :
    EncStmt.types T (.add i r) = some T := by
  have : encCallTyped T = true := by
    unfold encCallTyped
    rw [h.buffer, h.cattr, hf]
    rfl
  show (if encCallTyped T = true ∧ T.lookup nBytes = some (.usize, true) then some T else none) = some T
  rw [if_pos ⟨this, h.count⟩]

theorem emitEncode_types {T : LTypes} (h : EncTyped T) (hf : typeAt T nFattrNew = some .fattr) (i : Nat) (x : Name)
    (f : Field V) (hx : f.Converts → isIdent x = true → EncClear x) :
    (∃ T', encTypesAfter (emitEncode i x f) T = some T' ∧ EncTyped T' ∧ (f.Converts → isIdent x = true)) ∨
      (encTypesAfter (emitEncode i x f) T = none ∧ f.Converts ∧ isIdent x = false) := by
  have one : ∀ (ss : List (EncStmt V)) (r : EncRhs V), encTypesAfter (EncStmt.add i r :: ss) T = encTypesAfter ss T := by
    intro ss r
    show (EncStmt.types T (.add i r)).bind _ = _
    rw [add_types h hf]
    rfl
  unfold emitEncode
  cases hw : f.attrs.withEncode with
  | some g =>
    refine .inl ⟨T, one [] _, h, fun hc => ?_⟩
    have := hc.1
    rw [hw] at this
    cases this
  | none =>
    show (∃ T', encTypesAfter (if (f.attrs.skip || f.attrs.skipEncode) = true then _ else _) T = some T' ∧ _) ∨
      (encTypesAfter (if (f.attrs.skip || f.attrs.skipEncode) = true then _ else _) T = none ∧ _)
    by_cases hs : (f.attrs.skip || f.attrs.skipEncode) = true
    · rw [if_pos hs]
      refine .inl ⟨T, rfl, h, fun hc => ?_⟩
      rw [hc.2.1, hc.2.2.1] at hs
      cases hs
    · rw [if_neg hs]
      have et : ∀ ss : List (EncStmt V), encTypesAfter (emitText i f.attrs ++ ss) T = encTypesAfter ss T := by
        intro ss
        unfold emitText
        cases f.attrs.fromStr with
        | none => rfl
        | some ps => exact one ss _
      rw [et]
      by_cases hb : (f.attrs.bits.isSome || !f.attrs.untake) = true
      · rw [if_pos hb]
        have ef : ∀ ss : List (EncStmt V), encTypesAfter (emitFill i f.attrs ++ ss) T = encTypesAfter ss T := by
          intro ss
          unfold emitFill
          cases f.attrs.offset with
          | none => rfl
          | some e =>
            show ((if typeAt T nBuffer = some .reader then some T else none : Option LTypes).bind _) = _
            rw [if_pos h.buffer]
            rfl
        unfold emitSend
        rw [ef]
        cases hve : f.attrs.valueEncode with
        | none =>
          refine .inl ⟨T, one [] _, h, fun hc => ?_⟩
          have := hc.2.2.2.2
          rw [hve] at this
          cases this
        | some g =>
          simp only [Bool.or_eq_true, not_or, Bool.not_eq_true] at hs
          have hconv : f.Converts := ⟨by rw [hw]; rfl, hs.1, hs.2, by simpa using hb, by rw [hve]; rfl⟩
          by_cases hid : isIdent x = true
          · have hc := hx hconv hid
            refine .inl ⟨(x, .field [], false) :: (x, .field [], false) :: T, ?_, ?_, fun _ => hid⟩
            · show ((if isIdent x = true then some ((x, LTy.field [], false) :: T) else none : Option LTypes).bind
                (encTypesAfter [EncStmt.letValue i x g, EncStmt.add i (.hidden x f.enc)])) = _
              rw [if_pos hid]
              show ((if isIdent x = true then some ((x, LTy.field [], false) :: (x, .field [], false) :: T) else none
                : Option LTypes).bind (encTypesAfter [EncStmt.add i (.hidden x f.enc)])) = _
              rw [if_pos hid]
              show (EncStmt.types _ (EncStmt.add i (.hidden x f.enc))).bind (encTypesAfter []) = _
              rw [add_types ((h.push _ hc.1 hc.2.1 hc.2.2.2).push _ hc.1 hc.2.1 hc.2.2.2) (by
                rw [typeAt_past (Ne.symm hc.2.2.1), typeAt_past (Ne.symm hc.2.2.1)]; exact hf)]
              rfl
            · exact (h.push _ hc.1 hc.2.1 hc.2.2.2).push _ hc.1 hc.2.1 hc.2.2.2
          · refine .inr ⟨?_, hconv, by simpa using hid⟩
            show ((if isIdent x = true then some ((x, LTy.field [], false) :: T) else none : Option LTypes).bind _) = _
            rw [if_neg hid]
            rfl
      · rw [if_neg hb]
        refine .inl ⟨T, rfl, h, fun hc => ?_⟩
        rcases hc.2.2.2.1 with h' | h'
        · rw [h'] at hb; exact absurd rfl hb
        · rw [h'] at hb; simp at hb

theorem emitEncodes_types : ∀ (fs : List (Name × NamedField V)) (i : Nat) (T : LTypes), EncTyped T →
    (∀ p ∈ fs, p.2.field.Converts → isIdent p.1 = true → EncClear p.1) →
    (∃ T', encTypesAfter (emitEncodes i fs) T = some T' ∧ EncTyped T' ∧ ∀ p ∈ fs, p.2.field.Converts → isIdent p.1 = true) ∨
      (encTypesAfter (emitEncodes i fs) T = none ∧ ∃ p ∈ fs, p.2.field.Converts ∧ isIdent p.1 = false)
  | [], _, T, h, _ => .inl ⟨T, rfl, h, fun p hp => by cases hp⟩
  | (x, f) :: fs, i, T, h, hx => by
    have e : encTypesAfter (emitEncodes i ((x, f) :: fs)) T =
        (encTypesAfter (emitEncode i x f.field) ((nFattrNew, .fattr, false) :: T)).bind (encTypesAfter (emitEncodes (i + 1) fs)) := by
      rw [← encTypesAfter_append]
      rfl
    have h1 : EncTyped ((nFattrNew, .fattr, false) :: T) := h.push _ (by decide) (by decide) (by decide)
    rcases emitEncode_types (V := V) h1 (typeAt_here ..) i x f.field (hx (x, f) (by simp)) with ⟨T', e1, h', hid⟩ | ⟨e1, hc, hid⟩
    · rw [e, e1]
      show (∃ T'', encTypesAfter (emitEncodes (i + 1) fs) T' = some T'' ∧ _) ∨ (encTypesAfter (emitEncodes (i + 1) fs) T' = none ∧ _)
      rcases emitEncodes_types fs (i + 1) T' h' (fun p hp => hx p (by simp [hp])) with ⟨T'', e2, h'', hall⟩ | ⟨e2, p, hp, hp'⟩
      · refine .inl ⟨T'', e2, h'', fun p hp => ?_⟩
        rcases List.mem_cons.1 hp with rfl | hp
        · exact hid
        · exact hall p hp
      · exact .inr ⟨e2, p, by simp [hp], hp'⟩
    · rw [e, e1]
      exact .inr ⟨rfl, (x, f), by simp, hc, hid⟩

theorem encGetVars_types : ∀ (vs : List String) (T : LTypes),
    (∀ s ∈ vs, EncClear s.toList ∧ s.toList ≠ nCattr ∧ s.toList ≠ nCr ∧ s.toList ≠ nValue) →
    typeAt T nCattr = some .cattr → EncTyped T →
    ∃ T', encTypesAfter (vs.map (EncStmt.getVar (V := V))) T = some T' ∧ EncTyped T'
  | [], T, _, _, h => ⟨T, rfl, h⟩
  | s :: vs, T, hv, hc, h => by
    obtain ⟨⟨h1, h2, -, h4⟩, h6, h7⟩ := hv s (by simp)
    obtain ⟨T', e, h'⟩ := encGetVars_types vs ((s.toList, .usize, true) :: T) (fun s hs => hv s (by simp [hs]))
      (by rw [typeAt_past (Ne.symm h6)]; exact hc) (h.push _ h1 h2 h4)
    refine ⟨T', ?_, h'⟩
    show ((if typeAt ((s.toList, .usize, true) :: T) nCattr = some .cattr ∧ s.toList ≠ nCr ∧ s.toList ≠ nValue then
      some ((s.toList, .usize, true) :: T) else none : Option LTypes).bind _) = _
    rw [if_pos ⟨by rw [typeAt_past (Ne.symm h6)]; exact hc, h7⟩]
    exact e

theorem toDigits_not_ident (i : Nat) : isIdent (Nat.toDigits 10 i) = false := by
  have hd : ∀ c ∈ Nat.toDigits 10 i, c.isDigit = true := fun c hc => Nat.isDigit_of_mem_toDigits (by decide) (by decide) hc
  unfold isIdent
  cases h : Nat.toDigits 10 i with
  | nil => rfl
  | cons c cs =>
    have := hd c (by rw [h]; simp)
    simp [this]

/-- **C84** (encoders of structs): exactly when rustc accepts the generated encoder, for hygienic names: no field of a
tuple struct is converted by `value_encode`. -/
theorem C84_encode_iff (S : GenStruct V) (h : S.EncHygienic) : S.encodeAccepted = true ↔
    (S.shape = .tuple → ∀ f ∈ S.fields, ¬ f.field.Converts) := by
  have h0 : EncTyped ((nCattrNew, .cattr, S.container.isNone) :: (nBytes, .usize, true) :: encodeParamTypes) :=
    ⟨by rw [typeAt_past (by decide), typeAt_past (by decide)]; rfl, typeAt_here .., by rw [lookup_past (by decide), lookup_here]⟩
  obtain ⟨T1, e1, h1⟩ := encGetVars_types (V := V) S.getVars _ h.vars (by
    rw [typeAt_past (by decide), typeAt_past (by decide)]; rfl) h0
  have e : encTypesAfter S.encodeBody encodeParamTypes = encTypesAfter (emitEncodes 0 (withNames S.shape 0 S.fields)) T1 := by
    have : encTypesAfter S.encodeBody encodeParamTypes = encTypesAfter (S.getVars.map EncStmt.getVar ++
        emitEncodes 0 (withNames S.shape 0 S.fields)) ((nCattrNew, .cattr, S.container.isNone) :: (nBytes, .usize, true) ::
          encodeParamTypes) := rfl
    rw [this, encTypesAfter_append, e1]
    rfl
  unfold GenStruct.encodeAccepted
  rw [e]
  have hx : ∀ p ∈ withNames S.shape 0 S.fields, p.2.field.Converts → isIdent p.1 = true → EncClear p.1 := by
    intro p hp hc hid
    obtain ⟨hf, ⟨hs, i, ei⟩ | ⟨hs, en⟩⟩ := withNames_mem _ _ _ p hp
    · rw [ei, toDigits_not_ident] at hid; cases hid
    · rw [en]; exact (h.fields hs p.2 hf hc).1
  rcases emitEncodes_types (withNames S.shape 0 S.fields) 0 T1 h1 hx with ⟨T2, e2, h2, hall⟩ | ⟨e2, p, hp, hc, hid⟩
  · rw [e2]
    have : (typeAt T2 nBytes == some .usize) = true := by
      unfold typeAt; rw [h2.count]; rfl
    refine ⟨fun _ hs f hf hc => ?_, fun _ => this⟩
    obtain ⟨x, hx'⟩ := mem_withNames S.shape 0 S.fields f hf
    have hid := hall (x, f) hx' hc
    obtain ⟨-, ⟨-, i, ei⟩ | ⟨hs', -⟩⟩ := withNames_mem _ _ _ (x, f) hx'
    · rw [show x = Nat.toDigits 10 i from ei, toDigits_not_ident] at hid; cases hid
    · exact hs' hs
  · rw [e2]
    refine ⟨fun h' => (by cases h'), fun h' => ?_⟩
    obtain ⟨hf, ⟨hs, -⟩ | ⟨hs, en⟩⟩ := withNames_mem _ _ _ p hp
    · exact absurd hc (h' hs p.2 hf)
    · rw [en, h.idents hs p.2 hf] at hid; cases hid

/-- **C83** (encoders of structs): with hygienic names an accepted encoder does to a value of the struct what `encStruct`
says, whatever the names are. -/
theorem C83_encode_partial (U : UsizeIn V) (S : GenStruct V) (h : S.EncHygienic) (ha : S.encodeAccepted = true)
    (ws : List V) (hl : ws.length = S.fields.length) (ca : Option CAttr) (fa : Option FAttr) :
    S.runEncode U ws ca fa = encStruct S.toDef ws ca fa := by
  have ht := (C84_encode_iff S h).1 ha
  have e0 : S.runEncode U ws ca fa = (encRunAll U S.getVars ws (S.getVars.map EncStmt.getVar ++
      emitEncodes 0 (withNames S.shape 0 S.fields))
      ((nCattrNew, LocalVal.cattr S.container) :: (nBytes, LocalVal.num 0) :: encodeParams ca fa) >>= fun L =>
        match usizeAt U L nBytes with
        | some n => Pure.pure n
        | none => panic) := rfl
  rw [e0, encRunAll_append, m_bind_assoc]
  refine encGetVars_run ca ws [] S.getVars _ (fun s hs => ⟨(h.vars s hs).1, (h.vars s hs).2.1⟩) rfl S.container rfl rfl rfl
    (fun s hs => by cases hs) _ fun L hr hc hn hv => ?_
  have hs : EncSees U S.getVars L S.container (localVars S.getVars ca) 0 := by
    refine ⟨hr, hc, hn, ?_⟩
    unfold localVars
    refine List.map_congr_left fun s hs => ?_
    rw [hv s (by simpa using hs)]
    rfl
  have ef : S.fields.map (·.field) = (withNames S.shape 0 S.fields).map (·.2.field) := by
    conv => lhs; rw [← withNames_fields S.shape 0 S.fields, List.map_map]
    rfl
  show _ = encFields false (S.fields.map (·.field)) S.container none { vars := localVars S.getVars ca } ws
  rw [← m_bind_pure (encFields false (S.fields.map (·.field)) S.container none { vars := localVars S.getVars ca } ws), ef]
  refine emitEncodes_run (fun s hs => (h.vars s hs).1) ws (withNames S.shape 0 S.fields) [] ws L none 0 hs rfl ?_ ?_ fun k L' hk => ?_
  · rw [hl, ← List.length_map (as := withNames S.shape 0 S.fields) (·.2), withNames_fields]
  · intro p hp hc'
    obtain ⟨hf, ⟨hsh, -⟩ | ⟨hsh, en⟩⟩ := withNames_mem _ _ _ p hp
    · exact absurd hc' (ht hsh p.2 hf)
    · rw [en]; exact h.fields hsh p.2 hf hc'
  · simp only [hk, Nat.zero_add]

/-- **C83** (encoders of structs): renaming fields and variables with hygienic names changes nothing. -/
theorem C83_encode_rename_partial (U : UsizeIn V) (S S' : GenStruct V) (h : SameButNames S S') (hs : S.EncHygienic)
    (hs' : S'.EncHygienic) : S'.encodeAccepted = S.encodeAccepted ∧
      (S.encodeAccepted = true → ∀ ws, ws.length = S.fields.length → ∀ ca fa,
        S'.runEncode U ws ca fa = S.runEncode U ws ca fa) := by
  have acc : ∀ {A B : GenStruct V}, SameButNames A B → A.EncHygienic → B.EncHygienic → A.encodeAccepted = true →
      B.encodeAccepted = true := by
    intro A B hAB hA hB ha
    refine (C84_encode_iff B hB).2 fun ht f hf => ?_
    obtain ⟨i, hi⟩ := List.mem_iff_getElem?.1 hf
    obtain ⟨g, hg, -, e2, -⟩ := hAB.fields i f hi
    have := (C84_encode_iff A hA).1 ha (by rw [← hAB.2.2.1]; exact ht) g (List.mem_of_getElem? hg)
    rw [e2] at this
    exact this
  have ef : S'.fields.map (·.field) = S.fields.map (·.field) := by
    have := congrArg (List.map fun t : List TyTok × Field V × Bool => t.2.1) h.2.2.2
    rw [List.map_map, List.map_map] at this
    exact this
  refine ⟨?_, fun ha ws hl ca fa => ?_⟩
  · cases e : S.encodeAccepted with
    | true => exact acc h hs hs' e
    | false =>
      cases e' : S'.encodeAccepted with
      | true => rw [acc h.symm hs' hs e'] at e; cases e
      | false => rfl
  · have hl' : ws.length = S'.fields.length := by
      rw [hl, ← List.length_map (as := S.fields) (·.field), ← ef, List.length_map]
    rw [C83_encode_partial U S hs ha ws hl, C83_encode_partial U S' hs' (acc h hs hs' ha) ws hl']
    unfold GenStruct.toDef
    rw [h.1, h.2.1, h.2.2.1, ef]

/-! ## Where it fails, and cases of the theorems -/

/-- A codec of one byte. -/
def byteEnc : Enc Nat := fun v _ _ => pushU8 (UInt8.ofNat v)

/-- `struct S { #[jbytes(value_encode = "<x> + 1")] <x>: u8 }`, or with `x` for `0` a tuple struct. -/
def plusOne (s : Shape) (x : Name) : GenStruct Nat :=
  { shape := s
    fields := [{ name := x, ty := [.ident ['u', '8']]
                 field := { attrs := { isUse := true, valueEncode := some fun _ v => v + 1 }, dec := byteCodec, enc := byteEnc,
                            dflt := 0, noneV := 0 } }] }

/-- `#[jbytes(get_variable_name = "<s>")] struct S { a: u8 }` -/
def askingFor (s : String) : GenStruct Nat :=
  { shape := .named, getVars := [s]
    fields := [{ name := ['a'], ty := [.ident ['u', '8']]
                 field := { attrs := {}, dec := byteCodec, enc := byteEnc, dflt := 0, noneV := 0 } }] }

unseal usizeMod isizeMax in
/-- **C83** is violated by encoders, too: a variable called `r_nbytes` is added to the number of bytes that is returned, and
a converted field must not be called `buffer` or `r_nbytes`. -/
theorem C83_encode_violated :
    (askingFor "count").encodeAccepted = true ∧ (askingFor "r_nbytes").encodeAccepted = true ∧
    ((askingFor "count").runEncode ⟨id, id⟩ [7] (some { vars := [("count", 5)] }) none ⟨[], 0⟩) = (.ok 1, ⟨[7], 1⟩) ∧
    ((askingFor "r_nbytes").runEncode ⟨id, id⟩ [7] (some { vars := [("r_nbytes", 5)] }) none ⟨[], 0⟩) = (.ok 6, ⟨[7], 1⟩) ∧
    (plusOne .named ['x']).encodeAccepted = true ∧ (plusOne .named ['b', 'u', 'f', 'f', 'e', 'r']).encodeAccepted = false ∧
    (plusOne .named ['r', '_', 'n', 'b', 'y', 't', 'e', 's']).encodeAccepted = false := by
  refine ⟨rfl, rfl, rfl, rfl, rfl, rfl, rfl⟩

/-- **C84** is violated by encoders: `value_encode` in a tuple struct gives `let 0 = &self.0;`. -/
theorem C84_encode_violated : (plusOne .tuple []).encodeAccepted = false := rfl

theorem plusOne_hygienic {x : Name} (h : EncClear x) (hi : isIdent x = true) : (plusOne .named x).EncHygienic := by
  refine ⟨fun _ f hf => ?_, fun _ f hf _ => ?_, fun s hs => (by cases hs)⟩
  · simp only [plusOne, List.mem_cons, List.not_mem_nil, or_false] at hf
    subst hf; exact hi
  · simp only [plusOne, List.mem_cons, List.not_mem_nil, or_false] at hf
    subst hf; exact ⟨h, fun s hs => by cases hs⟩

/-- Cases of `C84_encode_iff`, `C83_encode_partial` and `C83_encode_rename_partial`. -/
example : (plusOne .named ['x']).EncHygienic ∧ (plusOne .named ['y']).EncHygienic ∧
    (plusOne .named ['x']).encodeAccepted = true ∧ SameButNames (plusOne .named ['x']) (plusOne .named ['y']) ∧
    [7].length = (plusOne .named ['x']).fields.length :=
  ⟨plusOne_hygienic (by simp only [EncClear]; decide) (by decide), plusOne_hygienic (by simp only [EncClear]; decide) (by decide),
    rfl, ⟨rfl, rfl, rfl, rfl⟩, rfl⟩

end JBytes
