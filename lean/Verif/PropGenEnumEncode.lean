import Verif.PropGenEnum
/-!
# Generated encoders of enums do what the model of derive says (C83), and when they are accepted (C84)
-/

namespace JBytes
open M

variable {V : Type} {U : UsizeIn V}

/-- A name that nothing in a generated encoder of an enum has. -/
def ArmClear (x : Name) : Prop := EncClear x ∧ x ≠ nCattr ∧ x ≠ nFattr ∧ x ≠ nByteCount

/-- A field means the same, and is written the same, whatever the fields at the positions `cs` before it are. -/
def Ignores (cs : Nat → Prop) (f : Field V) : Prop :=
  ∀ env env' : Env V, env.vars = env'.vars → env.fields.length = env'.fields.length →
    (∀ i : Nat, ¬ cs i → env.fields[i]? = env'.fields[i]?) →
    f.attrs.toCode env = f.attrs.toCode env' ∧ encField f env = encField f env'

theorem armRunAll_append (vs : List String) : ∀ (a b : List (ArmStmt V)) (L : Locals V),
    armRunAll U vs (a ++ b) L = (armRunAll U vs a L >>= fun L' => armRunAll U vs b L')
  | [], _, _ => rfl
  | s :: a, b, L => by
    show (s.run U vs L >>= fun L' => armRunAll U vs (a ++ b) L') =
      ((s.run U vs L >>= fun L' => armRunAll U vs a L') >>= fun L' => armRunAll U vs b L')
    rw [m_bind_assoc]
    exact m_bind_congr fun L' => armRunAll_append vs a b L'

theorem armRunAll_cons (vs : List String) (s : ArmStmt V) (ss : List (ArmStmt V)) (L : Locals V)
    {β : Type} (K : Locals V → M β) :
    (armRunAll U vs (s :: ss) L >>= K) = (ArmStmt.run U vs L s >>= fun L' => armRunAll U vs ss L' >>= K) := by
  show ((ArmStmt.run U vs L s >>= fun L' => armRunAll U vs ss L') >>= K) = _
  rw [m_bind_assoc]

variable {vs : List String} {ns : List Name} {x : Name} {L : Locals V} {ca : Option CAttr} {fa : Option FAttr}
  {env : Env V} {n : Nat}

/-- What the locals hold between two statements of an arm. -/
structure ArmSees (U : UsizeIn V) (vs : List String) (ns : List Name) (L : Locals V) (ca : Option CAttr) (env : Env V)
    (n : Nat) : Prop where
  sees : EncSees U vs L ca env.vars n
  fields : ns.mapM (valueAt U L) = some env.fields

theorem ArmSees.envAt (h : ArmSees U vs ns L ca env n) : envAt U vs ns L = env := by
  unfold JBytes.envAt
  rw [h.sees.vars, filterMap_of_mapM U h.fields]

theorem ArmSees.push (h : ArmSees U vs ns L ca env n) (v : LocalVal V) (hx : x ≠ nBuffer) (hc : x ≠ nCattrNew)
    (hb : x ≠ nBytes) (hv : ∀ s ∈ vs, s.toList ≠ x) (hn : x ∉ ns) : ArmSees U vs ns ((x, v) :: L) ca env n where
  sees := h.sees.push v hx hc hb hv
  fields := by
    rw [← h.fields]
    exact mapM_valueAt_congr U fun y hy => valueAt_past U (fun e => hn (by rw [← e]; exact hy)) _ _

theorem ArmSees.pushCount (h : ArmSees U vs ns L ca env n) (m : Nat) (hv : ∀ s ∈ vs, s.toList ≠ nBytes) (hn : nBytes ∉ ns) :
    ArmSees U vs ns ((nBytes, .num m) :: L) ca env m where
  sees := h.sees.pushCount m hv
  fields := by
    rw [← h.fields]
    exact mapM_valueAt_congr U fun y hy => valueAt_past U (fun e => hn (by rw [← e]; exact hy)) _ _

/-- After some statements of the field `x`: only its local and the count are other ones. -/
structure ArmAfter (U : UsizeIn V) (vs : List String) (ns : List Name) (x : Name) (L L' : Locals V) (ca : Option CAttr)
    (env : Env V) (n : Nat) : Prop where
  sees : ArmSees U vs ns L' ca env n
  frame : ∀ y, y ≠ x → y ≠ nBytes → L'.lookup y = L.lookup y

theorem addBytes_run (h : ArmSees U vs ns L ca env n) (hv : ∀ s ∈ vs, EncClear s.toList) (hn : ∀ y ∈ ns, EncClear y) (x : Name)
    (hx : EncClear x) (m : M Nat) {β : Type} {K : Locals V → M β} {K' : Nat → M β}
    (hK : ∀ k L', ArmAfter U vs ns x L L' ca env (n + k) → valueAt U L' x = valueAt U L x → K L' = K' k) :
    (addBytes U L m >>= K) = (m >>= K') := by
  unfold addBytes
  rw [m_bind_assoc]
  refine m_bind_congr fun k => ?_
  rw [h.sees.count]
  show K ((nBytes, LocalVal.num (n + k)) :: L) = K' k
  exact hK k _ ⟨h.pushCount _ (fun s hs => (hv s hs).2.2.2) fun hm => (hn _ hm).2.2.2 rfl, fun y _ hy => lookup_past hy _ _⟩
    (valueAt_past U hx.2.2.2 _ _)

theorem armFill_run (h : ArmSees U vs ns L ca env n) (a : FieldAttrs V) {β : Type} (K : Locals V → M β) :
    (armRunAll U vs (armFill ns a) L >>= K) = (padOffset a env >>= fun _ => K L) := by
  unfold armFill padOffset
  cases a.offset with
  | none => rfl
  | some e =>
    show (armRunAll U vs [ArmStmt.fill ns e a.full] L >>= K) = _
    rw [armRunAll_cons]
    show ((if isReader L nBuffer = true then (padLoop a.full (e (JBytes.envAt U vs ns L)) >>= fun _ => Pure.pure L) else panic) >>= _) = _
    rw [if_pos h.sees.buffer, h.envAt, m_bind_assoc]
    rfl

theorem armCall {v : V} (h : ArmSees U vs ns L ca env n) (hx : valueAt U L x = some v) (hf : fattrAt L nFattrNew = some fa)
    (e : V → Option CAttr → Option FAttr → M Nat) : (fieldAt U L x fun v => encodeWith L (e v)) = e v ca fa := by
  unfold fieldAt
  rw [hx]
  exact encodeWith_eq h.sees hf _

theorem armSend_run (h : ArmSees U vs ns L ca env n) (hv : ∀ s ∈ vs, EncClear s.toList) (hn : ∀ y ∈ ns, EncClear y)
    (hc : EncClear x) (hnx : x ∉ ns) (ha : ∀ s ∈ vs, s.toList ≠ x) (f : Field V) {v : V}
    (hx : valueAt U L x = some v) (hf : fattrAt L nFattrNew = some fa)
    {β : Type} {K : Locals V → M β} {K' : Nat → M β}
    (hK : ∀ k L' v', ArmAfter U vs ns x L L' ca env (n + k) → valueAt U L' x = some v' →
      (f.attrs.valueEncode.isSome = false → v' = v) → K L' = K' k) :
    (armRunAll U vs (armSend ns x f) L >>= K) = (encPlain f env v ca fa >>= K') := by
  unfold armSend encPlain
  rw [armRunAll_append, m_bind_assoc, armFill_run h, m_bind_assoc]
  refine m_bind_congr fun _ => ?_
  cases hve : f.attrs.valueEncode with
  | none =>
    show (armRunAll U vs [ArmStmt.field x f.enc] L >>= K) = _
    rw [armRunAll_cons]
    show (addBytes U L (fieldAt U L x fun v => encodeWith L (f.enc v)) >>= _) = _
    rw [armCall h hx hf]
    exact addBytes_run h hv hn x hc _ fun k L' h' hx' => hK k L' v h' (hx'.trans hx) fun _ => rfl
  | some g =>
    show (armRunAll U vs [ArmStmt.convert ns x g, .field x f.enc] L >>= K) = _
    rw [armRunAll_cons]
    have e1 : ArmStmt.run U vs L (.convert ns x g) = Pure.pure ((x, LocalVal.value (g env v)) :: L) := by
      unfold ArmStmt.run
      simp only [hx, h.envAt]
    rw [e1, m_pure_bind, armRunAll_cons]
    have h1 := h.push (.value (g env v)) hc.1 hc.2.1 hc.2.2.2 ha hnx
    have hx1 : valueAt U ((x, LocalVal.value (g env v)) :: L) x = some (g env v) := by unfold valueAt; rw [lookup_here]
    show (addBytes U ((x, LocalVal.value (g env v)) :: L) (fieldAt U _ x fun v => encodeWith _ (f.enc v)) >>= _) = _
    rw [armCall h1 hx1 (by rw [fattrAt_past (Ne.symm hc.2.2.1)]; exact hf)]
    refine addBytes_run h1 hv hn x hc _ fun k L' h' hx' => hK k L' (g env v) ⟨h'.sees, fun y hy hy' => ?_⟩ (hx'.trans hx1) fun e => ?_
    · rw [h'.frame y hy hy', lookup_past hy]
    · rw [hve] at e; cases e

theorem armEncode_run (h : ArmSees U vs ns L ca env n) (hv : ∀ s ∈ vs, EncClear s.toList) (hn : ∀ y ∈ ns, EncClear y)
    (hc : EncClear x) (hnx : x ∉ ns) (ha : ∀ s ∈ vs, s.toList ≠ x) (f : Field V) {v : V}
    (hx : valueAt U L x = some v) (hf : fattrAt L nFattrNew = some fa)
    {β : Type} {K : Locals V → M β} {K' : Nat → M β}
    (hK : ∀ k L' v', ArmAfter U vs ns x L L' ca env (n + k) → valueAt U L' x = some v' →
      (¬ f.Converts → v' = v) → K L' = K' k) :
    (armRunAll U vs (armEncode ns x f) L >>= K) = (encField f env v ca fa >>= K') := by
  unfold armEncode encField
  cases hw : f.attrs.withEncode with
  | some g =>
    show (armRunAll U vs [ArmStmt.call ns x g] L >>= K) = _
    rw [armRunAll_cons]
    show (addBytes U L (fieldAt U L x fun v => encodeWith L (g (JBytes.envAt U vs ns L) v)) >>= _) = _
    rw [armCall h hx hf, h.envAt]
    exact addBytes_run h hv hn x hc _ fun k L' h' hx' => hK k L' v h' (hx'.trans hx) fun _ => rfl
  | none =>
    show (armRunAll U vs (if (f.attrs.skip || f.attrs.skipEncode) = true then _ else _) L >>= K) =
      ((if (f.attrs.skip || f.attrs.skipEncode) = true then _ else _ : M Nat) >>= K')
    by_cases hs : (f.attrs.skip || f.attrs.skipEncode) = true
    · rw [if_pos hs, if_pos hs]
      exact hK 0 L v ⟨h, fun _ _ _ => rfl⟩ hx fun _ => rfl
    · rw [if_neg hs, if_neg hs, armRunAll_append, m_bind_assoc, m_bind_assoc]
      have txt : ∀ {γ : Type} {K : Locals V → M γ} {K' : Nat → M γ}, (∀ k L', ArmAfter U vs ns x L L' ca env (n + k) →
          valueAt U L' x = some v → K L' = K' k) →
          (armRunAll U vs (armText x f.attrs) L >>= K) = (encText f.attrs v ca fa >>= K') := by
        intro γ K K' hK
        unfold armText encText
        cases f.attrs.fromStr with
        | none => exact hK 0 L ⟨h, fun _ _ _ => rfl⟩ hx
        | some ps =>
          show (armRunAll U vs [ArmStmt.text x ps.2] L >>= K) = _
          rw [armRunAll_cons]
          show (addBytes U L (fieldAt U L x fun v => encodeWith L (encBytes (ps.2 v))) >>= _) = _
          rw [armCall h hx hf fun v => encBytes (ps.2 v)]
          exact addBytes_run h hv hn x hc _ fun k L' h' hx' => hK k L' h' (hx'.trans hx)
      refine txt fun k L' h' hx' => ?_
      by_cases hb : (f.attrs.bits.isSome || !f.attrs.untake) = true
      · rw [if_pos hb, if_pos hb, m_bind_assoc]
        refine armSend_run h'.sees hv hn hc hnx ha f hx' (by
          unfold fattrAt; rw [h'.frame _ (Ne.symm hc.2.2.1) (by decide)]; exact hf) fun m L'' v' h'' hx'' hne => ?_
        refine hK (k + m) L'' v' ⟨by rw [← Nat.add_assoc]; exact h''.sees, fun y hy hy' => ?_⟩ hx'' fun hnc => hne ?_
        · rw [h''.frame y hy hy', h'.frame y hy hy']
        · cases hve : f.attrs.valueEncode.isSome with
          | false => rfl
          | true =>
            simp only [Bool.or_eq_true, not_or, Bool.not_eq_true] at hs
            exact absurd ⟨by rw [hw]; rfl, hs.1, hs.2, by simpa using hb, hve⟩ hnc
      · rw [if_neg hb, if_neg hb]
        exact hK k L' v h' hx' fun _ => rfl

theorem mapM_length {α β : Type} {g : α → Option β} : ∀ {as : List α} {bs : List β}, as.mapM g = some bs → bs.length = as.length
  | [], bs, h => by cases h; rfl
  | a :: as, bs, h => by
    rw [List.mapM_cons] at h
    cases h1 : g a with
    | none => rw [h1] at h; cases h
    | some b =>
      rw [h1] at h
      cases h2 : as.mapM g with
      | none => rw [h2] at h; cases h
      | some bs' =>
        rw [h2] at h
        cases h
        rw [List.length_cons, List.length_cons, mapM_length h2]

theorem armEncodes_run (cs : Nat → Prop) (hv : ∀ s ∈ vs, EncClear s.toList) (vars : List (String × Nat)) :
    ∀ (fs : List (Name × NamedField V)) (ns : List Name) (dv dv' us : List V) (L : Locals V) (old : Option FAttr) (n : Nat),
      ArmSees U vs ns L ca { vars := vars, fields := dv' } n → (fs.map (·.1)).mapM (valueAt U L) = some us →
      fattrAt L nFattrNew = some old → dv.length = dv'.length → (∀ i : Nat, ¬ cs i → dv[i]? = dv'[i]?) →
      (∀ (j : Nat) p, fs[j]? = some p → p.2.field.Converts → cs (dv.length + j)) →
      (∀ p ∈ fs, Ignores cs p.2.field) → (∀ y ∈ ns, EncClear y) → (∀ p ∈ fs, EncClear p.1) → (ns ++ fs.map (·.1)).Nodup →
      (∀ s ∈ vs, ∀ p ∈ fs, s.toList ≠ p.1) →
      ∀ {β : Type} {K : Locals V → M β} {K' : Nat → M β},
        (∀ k L', usizeAt U L' nBytes = some (n + k) → K L' = K' k) →
        (armRunAll U vs (armEncodes ns fs) L >>= K) =
          (encFields true (fs.map (·.2.field)) ca old { vars := vars, fields := dv } us >>= K')
  | [], ns, dv, dv', us, L, old, n, h, hu, hf, hl, hag, hcs, hig, hn, hc, hnd, hd, β, K, K', hK => by
    cases hu
    exact hK 0 L h.sees.count
  | (x, f) :: fs, ns, dv, dv', us, L, old, n, h, hu, hf, hl, hag, hcs, hig, hn, hc, hnd, hd, β, K, K', hK => by
    have hnx : x ∉ ns := fun hm => (List.nodup_append.1 hnd).2.2 x hm x (by simp) rfl
    have hcx : EncClear x := hc (x, f) (by simp)
    have hvx : ∀ s ∈ vs, s.toList ≠ x := fun s hs => hd s hs (x, f) (by simp)
    have hfx : ∀ p ∈ fs, p.1 ≠ x := by
      intro p hp e
      have := (List.nodup_append.1 hnd).2.1
      rw [List.map_cons, List.nodup_cons] at this
      exact this.1 (List.mem_map.2 ⟨p, hp, e⟩)
    obtain ⟨heq1, heq2⟩ := hig (x, f) (by simp) { vars := vars, fields := dv } { vars := vars, fields := dv' } rfl hl hag
    rw [List.map_cons, List.mapM_cons] at hu
    cases hxv : valueAt U L x with
    | none =>
      have : valueAt U L (x, f).1 = none := hxv
      rw [this] at hu; cases hu
    | some u =>
    have hxv' : valueAt U L (x, f).1 = some u := hxv
    rw [hxv'] at hu
    cases hrest : (fs.map (·.1)).mapM (valueAt U L) with
    | none => rw [hrest] at hu; cases hu
    | some us' =>
    rw [hrest] at hu
    cases hu
    -- after the modifiers
    have rest : ∀ L0 fa, ArmSees U vs ns L0 ca { vars := vars, fields := dv' } n → (∀ y, y ≠ nFattrNew → L0.lookup y = L.lookup y) →
        fattrAt L0 nFattrNew = some fa →
        (armRunAll U vs (armEncode ns x f.field ++ armEncodes (ns ++ [x]) fs) L0 >>= K) =
          (encField f.field { vars := vars, fields := dv } u ca fa >>= fun k =>
            encFields true (fs.map (·.2.field)) ca fa { vars := vars, fields := dv ++ [u] } us' >>= fun m => K' (k + m)) := by
      intro L0 fa h0 hl0 hf0
      rw [armRunAll_append, m_bind_assoc, heq2]
      have hx0 : valueAt U L0 x = some u := by
        unfold valueAt at hxv ⊢; rw [hl0 x hcx.2.2.1]; exact hxv
      refine armEncode_run h0 hv hn hcx hnx hvx f.field hx0 hf0 fun k L1 v' h1 hx1 hne => ?_
      have hdl : dv.length + 1 = (dv ++ [u]).length := by simp
      have hfr : ∀ p ∈ fs, valueAt U L1 p.1 = valueAt U L p.1 := by
        intro p hp
        have hcp := hc p (by simp [hp])
        unfold valueAt
        rw [h1.frame p.1 (hfx p hp) hcp.2.2.2, hl0 p.1 hcp.2.2.1]
      refine armEncodes_run cs hv vars fs (ns ++ [x]) (dv ++ [u]) (dv' ++ [v']) us' L1 fa (n + k) ⟨h1.sees.sees, ?_⟩ ?_ ?_ ?_ ?_ ?_ ?_ ?_ ?_ ?_ ?_
        fun m L2 hm => hK (k + m) L2 (by rw [← Nat.add_assoc]; exact hm)
      · exact mapM_append_one U h1.sees.fields hx1
      · rw [← hrest]
        refine mapM_valueAt_congr U fun y hy => ?_
        obtain ⟨p, hp, rfl⟩ := List.mem_map.1 hy
        exact hfr p hp
      · unfold fattrAt
        rw [h1.frame _ (Ne.symm hcx.2.2.1) (by decide)]
        exact hf0
      · rw [List.length_append, List.length_append, hl]; rfl
      · intro i hi
        by_cases hlt : i < dv.length
        · rw [List.getElem?_append_left hlt, List.getElem?_append_left (by rw [← hl]; exact hlt)]
          exact hag i hi
        · by_cases he : i = dv.length
          · have hnc : ¬ f.field.Converts := fun hcv => hi (by
              have := hcs 0 (x, f) rfl hcv
              rw [he]; exact this)
            rw [hne hnc, he]
            simp [hl]
          · rw [List.getElem?_eq_none (by simp; omega), List.getElem?_eq_none (by simp; omega)]
      · intro j p hp hcv
        have := hcs (j + 1) p (by rw [List.getElem?_cons_succ]; exact hp) hcv
        rw [List.length_append, List.length_singleton, Nat.add_assoc, Nat.add_comm 1 j]
        exact this
      · exact fun p hp => hig p (by simp [hp])
      · intro y hy
        rcases List.mem_append.1 hy with hy | hy
        · exact hn y hy
        · rw [List.mem_singleton.1 hy]; exact hcx
      · exact fun p hp => hc p (by simp [hp])
      · simpa using hnd
      · exact fun s hs p hp => hd s hs p (by simp [hp])
    show (armRunAll U vs ((if f.field.attrs.isUse = true then [ArmStmt.modifiers ns f.field.attrs] else []) ++ armEncode ns x f.field ++
      armEncodes (ns ++ [x]) fs) L >>= K) = (((if (true && !f.field.attrs.isUse) = true then Pure.pure old
        else f.field.attrs.toCode { vars := vars, fields := dv }) >>= fun fa =>
          encField f.field { vars := vars, fields := dv } u ca fa >>= fun n =>
            encFields true (fs.map (·.2.field)) ca fa { vars := vars, fields := dv ++ [u] } us' >>= fun m =>
              Pure.pure (n + m)) >>= K')
    rw [List.append_assoc, Bool.true_and]
    cases hu : f.field.attrs.isUse with
    | false =>
      rw [if_neg (by simp), if_pos (by rfl), List.nil_append, m_pure_bind, rest L old h (fun _ _ => rfl) hf, m_bind_assoc]
      refine m_bind_congr fun k => ?_
      rw [m_bind_assoc]
      rfl
    | true =>
      rw [if_pos rfl, if_neg (by simp), heq1, List.singleton_append, armRunAll_cons]
      show ((f.field.attrs.toCode (JBytes.envAt U vs ns L) >>= fun fa => Pure.pure ((nFattrNew, LocalVal.fattr fa) :: L)) >>= _) = _
      rw [h.envAt, m_bind_assoc, m_bind_assoc]
      refine m_bind_congr fun fa => ?_
      rw [m_pure_bind, rest _ fa (h.push (.fattr fa) (by decide) (by decide) (by decide) (fun s hs => (hv s hs).2.2.1)
        fun hm => (hn _ hm).2.2.1 rfl) (fun y hy => lookup_past hy _ _) (by unfold fattrAt; rw [lookup_here]), m_bind_assoc]
      refine m_bind_congr fun k => ?_
      rw [m_bind_assoc]
      rfl

/-! ## The head of the function and the pattern -/

theorem lookup_append_past {β : Type} {y : Name} (L : List (Name × β)) : ∀ (l : List (Name × β)), (∀ p ∈ l, y ≠ p.1) →
    (l ++ L).lookup y = L.lookup y
  | [], _ => rfl
  | (x, v) :: l, h => by
    rw [List.cons_append, lookup_past (h (x, v) (by simp))]
    exact lookup_append_past L l fun p hp => h p (by simp [hp])

theorem lookup_append_mem {β : Type} {y : Name} {v : β} (L : List (Name × β)) : ∀ (l : List (Name × β)), (y, v) ∈ l →
    (∀ p ∈ l, p.1 = y → p.2 = v) → (l ++ L).lookup y = some v
  | [], h, _ => by cases h
  | (x, w) :: l, h, hu => by
    by_cases e : y = x
    · subst e
      rw [List.cons_append, lookup_here, show w = v from hu (y, w) (by simp) rfl]
    · rw [List.cons_append, lookup_past e]
      rcases List.mem_cons.1 h with h | h
      · exact absurd (congrArg Prod.fst h) e
      · exact lookup_append_mem L l h fun p hp => hu p (by simp [hp])

/-- The locals that the variables give. -/
def varLocals (V : Type) (vs : List String) (ca : Option CAttr) : Locals V :=
  vs.map fun s => (s.toList, .num ((ca.bind fun c => c.vars.lookup s).getD 0))

theorem encGetVars_locals (ca : Option CAttr) (ts : List String) (ws : List V) : ∀ (vs : List String) (L : Locals V),
    (∀ s ∈ vs, s.toList ≠ nCattr) → cattrAt L nCattr = some ca → ∀ {β : Type} (K : Locals V → M β),
    (encRunAll U ts ws (vs.map EncStmt.getVar) L >>= K) = K ((varLocals V vs ca).reverse ++ L)
  | [], L, _, _, β, K => rfl
  | s :: vs, L, hv, hc, β, K => by
    rw [List.map_cons, encRunAll_cons]
    have e : EncStmt.run U ts ws L (.getVar s) =
        Pure.pure ((s.toList, LocalVal.num ((ca.bind fun c => c.vars.lookup s).getD 0)) :: L) := by
      unfold EncStmt.run
      rw [hc]
      rfl
    rw [e, m_pure_bind, encGetVars_locals ca ts ws vs _ (fun t ht => hv t (by simp [ht]))
      (by rw [cattrAt_past (Ne.symm (hv s (by simp)))]; exact hc)]
    congr 1
    show (varLocals V vs ca).reverse ++ _ = ((_, _) :: varLocals V vs ca).reverse ++ L
    rw [List.reverse_cons, List.append_assoc]
    rfl

theorem varLocals_lookup {y : Name} (vs : List String) (ca : Option CAttr) (L : Locals V) (h : ∀ s ∈ vs, y ≠ s.toList) :
    ((varLocals V vs ca).reverse ++ L).lookup y = L.lookup y := by
  refine lookup_append_past L _ fun p hp => ?_
  obtain ⟨s, hs, rfl⟩ := List.mem_map.1 (List.mem_reverse.1 hp)
  exact h s hs

theorem varLocals_usize {s : String} (vs : List String) (ca : Option CAttr) (L : Locals V) (h : s ∈ vs) :
    usizeAt U ((varLocals V vs ca).reverse ++ L) s.toList = some ((ca.bind fun c => c.vars.lookup s).getD 0) := by
  have e : ((varLocals V vs ca).reverse ++ L).lookup s.toList = some (LocalVal.num ((ca.bind fun c => c.vars.lookup s).getD 0)) := by
    refine lookup_append_mem L _ (List.mem_reverse.2 (List.mem_map.2 ⟨s, h, rfl⟩)) fun p hp e => ?_
    obtain ⟨t, ht, rfl⟩ := List.mem_map.1 (List.mem_reverse.1 hp)
    rw [String.toList_inj.1 (show t.toList = s.toList from e)]
  unfold usizeAt
  rw [e]

theorem bindFields_lookup {y : Name} (xs : List Name) (ws : List V) (L : Locals V) (h : y ∉ xs) :
    (bindFields xs ws L).lookup y = L.lookup y := by
  refine lookup_append_past L _ fun p hp => ?_
  intro e
  exact h (e ▸ (List.of_mem_zip (List.mem_reverse.1 hp)).1)

theorem bindFields_cons (x : Name) (xs : List Name) (w : V) (ws : List V) (L : Locals V) :
    bindFields (x :: xs) (w :: ws) L = bindFields xs ws ((x, .value w) :: L) := by
  unfold bindFields
  simp

theorem bindFields_values : ∀ (xs : List Name) (ws : List V) (L : Locals V), xs.Nodup → ws.length = xs.length →
    xs.mapM (valueAt U (bindFields xs ws L)) = some ws
  | [], [], L, _, _ => rfl
  | [], w :: ws, L, _, h => by simp at h
  | x :: xs, [], L, _, h => by simp at h
  | x :: xs, w :: ws, L, hn, h => by
    rw [bindFields_cons, List.mapM_cons, bindFields_values xs ws _ (List.nodup_cons.1 hn).2 (by simpa using h)]
    have : valueAt U (bindFields xs ws ((x, .value w) :: L)) x = some w := by
      unfold valueAt
      rw [bindFields_lookup xs ws _ (List.nodup_cons.1 hn).1, lookup_here]
    rw [this]
    rfl

/-- Names in an enum, for encoders: the fields and the variables have names of their own. -/
structure GenEnum.EncHygienic (E : GenEnum V) : Prop where
  vars : ∀ s ∈ E.getVars, ArmClear s.toList ∧ s.toList ≠ nCr ∧ s.toList ≠ nValue
  fields : ∀ v ∈ E.variants, v.shape ≠ .tuple → ∀ f ∈ v.fields, ArmClear f.name
  distinct : ∀ v ∈ E.variants, v.shape ≠ .tuple → (v.fields.map (·.name)).Nodup
  apart : ∀ v ∈ E.variants, ∀ s ∈ E.getVars,
    if v.shape = .tuple then ∀ i, s.toList ≠ tupleLocal i else ∀ f ∈ v.fields, s.toList ≠ f.name

/-- No modifier looks at a field that is converted by `value_encode` before it. -/
def GenVariant.Unconverted (v : GenVariant V) : Prop :=
  ∀ f ∈ v.fields, Ignores (fun i => ∃ g, v.fields[i]? = some g ∧ g.field.Converts) f.field

theorem tupleLocal_armClear (i : Nat) : ArmClear (tupleLocal i) := by
  unfold ArmClear EncClear tupleLocal
  refine ⟨⟨?_, ?_, ?_, ?_⟩, ?_, ?_, ?_⟩ <;> (intro e; exact absurd (List.cons.inj e).1 (by decide))

theorem GenEnum.EncHygienic.clear {E : GenEnum V} (h : E.EncHygienic) {v : GenVariant V} (hv : v ∈ E.variants) :
    ∀ p ∈ withLocals v.shape 0 v.fields, ArmClear p.1 := by
  intro p hp
  obtain ⟨hf, ⟨hs, i, -, e⟩ | ⟨hs, e⟩⟩ := withLocals_mem _ _ _ p hp
  · rw [e]; exact tupleLocal_armClear i
  · rw [e]; exact h.fields v hv hs p.2 hf

theorem GenEnum.EncHygienic.away {E : GenEnum V} (h : E.EncHygienic) {v : GenVariant V} (hv : v ∈ E.variants) :
    ∀ s ∈ E.getVars, ∀ p ∈ withLocals v.shape 0 v.fields, s.toList ≠ p.1 := by
  intro s hs p hp
  have := h.apart v hv s hs
  obtain ⟨hf, ⟨ht, i, -, e⟩ | ⟨ht, e⟩⟩ := withLocals_mem _ _ _ p hp
  · rw [if_pos ht] at this
    rw [e]; exact this i
  · rw [if_neg ht] at this
    rw [e]; exact this p.2 hf

/-- **C83** (encoders of enums): with hygienic names, and where no modifier looks at a converted field, the generated encoder
does to a value of the enum what `encEnum` says, whatever the names are. -/
theorem C83_enum_encode_partial (U : UsizeIn V) (E : GenEnum V) (h : E.EncHygienic) (ha : E.encodeAccepted = true)
    (i : Nat) (v : GenVariant V) (hi : E.variants[i]? = some v) (hu : v.Unconverted)
    (ws : List V) (hl : ws.length = v.fields.length) (ca : Option CAttr) (fa : Option FAttr) :
    E.runEncode U (i, ws) ca fa = encEnum E.toDef (i, ws) ca fa := by
  have hm : v ∈ E.variants := List.mem_of_getElem? hi
  have hlen : E.numbers.length = E.variants.length := by
    unfold GenEnum.numbers; rw [variantNumbers_length, List.length_map]
  obtain ⟨num, hnum⟩ : ∃ num, E.numbers[i]? = some num := by
    have : i < E.numbers.length := by rw [hlen]; exact (List.getElem?_eq_some_iff.1 hi).1
    exact ⟨_, List.getElem?_eq_getElem this⟩
  have hz : (E.variants.zip E.numbers)[i]? = some (v, num) := by
    have := zip_map_get (fun (v : GenVariant V) (n : Nat) => (v, n)) E.variants E.numbers i
    rw [hi, hnum] at this
    simpa using this
  have hz' : (E.toDef.variants.zip E.toDef.numbers)[i]? = some (v.toVariant, num) := by
    rw [toDef_numbers]
    show ((E.variants.map (·.toVariant)).zip E.numbers)[i]? = _
    have := zip_map_get (fun (v : Variant V) (n : Nat) => (v, n)) (E.variants.map (·.toVariant)) E.numbers i
    have e : (E.variants.map (·.toVariant))[i]? = some v.toVariant := by rw [List.getElem?_map, hi]; rfl
    rw [e, hnum] at this
    simpa using this
  have hwe : E.withEncode = none := by
    unfold GenEnum.encodeAccepted at ha
    cases hw : E.withEncode with
    | none => rfl
    | some g => rw [hw] at ha; cases ha
  unfold GenEnum.runEncode encEnum
  simp only [hwe, hz, hz']
  have e0 : encRunAll U E.getVars [] E.encodeHead (encodeParams ca fa) = (encRunAll U E.getVars []
      (E.getVars.map EncStmt.getVar) ((nBytes, LocalVal.num 0) :: encodeParams ca fa) >>= fun L =>
        encRunAll U E.getVars [] [EncStmt.container E.container] L) := by
    rw [← encRunAll_append]
    rfl
  rw [e0, m_bind_assoc, encGetVars_locals ca E.getVars [] E.getVars _ (fun s hs => (h.vars s hs).1.2.1) rfl]
  show ((v.runEncode U E num ws ((nCattrNew, LocalVal.cattr E.container) :: ((varLocals V E.getVars ca).reverse ++
    (nBytes, LocalVal.num 0) :: encodeParams ca fa))) >>= _) = _
  generalize hL0 : (nCattrNew, LocalVal.cattr E.container) :: ((varLocals V E.getVars ca).reverse ++
    (nBytes, LocalVal.num 0) :: encodeParams ca fa) = L0
  have look : ∀ y, y ≠ nCattrNew → (∀ s ∈ E.getVars, y ≠ s.toList) →
      L0.lookup y = ((nBytes, LocalVal.num 0) :: encodeParams ca fa).lookup y := by
    intro y hy hy'
    rw [← hL0, lookup_past hy, varLocals_lookup _ _ _ hy']
  have hxs := h.clear hm
  have hnd := withLocals_nodup v.shape 0 v.fields (h.distinct v hm)
  generalize hxx : (withLocals v.shape 0 v.fields).map (·.1) = xs at hnd
  have hxc : ∀ x ∈ xs, ArmClear x := by
    rw [← hxx]; intro x hx; obtain ⟨p, hp, rfl⟩ := List.mem_map.1 hx; exact hxs p hp
  have hwl : ws.length = xs.length := by
    rw [hl, ← hxx, List.length_map, ← List.length_map (as := withLocals v.shape 0 v.fields) (·.2), withLocals_fields]
  have look1 : ∀ y, y ∉ xs → (bindFields xs ws L0).lookup y = L0.lookup y := fun y hy => bindFields_lookup xs ws L0 hy
  have hvs : ∀ s ∈ E.getVars, EncClear s.toList := fun s hs => (h.vars s hs).1.1
  have hva : ∀ s ∈ E.getVars, s.toList ∉ xs := by
    intro s hs hmm
    rw [← hxx] at hmm
    obtain ⟨p, hp, e⟩ := List.mem_map.1 hmm
    exact h.away hm s hs p hp e.symm
  have hnot : ∀ y, (∀ x, ArmClear x → x ≠ y) → y ∉ xs := fun y hy hmm => hy y (hxc y hmm) rfl
  have hvnot : ∀ y, (∀ x, ArmClear x → x ≠ y) → ∀ s ∈ E.getVars, y ≠ s.toList :=
    fun y hy s hs e => hy _ (h.vars s hs).1 e.symm
  have s1 : ArmSees U E.getVars [] (bindFields xs ws L0) E.container { vars := localVars E.getVars ca } 0 := by
    refine ⟨⟨?_, ?_, ?_, ?_⟩, rfl⟩
    · unfold isReader
      rw [look1 _ (hnot _ fun x hx => hx.1.1), look _ (by decide) (hvnot _ fun x hx => hx.1.1)]
      rfl
    · unfold cattrAt
      rw [look1 _ (hnot _ fun x hx => hx.1.2.1), ← hL0, lookup_here]
    · unfold usizeAt
      rw [look1 _ (hnot _ fun x hx => hx.1.2.2.2), look _ (by decide) (hvnot _ fun x hx => hx.1.2.2.2)]
      rfl
    · unfold localVars
      refine List.map_congr_left fun s hs => ?_
      have : usizeAt U (bindFields xs ws L0) s.toList = usizeAt U ((varLocals V E.getVars ca).reverse ++
          (nBytes, LocalVal.num 0) :: encodeParams ca fa) s.toList := by
        unfold usizeAt
        rw [look1 _ (hva s hs), ← hL0, lookup_past (hvs s hs).2.1]
      rw [this, varLocals_usize _ _ _ hs]
      rfl
  unfold GenVariant.runEncode encVariant
  simp only [hxx]
  rw [m_bind_assoc, armRunAll_cons]
  show ((v.tag.attrs.toCode (JBytes.envAt U E.getVars [] (bindFields xs ws L0)) >>= fun fa =>
    Pure.pure ((nFattrNew, LocalVal.fattr fa) :: bindFields xs ws L0)) >>= _) =
    (v.tag.attrs.toCode { vars := localVars E.getVars ca } >>= _)
  rw [s1.envAt, m_bind_assoc]
  refine m_bind_congr fun old => ?_
  rw [m_pure_bind]
  show ((addBytes U _ (writeTag E v num ((nFattrNew, LocalVal.fattr old) :: bindFields xs ws L0)) >>= _) >>= _) = _
  have s2 : ArmSees U E.getVars [] ((nFattrNew, LocalVal.fattr old) :: bindFields xs ws L0) E.container
      { vars := localVars E.getVars ca } 0 :=
    s1.push _ (by decide) (by decide) (by decide) (fun s hs => (hvs s hs).2.2.1) (by simp)
  have ew : writeTag E v num ((nFattrNew, LocalVal.fattr old) :: bindFields xs ws L0) = encTagMode E.toDef v.toVariant num ca fa := by
    have hca : cattrAt ((nFattrNew, LocalVal.fattr old) :: bindFields xs ws L0) nCattr = some ca := by
      rw [cattrAt_past (by decide)]
      unfold cattrAt
      rw [look1 _ (hnot _ fun x hx => hx.2.1), look _ (by decide) (hvnot _ fun x hx => hx.2.1)]
      rfl
    have hfa : fattrAt ((nFattrNew, LocalVal.fattr old) :: bindFields xs ws L0) nFattr = some fa := by
      rw [fattrAt_past (by decide)]
      unfold fattrAt
      rw [look1 _ (hnot _ fun x hx => hx.2.2.1), look _ (by decide) (hvnot _ fun x hx => hx.2.2.1)]
      rfl
    unfold writeTag encTagMode
    show _ = (match E.mode with
      | .startsWith false => push v.tag.word
      | .startsWith true => Pure.pure 0
      | .takeBytes _ => push v.tag.word
      | .uint => encTag E.container ca fa E.byteCountDisable num)
    cases E.mode with
    | uint => simp only [s2.sees.buffer, s2.sees.cattr, hca, hfa]
    | takeBytes n => simp only [s2.sees.buffer]; rfl
    | startsWith u => cases u <;> simp only [s2.sees.buffer] <;> rfl
  rw [ew, m_bind_assoc]
  refine addBytes_run s2 hvs (fun y hy => by cases hy) nByteCount (by unfold EncClear; decide) _ fun n L3 h3 _ => ?_
  generalize hL4 : (if E.mode = .uint then (nByteCount, LocalVal.other) :: L3 else L3) = L4
  have look4 : ∀ y, y ≠ nByteCount → L4.lookup y = L3.lookup y := by
    intro y hy
    rw [← hL4]
    split
    · exact lookup_past hy _ _
    · rfl
  have s4 : ArmSees U E.getVars [] L4 E.container { vars := localVars E.getVars ca } (0 + n) := by
    rw [← hL4]
    split
    · exact h3.sees.push _ (by decide) (by decide) (by decide) (fun s hs => (h.vars s hs).1.2.2.2) (by simp)
    · exact h3.sees
  show (armRunAll U E.getVars (armFill [] v.tag.attrs ++ armEncodes [] (withLocals v.shape 0 v.fields)) L4 >>= _) = _
  rw [armRunAll_append, m_bind_assoc, armFill_run s4]
  show (padOffset v.tag.attrs _ >>= _) = (padOffset v.tag.attrs _ >>= _)
  refine m_bind_congr fun _ => ?_
  have ef : v.fields.map (·.field) = (withLocals v.shape 0 v.fields).map (·.2.field) := by
    conv => lhs; rw [← withLocals_fields v.shape 0 v.fields, List.map_map]
    rfl
  show _ = (encFields true (v.fields.map (·.field)) E.container old { vars := localVars E.getVars ca } ws >>= _)
  rw [ef]
  have look5 : ∀ y, y ≠ nByteCount → y ≠ nBytes → L4.lookup y =
      ((nFattrNew, LocalVal.fattr old) :: bindFields xs ws L0).lookup y := by
    intro y h1 h2
    rw [look4 y h1, h3.frame y h1 h2]
  refine armEncodes_run (fun i => ∃ g, v.fields[i]? = some g ∧ g.field.Converts) hvs _ (withLocals v.shape 0 v.fields) [] [] [] ws L4
    old (0 + n) s4 ?_ ?_ rfl (fun _ _ => rfl) ?_ ?_ (fun y hy => by cases hy) (fun p hp => (hxs p hp).1) (by rw [List.nil_append, hxx]; exact hnd)
    (h.away hm) fun k L' hk => ?_
  · rw [hxx, ← bindFields_values (U := U) xs ws L0 hnd hwl]
    refine mapM_valueAt_congr U fun y hy => ?_
    have hy' := hxc y hy
    unfold valueAt
    rw [look5 y hy'.2.2.2 hy'.1.2.2.2, lookup_past hy'.1.2.2.1]
  · unfold fattrAt
    rw [look5 _ (by decide) (by decide), lookup_here]
  · intro j p hp hc
    refine ⟨p.2, ?_, hc⟩
    rw [List.length_nil, Nat.zero_add]
    conv => lhs; rw [← withLocals_fields v.shape 0 v.fields]
    rw [List.getElem?_map, hp]
    rfl
  · intro p hp
    refine hu p.2 ?_
    rw [← withLocals_fields v.shape 0 v.fields]
    exact List.mem_map_of_mem hp
  · simp only [hk, Nat.zero_add]

/-! ## When encoders are accepted -/

/-- The text of the field is written, as `encode_inner(x.to_string(), ..)`. -/
def Field.WritesText (f : Field V) : Prop :=
  f.attrs.withEncode.isNone = true ∧ f.attrs.skip = false ∧ f.attrs.skipEncode = false ∧ f.attrs.fromStr.isSome = true

theorem armTypesAfter_append : ∀ (a b : List (ArmStmt V)) (T : LTypes),
    armTypesAfter (a ++ b) T = (armTypesAfter a T).bind (armTypesAfter b)
  | [], _, _ => rfl
  | s :: a, b, T => by
    show (s.types T).bind (armTypesAfter (a ++ b)) = ((s.types T).bind (armTypesAfter a)).bind (armTypesAfter b)
    cases s.types T with
    | none => rfl
    | some T' => exact armTypesAfter_append a b T'

/-- Types of the locals in an arm. -/
structure ArmTyped (T : LTypes) (xs : List Name) : Prop where
  enc : EncTyped T
  fattr : typeAt T nFattrNew = some .fattr
  fields : ∀ x ∈ xs, typeAt T x = some (.field [])

theorem ArmTyped.call {T : LTypes} {xs : List Name} (h : ArmTyped T xs) (hx : x ∈ xs) :
    encCallTyped T ∧ T.lookup nBytes = some (.usize, true) ∧ typeAt T x = some (.field []) := by
  refine ⟨?_, h.enc.count, h.fields x hx⟩
  unfold encCallTyped
  rw [h.enc.buffer, h.enc.cattr, h.fattr]
  rfl

theorem ArmTyped.convert {T : LTypes} {xs : List Name} (h : ArmTyped T xs) (hc : EncClear x) :
    ArmTyped ((x, .field [], false) :: T) xs where
  enc := h.enc.push _ hc.1 hc.2.1 hc.2.2.2
  fattr := by rw [typeAt_past (Ne.symm hc.2.2.1)]; exact h.fattr
  fields := fun y hy => by
    by_cases e : y = x
    · rw [e]; exact typeAt_here _ _ _
    · rw [typeAt_past e]; exact h.fields y hy

theorem ArmTyped.modifiers {T : LTypes} {xs : List Name} (h : ArmTyped T xs) (hn : nFattrNew ∉ xs) :
    ArmTyped ((nFattrNew, .fattr, false) :: T) xs where
  enc := h.enc.push _ (by decide) (by decide) (by decide)
  fattr := typeAt_here _ _ _
  fields := fun y hy => by rw [typeAt_past (fun e => hn (by rw [← e]; exact hy))]; exact h.fields y hy

theorem armFill_types {T : LTypes} {xs : List Name} (h : ArmTyped T xs) (ns : List Name) (a : FieldAttrs V) :
    armTypesAfter (armFill ns a) T = some T := by
  unfold armFill
  cases a.offset with
  | none => rfl
  | some e =>
    show ((if typeAt T nBuffer = some .reader then some T else none : Option LTypes).bind fun T => some T) = _
    rw [if_pos h.enc.buffer]
    rfl

theorem armSend_types {T : LTypes} {xs : List Name} (h : ArmTyped T xs) (hx : x ∈ xs) (hc : EncClear x) (ns : List Name)
    (f : Field V) : ∃ T', armTypesAfter (armSend ns x f) T = some T' ∧ ArmTyped T' xs := by
  unfold armSend
  rw [armTypesAfter_append, armFill_types h]
  show ∃ T', armTypesAfter _ T = some T' ∧ _
  cases f.attrs.valueEncode with
  | none =>
    refine ⟨T, ?_, h⟩
    show ((if _ then some T else none : Option LTypes).bind fun T => some T) = _
    rw [if_pos (h.call hx)]
    rfl
  | some g =>
    refine ⟨_, ?_, h.convert hc⟩
    show ((if _ then some ((x, LTy.field [], false) :: T) else none : Option LTypes).bind fun T => some T) = _
    rw [if_pos ((h.convert hc).call hx)]
    rfl

theorem armEncode_types {T : LTypes} {xs : List Name} (h : ArmTyped T xs) (hx : x ∈ xs) (hc : EncClear x) (ns : List Name)
    (f : Field V) : (¬ f.WritesText ∧ ∃ T', armTypesAfter (armEncode ns x f) T = some T' ∧ ArmTyped T' xs) ∨
      (f.WritesText ∧ armTypesAfter (armEncode ns x f) T = none) := by
  unfold armEncode Field.WritesText
  cases hw : f.attrs.withEncode with
  | some g =>
    refine .inl ⟨fun h' => (by cases h'.1), T, ?_, h⟩
    show ((if _ then some T else none : Option LTypes).bind fun T => some T) = _
    rw [if_pos (h.call hx)]
    rfl
  | none =>
    by_cases hs : (f.attrs.skip || f.attrs.skipEncode) = true
    · refine .inl ⟨fun h' => ?_, T, ?_, h⟩
      · rw [h'.2.1, h'.2.2.1] at hs; cases hs
      · simp only [if_pos hs]
        rfl
    · simp only [if_neg hs]
      rw [armTypesAfter_append]
      simp only [Bool.or_eq_true, not_or, Bool.not_eq_true] at hs
      unfold armText
      cases hf : f.attrs.fromStr with
      | some ps => exact .inr ⟨⟨rfl, hs.1, hs.2, rfl⟩, rfl⟩
      | none =>
        refine .inl ⟨fun h' => (by cases h'.2.2.2), ?_⟩
        show ∃ T', armTypesAfter (if (f.attrs.bits.isSome || !f.attrs.untake) = true then armSend ns x f else []) T = some T' ∧ _
        split
        · exact armSend_types h hx hc ns f
        · exact ⟨T, rfl, h⟩

theorem armEncodes_types {xs : List Name} (hn : nFattrNew ∉ xs) : ∀ (fs : List (Name × NamedField V)) (ns : List Name) (T : LTypes),
    ArmTyped T xs → (∀ p ∈ fs, p.1 ∈ xs ∧ EncClear p.1) →
    ((armTypesAfter (armEncodes ns fs) T).isSome = true ↔ ∀ p ∈ fs, ¬ p.2.field.WritesText)
  | [], ns, T, h, hx => ⟨fun _ p hp => (by cases hp), fun _ => rfl⟩
  | (x, f) :: fs, ns, T, h, hx => by
    obtain ⟨T0, e0, h0⟩ : ∃ T0, armTypesAfter (if f.field.attrs.isUse = true then [ArmStmt.modifiers ns f.field.attrs] else []) T = some T0 ∧
        ArmTyped T0 xs := by
      split
      · exact ⟨_, rfl, h.modifiers hn⟩
      · exact ⟨T, rfl, h⟩
    show (armTypesAfter ((if f.field.attrs.isUse = true then [ArmStmt.modifiers ns f.field.attrs] else []) ++ armEncode ns x f.field ++
      armEncodes (ns ++ [x]) fs) T).isSome = true ↔ _
    rw [List.append_assoc, armTypesAfter_append, e0]
    show (armTypesAfter (armEncode ns x f.field ++ armEncodes (ns ++ [x]) fs) T0).isSome = true ↔ _
    rw [armTypesAfter_append]
    have hxx := hx (x, f) (by simp)
    rcases armEncode_types h0 hxx.1 hxx.2 ns f.field with ⟨hw, T1, e1, h1⟩ | ⟨hw, e1⟩
    · rw [e1]
      show (armTypesAfter (armEncodes (ns ++ [x]) fs) T1).isSome = true ↔ _
      rw [armEncodes_types hn fs (ns ++ [x]) T1 h1 fun p hp => hx p (by simp [hp])]
      refine ⟨fun h' p hp => ?_, fun h' p hp => h' p (by simp [hp])⟩
      rcases List.mem_cons.1 hp with rfl | hp
      · exact hw
      · exact h' p hp
    · rw [e1]
      exact ⟨fun h' => (by cases h'), fun h' => absurd hw (h' (x, f) (by simp))⟩

theorem encGetVars_typeAt : ∀ (vs : List String) (T : LTypes),
    (∀ s ∈ vs, s.toList ≠ nCattr ∧ s.toList ≠ nCr ∧ s.toList ≠ nValue) → typeAt T nCattr = some .cattr →
    ∃ T', encTypesAfter (vs.map (EncStmt.getVar (V := V))) T = some T' ∧ ∀ y, (∀ s ∈ vs, y ≠ s.toList) → T'.lookup y = T.lookup y
  | [], T, _, _ => ⟨T, rfl, fun _ _ => rfl⟩
  | s :: vs, T, hv, hc => by
    obtain ⟨h6, h7⟩ := hv s (by simp)
    obtain ⟨T', e, h'⟩ := encGetVars_typeAt vs ((s.toList, .usize, true) :: T) (fun s hs => hv s (by simp [hs]))
      (by rw [typeAt_past (Ne.symm h6)]; exact hc)
    refine ⟨T', ?_, fun y hy => ?_⟩
    · show ((if typeAt ((s.toList, .usize, true) :: T) nCattr = some .cattr ∧ s.toList ≠ nCr ∧ s.toList ≠ nValue then
        some ((s.toList, .usize, true) :: T) else none : Option LTypes).bind _) = _
      rw [if_pos ⟨by rw [typeAt_past (Ne.symm h6)]; exact hc, h7⟩]
      exact e
    · rw [h' y fun t ht => hy t (by simp [ht]), lookup_past (hy s (by simp))]

theorem boundTypes_past {y : Name} (xs : List Name) (T : LTypes) (h : y ∉ xs) :
    ((xs.map fun x => (x, (LTy.field [], false))).reverse ++ T).lookup y = T.lookup y := by
  refine lookup_append_past T _ fun p hp e => ?_
  obtain ⟨x, hx, rfl⟩ := List.mem_map.1 (List.mem_reverse.1 hp)
  exact h (by rw [e]; exact hx)

theorem boundTypes_mem {y : Name} (xs : List Name) (T : LTypes) (h : y ∈ xs) :
    ((xs.map fun x => (x, (LTy.field [], false))).reverse ++ T).lookup y = some (.field [], false) := by
  refine lookup_append_mem T _ (List.mem_reverse.2 (List.mem_map.2 ⟨y, h, rfl⟩)) fun p hp e => ?_
  obtain ⟨x, hx, rfl⟩ := List.mem_map.1 (List.mem_reverse.1 hp)
  rfl

theorem arm_accepted (m : TagMode) {T : LTypes} (h : EncTyped T) (hca : typeAt T nCattr = some .cattr)
    (hfa : typeAt T nFattr = some .fattr) (v : GenVariant V) (hx : ∀ p ∈ withLocals v.shape 0 v.fields, ArmClear p.1) :
    v.encodeAccepted m T = true ↔ ∀ f ∈ v.fields, ¬ f.field.WritesText := by
  have hxx : ∀ x ∈ (withLocals v.shape 0 v.fields).map (·.1), ArmClear x := by
    intro x hm; obtain ⟨p, hp, rfl⟩ := List.mem_map.1 hm; exact hx p hp
  unfold GenVariant.encodeAccepted
  generalize hxs : (withLocals v.shape 0 v.fields).map (·.1) = xs at hxx
  have hnot : ∀ y, (∀ x, ArmClear x → x ≠ y) → y ∉ xs := fun y hy hm => hy y (hxx y hm) rfl
  have look : ∀ y, (∀ x, ArmClear x → x ≠ y) → ((xs.map fun x => (x, (LTy.field [], false))).reverse ++ T).lookup y = T.lookup y :=
    fun y hy => boundTypes_past xs T (hnot y hy)
  have h1 : ArmTyped ((nFattrNew, .fattr, false) :: ((xs.map fun x => (x, (LTy.field [], false))).reverse ++ T)) xs := by
    refine ⟨⟨?_, ?_, ?_⟩, typeAt_here _ _ _, fun x hm => ?_⟩
    · rw [typeAt_past (by decide)]; unfold typeAt; rw [look _ fun x hx => hx.1.1]; exact h.buffer
    · rw [typeAt_past (by decide)]; unfold typeAt; rw [look _ fun x hx => hx.1.2.1]; exact h.cattr
    · rw [lookup_past (by decide), look _ fun x hx => hx.1.2.2.2]; exact h.count
    · rw [typeAt_past (hxx x hm).1.2.2.1]; unfold typeAt; rw [boundTypes_mem xs T hm]; rfl
  have hw : writeTyped m ((nFattrNew, .fattr, false) :: ((xs.map fun x => (x, (LTy.field [], false))).reverse ++ T)) = true := by
    have e1 : typeAt ((nFattrNew, .fattr, false) :: ((xs.map fun x => (x, (LTy.field [], false))).reverse ++ T)) nCattr = some .cattr := by
      rw [typeAt_past (by decide)]; unfold typeAt; rw [look _ fun x hx => hx.2.1]; exact hca
    have e2 : typeAt ((nFattrNew, .fattr, false) :: ((xs.map fun x => (x, (LTy.field [], false))).reverse ++ T)) nFattr = some .fattr := by
      rw [typeAt_past (by decide)]; unfold typeAt; rw [look _ fun x hx => hx.2.2.1]; exact hfa
    unfold writeTyped
    rw [h1.enc.count]
    cases m with
    | uint => simp only [h1.enc.buffer, h1.enc.cattr, e1, e2]; rfl
    | takeBytes n => simp only [h1.enc.buffer]; rfl
    | startsWith u => cases u <;> simp only [h1.enc.buffer] <;> rfl
  simp only [hw, Bool.true_and]
  generalize hT : (if m = .uint then (nByteCount, LTy.other, false) :: (nFattrNew, LTy.fattr, false) ::
    ((xs.map fun x => (x, (LTy.field [], false))).reverse ++ T) else (nFattrNew, LTy.fattr, false) ::
    ((xs.map fun x => (x, (LTy.field [], false))).reverse ++ T)) = T'
  have h2 : ArmTyped T' xs := by
    rw [← hT]
    split
    · refine ⟨h1.enc.push _ (by decide) (by decide) (by decide), ?_, fun x hm => ?_⟩
      · rw [typeAt_past (by decide)]; exact h1.fattr
      · rw [typeAt_past (hxx x hm).2.2.2]; exact h1.fields x hm
    · exact h1
  rw [armTypesAfter_append, armFill_types h2]
  show (armTypesAfter (armEncodes [] (withLocals v.shape 0 v.fields)) T').isSome = true ↔ _
  rw [armEncodes_types (hnot _ fun x hx => hx.1.2.2.1) _ [] T' h2 fun p hp => ⟨by rw [← hxs]; exact List.mem_map_of_mem hp, (hx p hp).1⟩]
  conv => rhs; rw [← withLocals_fields v.shape 0 v.fields]
  exact ⟨fun h' f hf => by obtain ⟨p, hp, rfl⟩ := List.mem_map.1 hf; exact h' p hp, fun h' p hp => h' p.2 (List.mem_map_of_mem hp)⟩

/-- **C84** (encoders of enums): exactly when rustc accepts the generated encoder, for hygienic names: the enum has variants
and no encoder of its own, words are byte strings, and no field is written as text by `from_str`. -/
theorem C84_enum_encode_iff (E : GenEnum V) (h : E.EncHygienic) : E.encodeAccepted = true ↔
    E.withEncode.isNone = true ∧ E.variants ≠ [] ∧
    (E.mode ≠ .uint → E.mode ≠ .startsWith true → ∀ v ∈ E.variants, ∀ n, v.tag.branchValue ≠ some (.num n)) ∧
    ∀ v ∈ E.variants, ∀ f ∈ v.fields, ¬ f.field.WritesText := by
  obtain ⟨T1, e1, look⟩ := encGetVars_typeAt (V := V) E.getVars ((nBytes, .usize, true) :: encodeParamTypes)
    (fun s hs => ⟨(h.vars s hs).1.2.1, (h.vars s hs).2⟩) rfl
  have e : encTypesAfter E.encodeHead encodeParamTypes = some ((nCattrNew, .cattr, E.container.isNone) :: T1) := by
    have : encTypesAfter E.encodeHead encodeParamTypes = encTypesAfter (E.getVars.map EncStmt.getVar ++
        [EncStmt.container E.container]) ((nBytes, .usize, true) :: encodeParamTypes) := rfl
    rw [this, encTypesAfter_append, e1]
    rfl
  have hvnot : ∀ y, (∀ x, ArmClear x → x ≠ y) → ∀ s ∈ E.getVars, y ≠ s.toList :=
    fun y hy s hs e => hy _ (h.vars s hs).1 e.symm
  have h1 : EncTyped ((nCattrNew, .cattr, E.container.isNone) :: T1) := by
    refine ⟨?_, typeAt_here _ _ _, ?_⟩
    · rw [typeAt_past (by decide)]; unfold typeAt; rw [look _ (hvnot _ fun x hx => hx.1.1)]; rfl
    · rw [lookup_past (by decide), look _ (hvnot _ fun x hx => hx.1.2.2.2)]; rfl
  have hca : typeAt ((nCattrNew, .cattr, E.container.isNone) :: T1) nCattr = some .cattr := by
    rw [typeAt_past (by decide)]; unfold typeAt; rw [look _ (hvnot _ fun x hx => hx.2.1)]; rfl
  have hfa : typeAt ((nCattrNew, .cattr, E.container.isNone) :: T1) nFattr = some .fattr := by
    rw [typeAt_past (by decide)]; unfold typeAt; rw [look _ (hvnot _ fun x hx => hx.2.2.1)]; rfl
  unfold GenEnum.encodeAccepted
  rw [e]
  simp only [Bool.and_eq_true, List.all_eq_true]
  have hall : (∀ v ∈ E.variants, v.encodeAccepted E.mode ((nCattrNew, .cattr, E.container.isNone) :: T1) = true) ↔
      ∀ v ∈ E.variants, ∀ f ∈ v.fields, ¬ f.field.WritesText :=
    ⟨fun h' v hv => (arm_accepted E.mode h1 hca hfa v (h.clear hv)).1 (h' v hv),
      fun h' v hv => (arm_accepted E.mode h1 hca hfa v (h.clear hv)).2 (h' v hv)⟩
  rw [hall, and_assoc, and_assoc]
  refine and_congr Iff.rfl (and_congr (by cases E.variants <;> simp) (and_congr ?_ Iff.rfl))
  have hw : (E.variants.all fun v => match v.tag.branchValue with
      | some (.num _) => false
      | _ => true) = true ↔ ∀ v ∈ E.variants, ∀ n, v.tag.branchValue ≠ some (.num n) := by
    rw [List.all_eq_true]
    refine forall_congr' fun v => forall_congr' fun _ => ?_
    rcases v.tag.branchValue with _ | ⟨n⟩ | ⟨w⟩ <;> simp
  cases E.mode with
  | uint => simp
  | takeBytes n => exact ⟨fun h' _ _ => hw.1 h', fun h' => hw.2 (h' (by simp) (by simp))⟩
  | startsWith u =>
    cases u with
    | true => simp
    | false => exact ⟨fun h' _ _ => hw.1 h', fun h' => hw.2 (h' (by simp) (by simp))⟩

/-! ## Renaming -/

/-- A variant without the names of its fields. -/
def GenVariant.nameless (v : GenVariant V) : GenVariant V := { v with fields := v.fields.map fun f => { f with name := [] } }

/-- The same declaration up to the names of the fields. -/
def GenEnum.SameButNames (E E' : GenEnum V) : Prop :=
  E'.container = E.container ∧ E'.getVars = E.getVars ∧ E'.mode = E.mode ∧ E'.byteCountDisable = E.byteCountDisable ∧
    E'.withDecode = E.withDecode ∧ E'.withEncode = E.withEncode ∧
    E'.variants.map (·.nameless) = E.variants.map (·.nameless)

theorem GenEnum.SameButNames.symm {E E' : GenEnum V} (h : E.SameButNames E') : E'.SameButNames E :=
  ⟨h.1.symm, h.2.1.symm, h.2.2.1.symm, h.2.2.2.1.symm, h.2.2.2.2.1.symm, h.2.2.2.2.2.1.symm, h.2.2.2.2.2.2.symm⟩

theorem toVariant_nameless (v : GenVariant V) : v.nameless.toVariant = v.toVariant := by
  unfold GenVariant.toVariant GenVariant.nameless
  simp only [List.map_map]
  rfl

theorem GenEnum.SameButNames.toDef {E E' : GenEnum V} (h : E.SameButNames E') : E'.toDef = E.toDef := by
  have e : ∀ E : GenEnum V, E.variants.map (·.toVariant) = (E.variants.map (·.nameless)).map (·.toVariant) := by
    intro E
    rw [List.map_map]
    exact List.map_congr_left fun v _ => (toVariant_nameless v).symm
  unfold GenEnum.toDef
  rw [e E', e E, h.2.2.2.2.2.2, h.1, h.2.1, h.2.2.1, h.2.2.2.1, h.2.2.2.2.1]

theorem GenEnum.SameButNames.variant {E E' : GenEnum V} (h : E.SameButNames E') {i : Nat} {v : GenVariant V}
    (hv : E.variants[i]? = some v) : ∃ v', E'.variants[i]? = some v' ∧ v'.nameless = v.nameless := by
  have e := congrArg (fun l => l[i]?) h.2.2.2.2.2.2
  simp only [List.getElem?_map, hv, Option.map_some] at e
  cases hg : E'.variants[i]? with
  | none => rw [hg] at e; cases e
  | some v' =>
    rw [hg] at e
    exact ⟨v', rfl, by simpa using e⟩

theorem nameless_fields {v v' : GenVariant V} (h : v'.nameless = v.nameless) {i : Nat} {f : NamedField V}
    (hf : v.fields[i]? = some f) : ∃ f', v'.fields[i]? = some f' ∧ f'.ty = f.ty ∧ f'.field = f.field ∧ f'.fromStrOwn = f.fromStrOwn := by
  have e := congrArg (fun w : GenVariant V => w.fields[i]?) h
  simp only [GenVariant.nameless, List.getElem?_map, hf, Option.map_some] at e
  cases hg : v'.fields[i]? with
  | none => rw [hg] at e; cases e
  | some f' =>
    rw [hg] at e
    simp only [Option.map_some, Option.some.injEq, NamedField.mk.injEq, true_and] at e
    exact ⟨f', rfl, e⟩

/-- What holds of all fields but for their names. -/
theorem GenEnum.SameButNames.all {E E' : GenEnum V} (h : E.SameButNames E') {P : NamedField V → Prop}
    (hP : ∀ f f' : NamedField V, f'.ty = f.ty → f'.field = f.field → f'.fromStrOwn = f.fromStrOwn → P f → P f')
    (ha : ∀ v ∈ E.variants, ∀ f ∈ v.fields, P f) : ∀ v ∈ E'.variants, ∀ f ∈ v.fields, P f := by
  intro v hv f hf
  obtain ⟨i, hi⟩ := List.mem_iff_getElem?.1 hv
  obtain ⟨j, hj⟩ := List.mem_iff_getElem?.1 hf
  obtain ⟨w, hw, ew⟩ := h.symm.variant hi
  obtain ⟨g, hg, e1, e2, e3⟩ := nameless_fields ew hj
  exact hP g f e1.symm e2.symm e3.symm (ha w (List.mem_of_getElem? hw) g (List.mem_of_getElem? hg))

/-- **C83** (enums): renaming the fields – with names that no helper has – changes neither whether the functions are accepted
nor what they do. -/
theorem C83_enum_rename_partial (U : UsizeIn V) (E E' : GenEnum V) (h : E.SameButNames E') :
    (E.Hygienic → E'.Hygienic → E'.decodeAccepted = E.decodeAccepted ∧ ∀ ca fa, E'.runDecode U ca fa = E.runDecode U ca fa) ∧
    (E.EncHygienic → E'.EncHygienic → E'.encodeAccepted = E.encodeAccepted ∧
      (E.encodeAccepted = true → ∀ (i : Nat) v, E.variants[i]? = some v → v.Unconverted → ∀ ws : List V, ws.length = v.fields.length →
        ∀ ca fa, E'.runEncode U (i, ws) ca fa = E.runEncode U (i, ws) ca fa)) := by
  have dec : ∀ {A B : GenEnum V}, A.SameButNames B → A.Hygienic → B.Hygienic → A.decodeAccepted = true → B.decodeAccepted = true := by
    intro A B hAB hA hB ha
    refine (C84_enum_iff B hB).2 ?_
    rcases (C84_enum_iff A hA).1 ha with ha | ⟨h1, h2, h3⟩
    · exact .inl (by rw [hAB.2.2.2.2.1]; exact ha)
    · refine .inr ⟨?_, hAB.all (fun f f' e1 e2 e3 hf => ?_) h2, ?_⟩
      · rw [← tagsFit_iff] at h1 ⊢
        rw [hAB.toDef]; exact h1
      · unfold NamedField.TypeFits NamedField.Annotated NamedField.Pathed at hf ⊢
        rw [e1, e2, e3]; exact hf
      · rw [hAB.1]
        exact hAB.all (P := fun f => f.field.attrs.variableName.isSome = true → A.container = none)
          (fun f f' e1 e2 e3 hf => by rw [e2]; exact hf) h3
  have enc : ∀ {A B : GenEnum V}, A.SameButNames B → A.EncHygienic → B.EncHygienic → A.encodeAccepted = true → B.encodeAccepted = true := by
    intro A B hAB hA hB ha
    obtain ⟨h1, h2, h3, h4⟩ := (C84_enum_encode_iff A hA).1 ha
    refine (C84_enum_encode_iff B hB).2 ⟨by rw [hAB.2.2.2.2.2.1]; exact h1, fun e => h2 ?_, fun hu hs v hv n => ?_,
      hAB.all (fun f f' e1 e2 e3 hf => by rw [e2]; exact hf) h4⟩
    · have := hAB.2.2.2.2.2.2
      rw [e] at this
      exact List.map_eq_nil_iff.1 this.symm
    · obtain ⟨i, hi⟩ := List.mem_iff_getElem?.1 hv
      obtain ⟨w, hw, ew⟩ := hAB.symm.variant hi
      have et : v.nameless.tag = w.nameless.tag := congrArg (fun w : GenVariant V => w.tag) ew.symm
      rw [show v.tag = w.tag from et]
      exact h3 (by rw [← hAB.2.2.1]; exact hu) (by rw [← hAB.2.2.1]; exact hs) w (List.mem_of_getElem? hw) n
  have both : ∀ {a b : Bool}, (a = true → b = true) → (b = true → a = true) → b = a := by
    intro a b h1 h2
    cases a <;> cases b <;> simp_all
  refine ⟨fun hE hE' => ⟨both (dec h hE hE') (dec h.symm hE' hE), fun ca fa => ?_⟩,
    fun hE hE' => ⟨both (enc h hE hE') (enc h.symm hE' hE), fun ha i v hv hu ws hl ca fa => ?_⟩⟩
  · rw [C83_enum_partial U E' hE', C83_enum_partial U E hE, h.toDef]
  · obtain ⟨v', hv', ev⟩ := h.variant hv
    have el : v'.fields.length = v.fields.length := by
      have := congrArg (fun w : GenVariant V => w.fields.length) ev
      simpa [GenVariant.nameless] using this
    have eu : v'.Unconverted := by
      intro f hf env env' e1 e2 e3
      obtain ⟨j, hj⟩ := List.mem_iff_getElem?.1 hf
      obtain ⟨g, hg, -, eg, -⟩ := nameless_fields ev.symm hj
      rw [← eg]
      refine hu g (List.mem_of_getElem? hg) env env' e1 e2 fun k hk => e3 k ?_
      rintro ⟨f2, hf2, hc⟩
      obtain ⟨g2, hg2, -, eg2, -⟩ := nameless_fields ev.symm hf2
      exact hk ⟨g2, hg2, by rw [eg2]; exact hc⟩
    rw [C83_enum_encode_partial U E' hE' (enc h hE hE' ha) i v' hv' eu ws (by rw [el]; exact hl),
      C83_enum_encode_partial U E hE ha i v hv hu ws hl, h.toDef]

/-! ## Where it fails, and cases of the theorems -/

/-- `enum E { A { #[jbytes(<a>)] <x>: usize, #[jbytes(untake)] next: u8 } }`. -/
def oneVariant (x : Name) (a : FieldAttrs Nat) (vars : List String) : GenEnum Nat :=
  { getVars := vars
    variants := [{ shape := .named
                   fields := [{ name := x, ty := [.ident ['u', 's', 'i', 'z', 'e']]
                                field := { attrs := a, dec := byteCodec, enc := byteEnc, dflt := 0, noneV := 0 } },
                              { name := ['n', 'e', 'x', 't'], ty := [.ident ['u', '8']]
                                field := { attrs := { isUse := true, untake := true }, dec := byteCodec, enc := byteEnc
                                           dflt := 0, noneV := 0 } }] }] }

unseal usizeMod isizeMax in
/-- **C83** is violated by enums: a field called `position` gets the position of the reader, a variable called `r_nbytes` is
added to the number of bytes, and a field must not be called `cr_byte_count`. -/
theorem C83_enum_violated :
    (oneVariant ['a'] {} []).decodeAccepted = true ∧ (oneVariant ['p', 'o', 's', 'i', 't', 'i', 'o', 'n'] {} []).decodeAccepted = true ∧
    ((oneVariant ['a'] {} []).runDecode ⟨id, id⟩ none none ⟨[0, 9, 7, 8], 0⟩).1 = .ok (0, [9, 7]) ∧
    ((oneVariant ['p', 'o', 's', 'i', 't', 'i', 'o', 'n'] {} []).runDecode ⟨id, id⟩ none none ⟨[0, 9, 7, 8], 0⟩).1 = .ok (0, [2, 7]) ∧
    (oneVariant ['a'] {} ["count"]).encodeAccepted = true ∧ (oneVariant ['a'] {} ["r_nbytes"]).encodeAccepted = true ∧
    ((oneVariant ['a'] {} ["count"]).runEncode ⟨id, id⟩ (0, [9, 7]) (some { vars := [("count", 5)] }) none ⟨[], 0⟩) =
      (.ok 2, ⟨[0, 9], 2⟩) ∧
    ((oneVariant ['a'] {} ["r_nbytes"]).runEncode ⟨id, id⟩ (0, [9, 7]) (some { vars := [("r_nbytes", 5)] }) none ⟨[], 0⟩) =
      (.ok 7, ⟨[0, 9], 2⟩) ∧
    (oneVariant ['c', 'r', '_', 'b', 'y', 't', 'e', '_', 'c', 'o', 'u', 'n', 't'] {} []).encodeAccepted = false := by
  refine ⟨rfl, rfl, rfl, rfl, rfl, rfl, rfl, rfl, rfl⟩

/-- **C83** is violated by enums: variables and fields with these names keep the derived functions from compiling; a skipped
field called `buffer` does except where no tag is written. -/
theorem C83_enum_refused :
    (∀ s ∈ ["input", "cattr", "fattr", "cattr_new", "cr", "value"], (oneVariant ['a'] {} [s]).decodeAccepted = false) ∧
    (∀ s ∈ ["buffer", "cattr", "fattr", "cr", "value"], (oneVariant ['a'] {} [s]).encodeAccepted = false) ∧
    (∀ x ∈ [['b', 'u', 'f', 'f', 'e', 'r'], ['c', 'a', 't', 't', 'r'], ['f', 'a', 't', 't', 'r'],
      ['c', 'a', 't', 't', 'r', '_', 'n', 'e', 'w']], (oneVariant x {} []).encodeAccepted = false) ∧
    (∀ m : TagMode, ({ oneVariant ['b', 'u', 'f', 'f', 'e', 'r'] { isUse := true, skip := true } [] with mode := m } :
      GenEnum Nat).encodeAccepted = true ↔ m = .startsWith true) := by
  refine ⟨fun s hs => ?_, fun s hs => ?_, by decide +kernel, fun m => ?_⟩
  · simp only [List.mem_cons, List.not_mem_nil, or_false] at hs
    rcases hs with rfl | rfl | rfl | rfl | rfl | rfl <;> rfl
  · simp only [List.mem_cons, List.not_mem_nil, or_false] at hs
    rcases hs with rfl | rfl | rfl | rfl | rfl <;> rfl
  · rcases m with _ | n | (_ | _)
    · exact ⟨fun h => absurd h (by decide +kernel), (fun h => by cases h)⟩
    · exact ⟨fun h => absurd (show (false : Bool) = true from h) (by decide), (fun h => by cases h)⟩
    · exact ⟨fun h => absurd h (by decide +kernel), (fun h => by cases h)⟩
    · exact ⟨fun _ => rfl, fun _ => by decide +kernel⟩

/-- The text of a number, of one letter. -/
def letterCode : (List Byte → Option Nat) × (Nat → List Byte) := (fun b => b.head?.map (·.toNat), fun n => [UInt8.ofNat n])

theorem oneVariant_hygienic {x : Name} {a : FieldAttrs Nat} {vars : List String} (h : ArmClear x) (hc : Clear x)
    (hn : x ≠ ['n', 'e', 'x', 't']) (hv : vars = []) : (oneVariant x a vars).Hygienic ∧ (oneVariant x a vars).EncHygienic := by
  subst hv
  refine ⟨⟨fun s hs => (by cases hs), fun s hs => (by cases hs), fun v hv => ?_⟩, fun s hs => (by cases hs), fun v hv _ f hf => ?_,
    fun v hv _ => ?_, fun v hv s hs => (by cases hs)⟩
  · simp only [oneVariant, List.mem_cons, List.not_mem_nil, or_false] at hv
    subst hv
    refine ⟨fun _ f hf => ?_, fun _ => ?_, fun s hs => (by cases hs), fun s hs => (by cases hs)⟩
    · simp only [GenVariant.asStruct, List.mem_cons, List.not_mem_nil, or_false] at hf
      rcases hf with rfl | rfl
      · exact hc
      · simp only [Clear]; decide
    · simp [GenVariant.asStruct, hn]
  · simp only [oneVariant, List.mem_cons, List.not_mem_nil, or_false] at hv
    subst hv
    simp only [List.mem_cons, List.not_mem_nil, or_false] at hf
    rcases hf with rfl | rfl
    · exact h
    · simp only [ArmClear, EncClear]; decide
  · simp only [oneVariant, List.mem_cons, List.not_mem_nil, or_false] at hv
    subst hv
    simp [hn]

/-- **C84** is violated by enums: without variants neither function is accepted; the encoder is not with `from_str` on a field
or with an encoder of the enum's own; the decoder is not where the first branch has no word. -/
theorem C84_enum_violated :
    (({ variants := [] } : GenEnum Nat).decodeAccepted = false ∧ ({ variants := [] } : GenEnum Nat).encodeAccepted = false) ∧
    ((oneVariant ['a'] { isUse := true, fromStr := some letterCode } []).decodeAccepted = true ∧
      (oneVariant ['a'] { isUse := true, fromStr := some letterCode } []).encodeAccepted = false) ∧
    ({ oneVariant ['a'] {} [] with withEncode := some fun _ _ _ => pushU8 0 } : GenEnum Nat).encodeAccepted = false ∧
    ({ oneVariant ['a'] {} [] with mode := .startsWith false } : GenEnum Nat).decodeAccepted = false := by
  refine ⟨⟨rfl, rfl⟩, ⟨rfl, rfl⟩, rfl, rfl⟩

/-- A case of `C83_enum_rename_partial`: `a` may be called `b`. -/
example : (oneVariant ['a'] {} []).SameButNames (oneVariant ['b'] {} []) ∧ (oneVariant ['b'] {} []).Hygienic ∧
    (oneVariant ['b'] {} []).EncHygienic :=
  ⟨⟨rfl, rfl, rfl, rfl, rfl, rfl, rfl⟩, oneVariant_hygienic (x := ['b']) (a := {}) (by simp only [ArmClear, EncClear]; decide)
    (by simp only [Clear]; decide) (by decide) (rfl : ([] : List String) = [])⟩

/-- Cases of `C83_enum_partial`, `C84_enum_iff`, `C83_enum_encode_partial` and `C84_enum_encode_iff`. -/
example : (oneVariant ['a'] {} []).Hygienic ∧ (oneVariant ['a'] {} []).EncHygienic ∧ (oneVariant ['a'] {} []).encodeAccepted = true ∧
    ∃ v, (oneVariant ['a'] {} []).variants[0]? = some v ∧ v.Unconverted ∧ [9, 7].length = v.fields.length := by
  obtain ⟨h1, h2⟩ := oneVariant_hygienic (x := ['a']) (a := {}) (by simp only [ArmClear, EncClear]; decide)
    (by simp only [Clear]; decide) (by decide) (rfl : ([] : List String) = [])
  refine ⟨h1, h2, rfl, _, rfl, fun f hf env env' _ _ _ => ?_, rfl⟩
  simp only [List.mem_cons, List.not_mem_nil, or_false] at hf
  rcases hf with rfl | rfl
  · exact ⟨rfl, rfl⟩
  · exact ⟨rfl, rfl⟩

/-- **C83**: the names that the theorems above except are these.  In decoders fields and variables must not be called
`input`, `cattr_new`, `cattr_new2`, `fattr_new` or `position`; in encoders converted fields and variables not `buffer`,
`cattr_new`, `fattr_new` or `r_nbytes`, and in those of enums no field may, nor be called `cattr`, `fattr` or
`cr_byte_count`; the other names that variables must not have are `cattr`, `fattr`, `cr`, `value`, `data`, `cr_byte_count` and
those of the unnamed fields, `v0`, `v1` and so on. -/
theorem C83_names (x : Name) (i : Nat) :
    (Clear x ↔ x ∉ [['i', 'n', 'p', 'u', 't'],
      ['c', 'a', 't', 't', 'r', '_', 'n', 'e', 'w'],
      ['c', 'a', 't', 't', 'r', '_', 'n', 'e', 'w', '2'],
      ['f', 'a', 't', 't', 'r', '_', 'n', 'e', 'w'],
      ['p', 'o', 's', 'i', 't', 'i', 'o', 'n']]) ∧
    (EncClear x ↔ x ∉ [['b', 'u', 'f', 'f', 'e', 'r'],
      ['c', 'a', 't', 't', 'r', '_', 'n', 'e', 'w'],
      ['f', 'a', 't', 't', 'r', '_', 'n', 'e', 'w'],
      ['r', '_', 'n', 'b', 'y', 't', 'e', 's']]) ∧
    (ArmClear x ↔ x ∉ [['b', 'u', 'f', 'f', 'e', 'r'],
      ['c', 'a', 't', 't', 'r', '_', 'n', 'e', 'w'],
      ['f', 'a', 't', 't', 'r', '_', 'n', 'e', 'w'],
      ['r', '_', 'n', 'b', 'y', 't', 'e', 's'],
      ['c', 'a', 't', 't', 'r'],
      ['f', 'a', 't', 't', 'r'],
      ['c', 'r', '_', 'b', 'y', 't', 'e', '_', 'c', 'o', 'u', 'n', 't']]) ∧
    [nCattr, nFattr, nCr, nValue, nData, nByteCount] = [['c', 'a', 't', 't', 'r'],
      ['f', 'a', 't', 't', 'r'],
      ['c', 'r'],
      ['v', 'a', 'l', 'u', 'e'],
      ['d', 'a', 't', 'a'],
      ['c', 'r', '_', 'b', 'y', 't', 'e', '_', 'c', 'o', 'u', 'n', 't']] ∧
    tupleLocal i = 'v' :: Nat.toDigits 10 i := by
  refine ⟨?_, ?_, ?_, rfl, rfl⟩
  · simp only [List.mem_cons, List.not_mem_nil, or_false, not_or]
    exact Iff.rfl
  · simp only [List.mem_cons, List.not_mem_nil, or_false, not_or]
    exact Iff.rfl
  · simp only [List.mem_cons, List.not_mem_nil, or_false, not_or]
    exact ⟨fun ⟨⟨a, b, c, d⟩, e, f, g⟩ => ⟨a, b, c, d, e, f, g⟩, fun ⟨a, b, c, d, e, f, g⟩ => ⟨⟨a, b, c, d⟩, e, f, g⟩⟩

end JBytes
