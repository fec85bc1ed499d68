import Verif.PropAppend
/-!
# C115 for lists at the end of nested messages
-/

namespace JBytes
open M

variable {α β γ V : Type}

/-- Whatever `X` wrote: running `add` behind it and writing `t` over what stands `q` bytes from the start of the message gives
what `X'` writes; `q` is the same in all buffers, and `t` stands inside of what `X` wrote. -/
def Lengthens (X X' add : M Nat) (t : List Byte) : Prop :=
  ∃ q, ∀ (b b' b1 : Buf) (n k : Nat), b.pos ≤ b.data.length → b.data.length ≤ isizeMax → X b = (.ok n, b') → add b' = (.ok k, b1) →
    b.pos + q + t.length ≤ b'.pos ∧ ∃ m, X' b = (.ok m, ⟨overwritten b1.data (b.pos + q) t, b1.pos⟩)

theorem Lengthens.after {A : M γ} {P : γ → Prop} {X X' : M Nat} {add : M Nat} {t : List Byte} (g : γ → Nat → Nat) (hA : Placed P A)
    (h : Lengthens X X' add t) :
    Lengthens (A >>= fun i => X >>= fun j => (Pure.pure (g i j) : M Nat)) (A >>= fun i => X' >>= fun j => (Pure.pure (g i j) : M Nat))
      add t := by
  obtain ⟨q, h⟩ := h
  rcases hA with ⟨a, w, _, hw⟩ | hn
  · refine ⟨w.length + q, fun b b' b1 n k hp hs he hr => ?_⟩
    have hb : b.Ok := ⟨hp, hs⟩
    obtain ⟨i, c, e1, e2⟩ := bind_ok he
    have hroom : b.pos + w.length ≤ isizeMax := Nat.le_of_not_lt fun hr => (hw b hb).2 hr i c e1
    have e1' := (hw b hb).1 hroom
    rw [e1] at e1'
    cases e1'
    obtain ⟨j, c', e3, e4⟩ := bind_ok e2
    cases e4
    have ok := window_ok hb w hroom
    obtain ⟨hq, m, hm⟩ := h _ b' b1 j k ok.1 ok.2 e3 hr
    refine ⟨by simpa only [window, Nat.add_assoc] using hq, g a m, ?_⟩
    rw [bind_apply, e1]
    simp only
    rw [bind_apply, hm]
    simp [pure_apply, window, Nat.add_assoc]
  · refine ⟨0, fun b b' b1 n k hp hs he hr => ?_⟩
    obtain ⟨i, c, e1, _⟩ := bind_ok he
    exact absurd e1 (hn b ⟨hp, hs⟩ i c)

theorem Lengthens.congr {X X' Y Y' add : M Nat} {t : List Byte} (h : Lengthens X X' add t) (e : ∀ b, Y b = X b) (e' : ∀ b, Y' b = X' b) :
    Lengthens Y Y' add t := by
  obtain ⟨q, h⟩ := h
  exact ⟨q, fun b b' b1 n k hp hs he hr => by rw [e]at he; rw [e']; exact h b b' b1 n k hp hs he hr⟩

theorem Lengthens.counted {X X' add : M Nat} {t : List Byte} (g : Nat → Nat) (h : Lengthens X X' add t) :
    Lengthens (X >>= fun j => (Pure.pure (g j) : M Nat)) (X' >>= fun j => (Pure.pure (g j) : M Nat)) add t :=
  (h.after (fun _ => g) (Placed.logic.pure () trivial : Placed Any (Pure.pure () : M Unit))).congr
    (fun b => by simp only [bind_apply, pure_apply]) (fun b => by simp only [bind_apply, pure_apply])

/-- Whatever `X'` wrote: writing `u` over what stands `q` bytes from the start of the message, and going back to where `add`
begins, gives what `X` writes. -/
def Shortens (X' X add : M Nat) (u : List Byte) : Prop :=
  ∃ q, ∀ (b b' : Buf) (n : Nat), b.pos ≤ b.data.length → b.data.length ≤ isizeMax → X' b = (.ok n, b') →
    ∃ m b1, X b = (.ok m, b1) ∧ b.pos + q + u.length ≤ b1.pos ∧ b1.pos ≤ b'.pos ∧
      b1.data.take b1.pos = (overwritten b'.data (b.pos + q) u).take b1.pos ∧ ∃ k, add ⟨b'.data, b1.pos⟩ = (.ok k, b')

theorem Shortens.after {A : M γ} {P : γ → Prop} {X' X add : M Nat} {u : List Byte} (g : γ → Nat → Nat) (hA : Placed P A)
    (h : Shortens X' X add u) :
    Shortens (A >>= fun i => X' >>= fun j => (Pure.pure (g i j) : M Nat)) (A >>= fun i => X >>= fun j => (Pure.pure (g i j) : M Nat))
      add u := by
  obtain ⟨q, h⟩ := h
  rcases hA with ⟨a, w, _, hw⟩ | hn
  · refine ⟨w.length + q, fun b b' n hp hs he => ?_⟩
    have hb : b.Ok := ⟨hp, hs⟩
    obtain ⟨i, c, e1, e2⟩ := bind_ok he
    have hroom : b.pos + w.length ≤ isizeMax := Nat.le_of_not_lt fun hr => (hw b hb).2 hr i c e1
    have e1' := (hw b hb).1 hroom
    rw [e1] at e1'
    cases e1'
    obtain ⟨j, c', e3, e4⟩ := bind_ok e2
    cases e4
    have ok := window_ok hb w hroom
    obtain ⟨m, b1, h1, h2, h3, h4, h5⟩ := h _ b' j ok.1 ok.2 e3
    have hpos : (window b w).pos + q = b.pos + (w.length + q) := by simp only [window, Nat.add_assoc]
    rw [hpos] at h2 h4
    refine ⟨g a m, b1, ?_, h2, h3, h4, h5⟩
    rw [bind_apply, e1]
    simp only
    rw [bind_apply, h1]
    rfl
  · refine ⟨0, fun b b' n hp hs he => ?_⟩
    obtain ⟨i, c, e1, _⟩ := bind_ok he
    exact absurd e1 (hn b ⟨hp, hs⟩ i c)

theorem Shortens.congr {X X' Y Y' add : M Nat} {u : List Byte} (h : Shortens X' X add u) (e' : ∀ b, Y' b = X' b) (e : ∀ b, Y b = X b) :
    Shortens Y' Y add u := by
  obtain ⟨q, h⟩ := h
  exact ⟨q, fun b b' n hp hs he => by rw [e'] at he; rw [e]; exact h b b' n hp hs he⟩

theorem Shortens.counted {X' X add : M Nat} {u : List Byte} (g : Nat → Nat) (h : Shortens X' X add u) :
    Shortens (X' >>= fun j => (Pure.pure (g j) : M Nat)) (X >>= fun j => (Pure.pure (g j) : M Nat)) add u :=
  (h.after (fun _ => g) (Placed.logic.pure () trivial : Placed Any (Pure.pure () : M Unit))).congr
    (fun b => by simp only [bind_apply, pure_apply]) (fun b => by simp only [bind_apply, pure_apply])

/-- Values that differ in a list at their end.  `v` is the value, `w` the longer one, `add` writes what is new, `t` are the
bytes of the longer count and `u` those of the shorter one; under the modifiers `G`. -/
inductive Growth (c : Bool) : (α : Type) → Enc α → α → α → (Option CAttr → Option FAttr → M Nat) →
    (Option CAttr → Option FAttr → List Byte) → (Option CAttr → Option FAttr → List Byte) →
    (Option CAttr → Option FAttr → Prop) → Prop where
  | vec {α : Type} {e : Enc α} (l r : List α) : Encodable c α e → Growth c (List α) (encVec e) l (l ++ r)
      (fun ca fa => encArray e r ca fa) (fun ca fa => countField ca fa (l.length + r.length)) (fun ca fa => countField ca fa l.length)
      (fun _ fa => StartsWord fa ∧ fa.bind (·.loopSkipStarts) = none)
  | map {α β : Type} {ek : Enc α} {ev : Enc β} (l r : List (α × β)) : Encodable c α ek → Encodable c β ev →
      Growth c (List (α × β)) (encMap ek ev) l (l ++ r) (fun ca fa => encArray (pairEnc ek ev) r ca fa)
        (fun ca fa => countField ca fa (l.length + r.length)) (fun ca fa => countField ca fa l.length) (fun _ fa => StartsWord (keyFattr fa) ∧ StartsWord (valFattr fa))
  | bytes (l r : List Byte) : Growth c (List Byte) encBytes l (l ++ r) (fun _ _ => push r)
      (fun ca fa => lengthField ca fa (l.length + r.length)) (fun ca fa => lengthField ca fa l.length) (fun _ fa => encBytesEnd fa = none)
  | project {α β : Type} {e : Enc α} {a a' : α} {add : Option CAttr → Option FAttr → M Nat} {t u : Option CAttr → Option FAttr → List Byte}
      {G : Option CAttr → Option FAttr → Prop} (g : β → Option α) (v v' : β) : g v = some a → g v' = some a' →
      Growth c α e a a' add t u G → Growth c β (fun v ca fa => encOption e (g v) ca fa) v v' add t u G
  /-- The last component of a tuple. -/
  | tuple {α : Type} {e : Enc α} {a a' : α} {add : Option CAttr → Option FAttr → M Nat} {t u : Option CAttr → Option FAttr → List Byte}
      {G : Option CAttr → Option FAttr → Prop} (es : List (Enc α)) (as : List α) : (∀ e ∈ es, Encodable c α e) →
      as.length = es.length → Growth c α e a a' add t u G →
      Growth c (List α) (encTuple (es ++ [e])) (as ++ [a]) (as ++ [a']) add t u (fun ca fa => G ca fa ∧ StartsWord fa)
  /-- The last field of a struct. -/
  | struct {V : Type} (S : StructDef V) (fs : List (Field V)) (f : Field V) (vs : List V) {v v' : V}
      {add : Option CAttr → Option FAttr → M Nat} {t u : Option CAttr → Option FAttr → List Byte}
      {G : Option CAttr → Option FAttr → Prop} : S.withEncode = none → S.fields = fs ++ [f] →
      (∀ g ∈ fs, EncOk c g.attrs ∧ Encodable c V g.enc) → Direct f.attrs → f.attrs.valueEncode = none → vs.length = fs.length →
      Growth c V f.enc v v' add t u G →
      Growth c (List V) (encStruct S) (vs ++ [v]) (vs ++ [v'])
        (fun ca _ => add S.container (modsOf f.attrs { vars := localVars S.getVars ca, fields := vs }))
        (fun ca _ => t S.container (modsOf f.attrs { vars := localVars S.getVars ca, fields := vs }))
        (fun ca _ => u S.container (modsOf f.attrs { vars := localVars S.getVars ca, fields := vs }))
        (fun ca _ => G S.container (modsOf f.attrs { vars := localVars S.getVars ca, fields := vs }))
  /-- The last field of a variant. -/
  | enum {V : Type} (E : EnumDef V) (i num : Nat) (w : Variant V) (fs : List (Field V)) (f : Field V) (vs : List V) {v v' : V}
      {add : Option CAttr → Option FAttr → M Nat} {t u : Option CAttr → Option FAttr → List Byte}
      {G : Option CAttr → Option FAttr → Prop} : (E.variants.zip E.numbers)[i]? = some (w, num) → Settled w →
      w.fields = fs ++ [f] →
      (∀ g ∈ fs, EncOk c g.attrs ∧ Encodable c V g.enc) → Direct f.attrs → f.attrs.valueEncode = none → vs.length = fs.length →
      Growth c V f.enc v v' add t u G →
      Growth c (Nat × List V) (encEnum E) (i, vs ++ [v]) (i, vs ++ [v'])
        (fun ca _ => add E.container (modsOf f.attrs { vars := localVars E.getVars ca, fields := vs }))
        (fun ca _ => t E.container (modsOf f.attrs { vars := localVars E.getVars ca, fields := vs }))
        (fun ca _ => u E.container (modsOf f.attrs { vars := localVars E.getVars ca, fields := vs }))
        (fun ca _ => G E.container (modsOf f.attrs { vars := localVars E.getVars ca, fields := vs }))

theorem encFields_last {fs : List (Field V)} {f : Field V} {vs : List V} {ca : Option CAttr} {env : Env V} (hd : Direct f.attrs)
    (hv : f.attrs.valueEncode = none) (hl : vs.length = fs.length) (v : V) (b : Buf) :
    encFields false (fs ++ [f]) ca none env (vs ++ [v]) b = (encFields false fs ca none env vs >>= fun i =>
      (padOffset f.attrs (env.extend vs) >>= fun _ => f.enc v ca (modsOf f.attrs (env.extend vs)) >>= fun j =>
        (Pure.pure j : M Nat)) >>= fun j => (Pure.pure (i + (j + 0)) : M Nat)) b := by
  rw [encFields_append fs [f] _ _ vs [v] hl.symm, bind_apply, bind_apply]
  rcases encFields false fs ca none env vs b with ⟨o, c1⟩
  cases o with
  | ok i =>
    simp only
    rw [bind_apply, encFields_cons, bind_apply, hd.fieldEnc]
    simp only [handedOn, hv, bind_apply, pure_apply, encFields]
    rcases padOffset f.attrs (env.extend vs) c1 with ⟨o, c2⟩
    cases o with
    | ok j =>
      simp only
      rcases f.enc v ca (modsOf f.attrs (env.extend vs)) c2 with ⟨o, c3⟩
      cases o <;> rfl
    | _ => rfl
  | _ => rfl

theorem lengthens_fields {c : Bool} {fs : List (Field V)} {f : Field V} {vs : List V} {v v' : V} {ca : Option CAttr} {env : Env V}
    {add : M Nat} {t : List Byte} (hS : ∀ g ∈ fs, EncOk c g.attrs ∧ Encodable c V g.enc) (hd : Direct f.attrs)
    (hv : f.attrs.valueEncode = none) (hl : vs.length = fs.length)
    (h : Lengthens (f.enc v ca (modsOf f.attrs (env.extend vs))) (f.enc v' ca (modsOf f.attrs (env.extend vs))) add t) :
    Lengthens (encFields false (fs ++ [f]) ca none env (vs ++ [v])) (encFields false (fs ++ [f]) ca none env (vs ++ [v'])) add t := by
  have hw := fun v => encFields_last (ca := ca) (env := env) hd hv hl v
  exact ((h.after (fun _ j => j) (Placed.logic.padOffset f.attrs (env.extend vs))).after (fun i j => i + (j + 0))
    (encFields_placed (c := c) fs hS ca env vs)).congr (hw v) (hw v')

theorem shortens_fields {c : Bool} {fs : List (Field V)} {f : Field V} {vs : List V} {v v' : V} {ca : Option CAttr} {env : Env V}
    {add : M Nat} {t : List Byte} (hS : ∀ g ∈ fs, EncOk c g.attrs ∧ Encodable c V g.enc) (hd : Direct f.attrs)
    (hv : f.attrs.valueEncode = none) (hl : vs.length = fs.length)
    (h : Shortens (f.enc v' ca (modsOf f.attrs (env.extend vs))) (f.enc v ca (modsOf f.attrs (env.extend vs))) add t) :
    Shortens (encFields false (fs ++ [f]) ca none env (vs ++ [v'])) (encFields false (fs ++ [f]) ca none env (vs ++ [v])) add t := by
  have hw := fun v => encFields_last (ca := ca) (env := env) hd hv hl v
  exact ((h.after (fun _ j => j) (Placed.logic.padOffset f.attrs (env.extend vs))).after (fun i j => i + (j + 0))
    (encFields_placed (c := c) fs hS ca env vs)).congr (hw v') (hw v)

theorem encEnum_last {E : EnumDef V} {i num : Nat} {w : Variant V} {fs : List (Field V)} {f : Field V} {vs : List V} (ca : Option CAttr)
    (fa : Option FAttr) (hi : (E.variants.zip E.numbers)[i]? = some (w, num)) (hu : Settled w) (hf : w.fields = fs ++ [f]) (v : V) (b : Buf) :
    encEnum E (i, vs ++ [v]) ca fa b = (encTagMode E w num ca fa >>= fun n =>
        (padOffset w.attrs { vars := localVars E.getVars ca } >>= fun _ =>
          encFields false (fs ++ [f]) E.container none { vars := localVars E.getVars ca } (vs ++ [v]) >>= fun j =>
            (Pure.pure j : M Nat)) >>= fun m => (Pure.pure (n + m) : M Nat)) b := by
  have hs := encFields_settled w.fields E.container (modsOf w.attrs { vars := localVars E.getVars ca })
    { vars := localVars E.getVars ca } (vs ++ [v]) (hu.2.1.imp_left fun h => by simp [modsOf, h]) hu.2.2
  unfold encEnum
  simp only [hi, encVariant, toCode_literal hu.1, bind_apply, pure_apply, hs]
  rcases encTagMode E w num ca fa b with ⟨o, c1⟩
  cases o with
  | ok n =>
    simp only
    rcases padOffset w.attrs { vars := localVars E.getVars ca } c1 with ⟨o, c2⟩
    cases o with
    | ok _ =>
      simp only [hf]
      rcases encFields false (fs ++ [f]) E.container none { vars := localVars E.getVars ca } (vs ++ [v]) c2 with ⟨o, c3⟩
      cases o <;> rfl
    | _ => rfl
  | _ => rfl

theorem Growth.lengthens {c : Bool} {e : Enc α} {v v' : α} {add : Option CAttr → Option FAttr → M Nat}
    {t u : Option CAttr → Option FAttr → List Byte} {G : Option CAttr → Option FAttr → Prop} (h : Growth c α e v v' add t u G)
    (ca : Option CAttr) (fa : Option FAttr) (hG : G ca fa) : Lengthens (e v ca fa) (e v' ca fa) (add ca fa) (t ca fa) := by
  induction h generalizing ca fa with
  | vec l r he =>
    exact ⟨0, fun b b' b1 n k hp hs h1 h2 => C115_list_partial c _ he ca fa hG.1 hG.2 l r b b' b1 hp hs n k h1 h2⟩
  | map l r hk hv =>
    exact ⟨0, fun b b' b1 n k hp hs h1 h2 => C115_map_partial c _ _ hk hv ca fa hG.1 hG.2 l r b b' b1 hp hs n k h1 h2⟩
  | bytes l r =>
    refine ⟨((fa.bind (·.key)).getD []).length + ((fa.bind (·.split)).getD []).length, fun b b' b1 n k hp hs h1 h2 => ?_⟩
    obtain ⟨hq, m, hm⟩ := C115_bytes_partial ca fa hG l r b b' b1 hp hs n k h1 h2
    exact ⟨by simpa only [Nat.add_assoc] using hq, m, by rw [hm, Nat.add_assoc]⟩
  | project g v v' hv hv' _ ih =>
    simp only [hv, hv', encOption]
    exact ih ca fa hG
  | tuple es as hes hl _ ih =>
    have hg := ih ca fa hG.1
    clear ih
    induction es generalizing as with
    | nil =>
      cases as with
      | nil =>
        refine (hg.counted (· + 0)).congr (fun b => ?_) (fun b => ?_) <;>
          simp only [List.nil_append, encTuple, bind_apply, pure_apply]
      | cons _ _ => cases hl
    | cons e0 es ih2 =>
      cases as with
      | nil => cases hl
      | cons a0 as =>
        exact (ih2 as (fun e h => hes e (by simp [h])) (Nat.succ.inj hl)).after (fun i j => i + j)
          ((hes e0 (by simp)).placed a0 ca fa hG.2)
  | struct S fs f vs hw hf hS hd hv hl _ ih =>
    have hg := ih S.container (modsOf f.attrs { vars := localVars S.getVars ca, fields := vs }) hG
    have hx : ({ vars := localVars S.getVars ca } : Env _).extend vs = { vars := localVars S.getVars ca, fields := vs } := by
      simp [Env.extend]
    rw [← hx] at hg
    have := lengthens_fields hS hd hv hl hg
    rw [hx] at this
    unfold encStruct
    simp only [hw, hf]
    exact this
  | enum E i num u fs f vs hi hu hf hS hd hv hl _ ih =>
    have hg := ih E.container (modsOf f.attrs { vars := localVars E.getVars ca, fields := vs }) hG
    have hx : ({ vars := localVars E.getVars ca } : Env _).extend vs = { vars := localVars E.getVars ca, fields := vs } := by
      simp [Env.extend]
    rw [← hx] at hg
    have hg2 := lengthens_fields hS hd hv hl hg
    rw [hx] at hg2
    have hw := fun v => encEnum_last (vs := vs) ca fa hi hu hf v
    exact ((hg2.after (fun _ j => j) (Placed.logic.padOffset u.attrs _)).after (fun n m => n + m)
      (Placed.logic.encTagMode E u num ca fa)).congr (hw _) (hw _)

theorem Growth.shortens {c : Bool} {e : Enc α} {v v' : α} {add : Option CAttr → Option FAttr → M Nat}
    {t u : Option CAttr → Option FAttr → List Byte} {G : Option CAttr → Option FAttr → Prop} (h : Growth c α e v v' add t u G)
    (ca : Option CAttr) (fa : Option FAttr) (hG : G ca fa) : Shortens (e v' ca fa) (e v ca fa) (add ca fa) (u ca fa) := by
  induction h generalizing ca fa with
  | vec l r he =>
    exact ⟨0, fun b b' n hp hs h1 => C115_shrink_partial c _ he ca fa hG.1 hG.2 l r b b' hp hs n h1⟩
  | map l r hk hv =>
    exact ⟨0, fun b b' n hp hs h1 => C115_shrink_map_partial c _ _ hk hv ca fa hG.1 hG.2 l r b b' hp hs n h1⟩
  | bytes l r =>
    refine ⟨((fa.bind (·.key)).getD []).length + ((fa.bind (·.split)).getD []).length, fun b b' n hp hs h1 => ?_⟩
    have := C115_shrink_bytes_partial ca fa hG l r b b' hp hs n h1
    simpa only [Nat.add_assoc] using this
  | project g v v' hv hv' _ ih =>
    simp only [hv, hv', encOption]
    exact ih ca fa hG
  | tuple es as hes hl _ ih =>
    have hg := ih ca fa hG.1
    clear ih
    induction es generalizing as with
    | nil =>
      cases as with
      | nil =>
        refine (hg.counted (· + 0)).congr (fun b => ?_) (fun b => ?_) <;>
          simp only [List.nil_append, encTuple, bind_apply, pure_apply]
      | cons _ _ => cases hl
    | cons e0 es ih2 =>
      cases as with
      | nil => cases hl
      | cons a0 as =>
        exact (ih2 as (fun e h => hes e (by simp [h])) (Nat.succ.inj hl)).after (fun i j => i + j)
          ((hes e0 (by simp)).placed a0 ca fa hG.2)
  | struct S fs f vs hw hf hS hd hv hl _ ih =>
    have hg := ih S.container (modsOf f.attrs { vars := localVars S.getVars ca, fields := vs }) hG
    have hx : ({ vars := localVars S.getVars ca } : Env _).extend vs = { vars := localVars S.getVars ca, fields := vs } := by
      simp [Env.extend]
    rw [← hx] at hg
    have := shortens_fields hS hd hv hl hg
    rw [hx] at this
    unfold encStruct
    simp only [hw, hf]
    exact this
  | enum E i num u fs f vs hi hu hf hS hd hv hl _ ih =>
    have hg := ih E.container (modsOf f.attrs { vars := localVars E.getVars ca, fields := vs }) hG
    have hx : ({ vars := localVars E.getVars ca } : Env _).extend vs = { vars := localVars E.getVars ca, fields := vs } := by
      simp [Env.extend]
    rw [← hx] at hg
    have hg2 := shortens_fields hS hd hv hl hg
    rw [hx] at hg2
    have hw := fun v => encEnum_last (vs := vs) ca fa hi hu hf v
    exact ((hg2.after (fun _ j => j) (Placed.logic.padOffset u.attrs _)).after (fun n m => n + m)
      (Placed.logic.encTagMode E u num ca fa)).congr (hw _) (hw _)

/-- C115 (nested): a list, map or byte string that is the last thing in a message, at any depth of structs, tuples and
enums, is extended by writing what is new behind the message and the new number over the old count.  The count stands at the
same distance `q` from the start of the message in all buffers, inside of the old message. -/
theorem C115_nested_partial (c : Bool) (e : Enc α) (v v' : α) (add : Option CAttr → Option FAttr → M Nat)
    (t u : Option CAttr → Option FAttr → List Byte) (G : Option CAttr → Option FAttr → Prop) (h : Growth c α e v v' add t u G)
    (ca : Option CAttr) (fa : Option FAttr) (hG : G ca fa) :
    ∃ q, ∀ (b b' b1 : Buf) (n k : Nat), b.pos ≤ b.data.length → b.data.length ≤ isizeMax → e v ca fa b = (.ok n, b') →
      add ca fa b' = (.ok k, b1) →
      b.pos + q + (t ca fa).length ≤ b'.pos ∧ ∃ m, e v' ca fa b = (.ok m, ⟨overwritten b1.data (b.pos + q) (t ca fa), b1.pos⟩) :=
  h.lengthens ca fa hG

/-- C115 (taking away, nested): the last elements of what is the last thing in a message are taken away by writing the smaller
number over the count and going back to where they begin. -/
theorem C115_shrink_nested_partial (c : Bool) (e : Enc α) (v v' : α) (add : Option CAttr → Option FAttr → M Nat)
    (t u : Option CAttr → Option FAttr → List Byte) (G : Option CAttr → Option FAttr → Prop) (h : Growth c α e v v' add t u G)
    (ca : Option CAttr) (fa : Option FAttr) (hG : G ca fa) :
    ∃ q, ∀ (b b' : Buf) (n : Nat), b.pos ≤ b.data.length → b.data.length ≤ isizeMax → e v' ca fa b = (.ok n, b') →
      ∃ m b1, e v ca fa b = (.ok m, b1) ∧ b.pos + q + (u ca fa).length ≤ b1.pos ∧ b1.pos ≤ b'.pos ∧
        b1.data.take b1.pos = (overwritten b'.data (b.pos + q) (u ca fa)).take b1.pos ∧
        ∃ k, add ca fa ⟨b'.data, b1.pos⟩ = (.ok k, b') :=
  h.shortens ca fa hG

/-! ## Instance -/

/-- A message that is a ping or a journal. -/
def journalField : Field (List Val) := ⟨{}, fun _ _ => Pure.pure [], encStruct journal, [], []⟩

def station : EnumDef (List Val) := {
  container := some { byteCount := some 2 }
  variants := [{ name := [97] }, { name := [98], disc := some 300, fields := [] ++ [journalField] }] }

theorem station_growth (x : Nat) (l r : List Byte) : ∃ G : Option CAttr → Option FAttr → Prop, G none none ∧
    Growth true (Nat × List (List Val)) (encEnum station) (1, [[.num x, .bytes l]]) (1, [[.num x, .bytes (l ++ r)]])
      (fun _ _ => encArray entryEnc r none (some { byteCountOutside := some 4 })) (fun _ _ => toBytes .be 4 (l.length + r.length))
      (fun _ _ => toBytes .be 4 l.length) G := by
  have hj := Growth.struct (c := true) journal [u16Field {}] journalList [.num x] rfl rfl
    (by
      intro g hg
      rcases List.mem_singleton.1 hg with rfl
      exact ⟨encOk_plain _, numEnc_encodable _ _⟩)
    ⟨rfl, rfl, rfl, rfl, rfl, (fun _ h => nomatch h)⟩ rfl rfl
    (Growth.project (fun v => some (listed v)) (.bytes l) (.bytes (l ++ r)) rfl rfl (.vec l r (entryEnc_encodable true)))
  exact ⟨_, ⟨by intro a h; cases h; exact .inl rfl, rfl⟩,
    Growth.enum station 1 300 { name := [98], disc := some 300, fields := [] ++ [journalField] } [] journalField [] rfl
      ⟨(fun _ h => nomatch h), .inl rfl, by simp⟩ rfl (fun g hg => nomatch hg) direct_plain rfl rfl hj⟩

/-- C115 on `station`: the entries of the journal inside the message. -/
example (x : Nat) (l r : List Byte) : ∃ q, ∀ (b b' b1 : Buf) (n k : Nat), b.pos ≤ b.data.length → b.data.length ≤ isizeMax →
    encEnum station (1, [[.num x, .bytes l]]) none none b = (.ok n, b') →
    encArray entryEnc r none (some { byteCountOutside := some 4 }) b' = (.ok k, b1) →
    b.pos + q + 4 ≤ b'.pos ∧ ∃ m, encEnum station (1, [[.num x, .bytes (l ++ r)]]) none none b =
      (.ok m, ⟨overwritten b1.data (b.pos + q) (toBytes .be 4 (l.length + r.length)), b1.pos⟩) := by
  obtain ⟨G, hG, h⟩ := station_growth x l r
  have := C115_nested_partial true _ _ _ _ _ _ _ h none none hG
  simpa only [toBytes_length] using this

/-- The last entries are taken away. -/
example (x : Nat) (l r : List Byte) : ∃ q, ∀ (b b' : Buf) (n : Nat), b.pos ≤ b.data.length → b.data.length ≤ isizeMax →
    encEnum station (1, [[.num x, .bytes (l ++ r)]]) none none b = (.ok n, b') →
    ∃ m b1, encEnum station (1, [[.num x, .bytes l]]) none none b = (.ok m, b1) ∧ b.pos + q + 4 ≤ b1.pos ∧ b1.pos ≤ b'.pos ∧
      b1.data.take b1.pos = (overwritten b'.data (b.pos + q) (toBytes .be 4 l.length)).take b1.pos ∧
      ∃ k, encArray entryEnc r none (some { byteCountOutside := some 4 }) ⟨b'.data, b1.pos⟩ = (.ok k, b') := by
  obtain ⟨G, hG, h⟩ := station_growth x l r
  have := C115_shrink_nested_partial true _ _ _ _ _ _ _ h none none hG
  simpa only [toBytes_length] using this

example : (encEnum station (1, [[.num 1, .bytes [5]]]) none none ⟨[], 0⟩).2 = ⟨[1, 44, 0, 1, 0, 0, 0, 1, 5], 9⟩ ∧
    overwritten [1, 44, 0, 1, 0, 0, 0, 1, 5, 6] 4 (toBytes .be 4 2) = [1, 44, 0, 1, 0, 0, 0, 2, 5, 6] ∧
    (encEnum station (1, [[.num 1, .bytes [5, 6]]]) none none ⟨[], 0⟩).2 = ⟨[1, 44, 0, 1, 0, 0, 0, 2, 5, 6], 10⟩ := by decide +kernel

end JBytes
