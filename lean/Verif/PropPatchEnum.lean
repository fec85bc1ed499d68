import Verif.PropPatch
/-!
# C113 for the fields of an enum variant
-/

namespace JBytes
open M

variable {α β γ V : Type}

/-- `patch_middle` where the first part hands something on. -/
theorem patch_middle_on {A : M γ} {Q : γ → Prop} {F : γ → α → M Nat} {R : γ → M Nat} {W : α → M Nat}
    (g : γ → Nat → Nat → Nat) (hA : Placed Q A) (hF : ∀ c, Q c → ∀ x, Placed Any (F c x)) (hR : ∀ c, Q c → Placed Any (R c))
    (hW : ∀ x b, W x b = (A >>= fun c => F c x >>= fun j => R c >>= fun k => (Pure.pure (g c j k) : M Nat)) b)
    {b b' : Buf} {n : Nat} (hb : b.Ok) (v : α) (he : W v b = (.ok n, b')) :
    ∃ c p q d, b.pos ≤ p ∧ p ≤ q ∧ q ≤ b'.pos ∧ A b = (.ok c, ⟨d, p⟩) ∧
      (∃ k, F c v ⟨b'.data, p⟩ = (.ok k, ⟨b'.data, q⟩)) ∧
      ∀ x k b2, F c x ⟨b'.data, p⟩ = (.ok k, b2) → b2.pos = q → ∃ m, W x b = (.ok m, ⟨b2.data, b'.pos⟩) := by
  have he0 := he
  rw [hW] at he
  obtain ⟨c, b1, e1, _⟩ := bind_ok he
  have hQ : Q c := by
    rcases hA with ⟨a, w, ha, hw⟩ | hn
    · have hr : b.pos + w.length ≤ isizeMax := Nat.le_of_not_lt fun hr => (hw b hb).2 hr c b1 e1
      have h1 := (hw b hb).1 hr
      rw [e1] at h1
      cases h1
      exact ha
    · exact absurd e1 (hn b hb c b1)
  have hA' : Placed Any (A >>= fun c => (Pure.pure 0 : M Nat)) :=
    Placed.logic.bind hA fun _ _ => Placed.logic.pure _ trivial
  have hA0 : (A >>= fun c => (Pure.pure 0 : M Nat)) b = (.ok 0, b1) := by rw [bind_apply, e1]; rfl
  have key := patch_middle (A := A >>= fun c => (Pure.pure 0 : M Nat)) (F := F c) (R := R c)
    (W := fun x => (A >>= fun c => (Pure.pure 0 : M Nat)) >>= fun _ => F c x >>= fun j => R c >>= fun k =>
      (Pure.pure (g c j k) : M Nat)) (fun _ j k => g c j k) hA' (hF c hQ) (hR c hQ) (fun x b => rfl) hb v (n := n) (b' := b')
  have hsame : ∀ x, ((A >>= fun c => (Pure.pure 0 : M Nat)) >>= fun _ => F c x >>= fun j => R c >>= fun k =>
      (Pure.pure (g c j k) : M Nat)) b = W x b := by
    intro x
    rw [hW, bind_apply, hA0, bind_apply, e1]
  simp only [hsame] at key
  obtain ⟨_, p, q, h1, h2, h3, ⟨k, d, h4⟩, h5, h6⟩ := key he0
  rw [hA0] at h4
  cases h4
  exact ⟨c, p, q, d, h1, h2, h3, e1, h5, h6⟩

/-- The modifiers in force for a field of a variant: its own, or those that were there. -/
def modsFor (f : Field V) (old : Option FAttr) (env : Env V) : M (Option FAttr) :=
  if !f.attrs.isUse then Pure.pure old else f.attrs.toCode env

/-- Some fields of a variant, and the modifiers that are there after them. -/
def encPart : List (Field V) → Option CAttr → Option FAttr → Env V → List V → M (Nat × Option FAttr)
  | f :: fs, ca, old, env, v :: vs => do
    let fa ← modsFor f old env
    let n ← encField f env v ca fa
    let r ← encPart fs ca fa (env.push v) vs
    return (n + r.1, r.2)
  | _, _, old, _, _ => return (0, old)

theorem encFields_keep (f : Field V) (fs : List (Field V)) (ca : Option CAttr) (old : Option FAttr) (env : Env V) (v : V)
    (vs : List V) (b : Buf) : encFields true (f :: fs) ca old env (v :: vs) b = (modsFor f old env >>= fun fa =>
      JBytes.encField f env v ca fa >>= fun n => encFields true fs ca fa (env.push v) vs >>= fun m =>
        (Pure.pure (n + m) : M Nat)) b := by
  rfl

theorem encFields_part (gs : List (Field V)) (us : List V) : ∀ (fs : List (Field V)) (ca : Option CAttr)
    (old : Option FAttr) (env : Env V) (vs : List V), vs.length = fs.length → ∀ b,
    encFields true (fs ++ gs) ca old env (vs ++ us) b = (encPart fs ca old env vs >>= fun r =>
      encFields true gs ca r.2 (env.extend vs) us >>= fun m => (Pure.pure (r.1 + m) : M Nat)) b := by
  intro fs
  induction fs with
  | nil =>
    intro ca old env vs hl b
    cases vs with
    | cons _ _ => cases hl
    | nil =>
      have : env.extend [] = env := by simp [Env.extend]
      simp only [List.nil_append, encPart, bind_apply, pure_apply, this]
      rcases encFields true gs ca old env us b with ⟨o, b1⟩
      cases o <;> simp
  | cons f fs ih =>
    intro ca old env vs hl b
    cases vs with
    | nil => cases hl
    | cons v vs =>
      have hx : env.extend (v :: vs) = (env.push v).extend vs := by simp [Env.extend, Env.push]
      simp only [List.cons_append, encFields_keep, encPart, bind_apply]
      rcases modsFor f old env b with ⟨o, b1⟩
      cases o with
      | ok fa =>
        simp only
        rcases encField f env v ca fa b1 with ⟨o2, b2⟩
        cases o2 with
        | ok n =>
          simp only [ih ca fa (env.push v) vs (Nat.succ.inj hl), bind_apply, hx]
          rcases encPart fs ca fa (env.push v) vs b2 with ⟨o3, b3⟩
          cases o3 with
          | ok r =>
            simp only [pure_apply]
            rcases encFields true gs ca r.2 ((env.push v).extend vs) us b3 with ⟨o4, b4⟩
            cases o4 <;> simp [Nat.add_assoc]
          | _ => rfl
        | _ => rfl
      | _ => rfl

theorem modsFor_placed {c : Bool} {f : Field V} (ha : EncOk c f.attrs) (old : Option FAttr) (ho : StartsWord old) (env : Env V) :
    Placed StartsWord (modsFor f old env) := by
  unfold modsFor
  split
  · exact Placed.logic.pure _ ho
  · exact Placed.logic.toCode ha env

theorem encPart_placed {c : Bool} : ∀ (fs : List (Field V)) (ca : Option CAttr) (old : Option FAttr) (env : Env V) (vs : List V),
    StartsWord old → (∀ f ∈ fs, EncOk c f.attrs ∧ Encodable c V f.enc) →
    Placed (fun r => StartsWord r.2) (encPart fs ca old env vs) := by
  have L := Placed.logic
  intro fs
  induction fs with
  | nil => intro ca old env vs ho _; rw [encPart.eq_def]; exact L.pure _ ho
  | cons f fs ih =>
    intro ca old env vs ho hf
    cases vs with
    | nil => rw [encPart.eq_def]; exact L.pure _ ho
    | cons v vs =>
      rw [encPart.eq_def]
      have hfS := hf f (by simp)
      refine L.bind (modsFor_placed hfS.1 old ho env) fun fa hfa => ?_
      refine L.bind (L.encField hfS.1 fun v => hfS.2.placed v ca fa hfa) fun n _ => ?_
      exact L.bind (ih ca fa _ vs hfa fun g hg => hf g (by simp [hg])) fun r hr => L.pure _ hr

theorem encFields_put_keep {i : Nat} (y : V) : ∀ (gs : List (Field V)) (ca : Option CAttr) (old : Option FAttr) (env : Env V)
    (us : List V), (∀ g ∈ gs, Unaware i g.attrs) → i < env.fields.length →
    ∀ b, encFields true gs ca old (env.put i y) us b = encFields true gs ca old env us b := by
  intro gs
  induction gs with
  | nil => intro ca old env us _ _ b; simp [encFields]
  | cons g gs ih =>
    intro ca old env us hg hi b
    cases us with
    | nil => simp [encFields]
    | cons u us =>
      have hm : modsFor g old (env.put i y) = modsFor g old env := by
        unfold modsFor
        rw [(hg g (by simp)).toCode]
      rw [encFields_keep, encFields_keep, hm, (hg g (by simp)).encField]
      simp only [bind_apply]
      rcases modsFor g old env b with ⟨o, b1⟩
      cases o with
      | ok fa =>
        simp only
        rcases encField g env u ca fa b1 with ⟨o2, b2⟩
        cases o2 with
        | ok n =>
          simp only
          rw [Env.put_push _ _ _ _ hi, ih ca fa (env.push u) us (fun g h => hg g (by simp [h])) (by
            simp only [Env.push, List.length_append]; omega)]
        | _ => rfl
      | _ => rfl

/-- The tag and the first fields of a variant, and the modifiers in force for the field behind them. -/
def encUpTo (E : EnumDef V) (w : Variant V) (num : Nat) (fs : List (Field V)) (f : Field V) (vs : List V) (ca : Option CAttr)
    (fa : Option FAttr) : M (Nat × Option FAttr) := do
  let old ← w.attrs.toCode { vars := localVars E.getVars ca }
  let n ← encTagMode E w num ca fa
  padOffset w.attrs { vars := localVars E.getVars ca }
  let r ← encPart fs E.container old { vars := localVars E.getVars ca } vs
  let m ← modsFor f r.2 { vars := localVars E.getVars ca, fields := vs }
  return (n + r.1, m)

theorem encUpTo_placed {c : Bool} (E : EnumDef V) (w : Variant V) (hw : EncOk c w.attrs) (num : Nat) (fs : List (Field V)) (f : Field V)
    (hf : EncOk c f.attrs) (hfs : ∀ f ∈ fs, EncOk c f.attrs ∧ Encodable c V f.enc) (vs : List V) (ca : Option CAttr)
    (fa : Option FAttr) : Placed (fun r => StartsWord r.2) (encUpTo E w num fs f vs ca fa) := by
  have L := Placed.logic
  unfold encUpTo
  refine L.bind (L.toCode hw _) fun old ho => ?_
  refine L.bind (L.encTagMode E w num ca fa) fun n _ => ?_
  refine L.bind (L.padOffset _ _) fun _ _ => ?_
  refine L.bind (encPart_placed fs _ old _ vs ho hfs) fun r hr => ?_
  exact L.bind (modsFor_placed hf r.2 hr _) fun m hm => L.pure _ hm

theorem toCode_same (a : FieldAttrs V) (env : Env V) (b b' : Buf) (fa : Option FAttr) (h : a.toCode env b = (.ok fa, b')) :
    b' = b ∧ ∀ b2, a.toCode env b2 = (.ok fa, b2) := by
  unfold FieldAttrs.toCode at h ⊢
  split at h
  · rename_i hu
    simp only [hu, if_true]
    cases ho : a.byteorder with
    | none =>
      rw [ho] at h
      simp only [orderCode, bind_apply, pure_apply, Prod.mk.injEq, Out.ok.injEq] at h ⊢
      obtain ⟨rfl, rfl⟩ := h
      simp
    | some o =>
      rw [ho] at h
      cases o with
      | lit o =>
        simp only [orderCode, bind_apply, pure_apply, Prod.mk.injEq, Out.ok.injEq] at h ⊢
        obtain ⟨rfl, rfl⟩ := h
        simp
      | expr e =>
        simp only [orderCode] at h ⊢
        by_cases h0 : e env = 0
        · simp only [h0, if_true, bind_apply, pure_apply, Prod.mk.injEq, Out.ok.injEq] at h ⊢
          obtain ⟨rfl, rfl⟩ := h
          simp
        · by_cases h1 : e env = 1
          · rw [if_neg h0, if_pos h1] at h
            rw [if_neg h0, if_pos h1]
            simp only [bind_apply, pure_apply, Prod.mk.injEq, Out.ok.injEq] at h ⊢
            obtain ⟨rfl, rfl⟩ := h
            simp
          · simp only [h0, h1, if_false] at h
            cases h
  · rename_i hu
    simp only [hu, Bool.false_eq_true, if_false, pure_apply, Prod.mk.injEq, Out.ok.injEq] at h ⊢
    obtain ⟨rfl, rfl⟩ := h
    simp

theorem encPart_plain : ∀ (fs : List (Field V)) (ca : Option CAttr) (old : Option FAttr) (env : Env V) (vs : List V) (b b' : Buf)
    (r : Nat × Option FAttr), (∀ f ∈ fs, f.attrs.isUse = false) → encPart fs ca old env vs b = (.ok r, b') → r.2 = old := by
  intro fs
  induction fs with
  | nil =>
    intro ca old env vs b b' r _ h
    rw [encPart.eq_def] at h
    cases h
    rfl
  | cons f fs ih =>
    intro ca old env vs b b' r hf h
    cases vs with
    | nil => rw [encPart.eq_def] at h; cases h; rfl
    | cons v vs =>
      rw [encPart.eq_def] at h
      obtain ⟨fa, b1, e1, e2⟩ := bind_ok h
      obtain ⟨n, b2, _, e4⟩ := bind_ok e2
      obtain ⟨r', b3, e5, e6⟩ := bind_ok e4
      simp only [modsFor, hf f (by simp), Bool.not_false, if_true] at e1
      cases e1
      cases e6
      exact ih ca old _ vs b2 _ r' (fun g hg => hf g (by simp [hg])) e5

/-- C113 (enums), the part that holds: the field `f` of an encoded variant stands between positions `p` and `q`, where
`p` is the end of the tag and the fields before it.  Writing its value there again, with the modifiers `fr` in force
for it, changes nothing; writing another value that ends at `q` too gives the encoding of the changed variant.  `fr`
are the modifiers of the field if it has any, and nothing if neither it nor what is before it has any. -/
theorem C113_variant_partial (c : Bool) (E : EnumDef V) (w : Variant V) (i num : Nat)
    (hE : (E.variants.zip E.numbers)[i]? = some (w, num)) (hw : EncOk c w.attrs)
    (hS : ∀ f ∈ w.fields, EncOk c f.attrs ∧ Encodable c V f.enc) (fs gs : List (Field V)) (f : Field V)
    (hf : w.fields = fs ++ f :: gs) (hi : ∀ g ∈ gs, Unaware fs.length g.attrs) (vs us : List V) (v : V)
    (hl : vs.length = fs.length) (ca : Option CAttr) (fa : Option FAttr) (b b' : Buf) (hp : b.pos ≤ b.data.length)
    (hs : b.data.length ≤ isizeMax) (n : Nat) (he : encEnum E (i, vs ++ v :: us) ca fa b = (.ok n, b')) :
    ∃ fr p q, b.pos ≤ p ∧ p ≤ q ∧ q ≤ b'.pos ∧
      (f.attrs.isUse = true → f.attrs.toCode { vars := localVars E.getVars ca, fields := vs } b = (.ok fr, b)) ∧
      (w.attrs.isUse = false → (∀ g ∈ fs ++ [f], g.attrs.isUse = false) → fr = none) ∧
      (∃ k d, encVariant E { w with fields := fs } num vs ca fa b = (.ok k, ⟨d, p⟩)) ∧
      (∃ k, encField f { vars := localVars E.getVars ca, fields := vs } v E.container fr ⟨b'.data, p⟩
        = (.ok k, ⟨b'.data, q⟩)) ∧
      ∀ x k b2, encField f { vars := localVars E.getVars ca, fields := vs } x E.container fr ⟨b'.data, p⟩ = (.ok k, b2) →
        b2.pos = q → ∃ m, encEnum E (i, vs ++ x :: us) ca fa b = (.ok m, ⟨b2.data, b'.pos⟩) := by
  have hb : b.Ok := ⟨hp, hs⟩
  have L := Placed.logic
  have hfS := hS f (by simp [hf])
  have hfsS : ∀ f ∈ fs, EncOk c f.attrs ∧ Encodable c V f.enc := fun f h => hS f (by simp [hf, h])
  have hgS : ∀ f ∈ gs, EncOk c f.attrs ∧ Encodable c V f.enc := fun f h => hS f (by simp [hf, h])
  have hext : ({ vars := localVars E.getVars ca } : Env V).extend vs = { vars := localVars E.getVars ca, fields := vs } := by
    simp [Env.extend]
  have hwhole : ∀ x b, encEnum E (i, vs ++ x :: us) ca fa b = (encUpTo E w num fs f vs ca fa >>= fun r =>
      encField f { vars := localVars E.getVars ca, fields := vs } x E.container r.2 >>= fun j =>
      encFields true gs E.container r.2 (({ vars := localVars E.getVars ca, fields := vs } : Env V).push v) us >>= fun k =>
        (Pure.pure (r.1 + (j + k)) : M Nat)) b := by
    intro x b
    unfold encEnum
    simp only [hE]
    unfold encVariant encUpTo
    simp only [hf, bind_apply]
    rcases w.attrs.toCode { vars := localVars E.getVars ca } b with ⟨o, b1⟩
    cases o with
    | ok old =>
      simp only
      rcases encTagMode E w num ca fa b1 with ⟨o, b2⟩
      cases o with
      | ok k =>
        simp only
        rcases padOffset w.attrs { vars := localVars E.getVars ca } b2 with ⟨o, b3⟩
        cases o with
        | ok _ =>
          simp only [encFields_part (f :: gs) (x :: us) fs _ _ _ vs hl, bind_apply, hext]
          rcases encPart fs E.container old { vars := localVars E.getVars ca } vs b3 with ⟨o, b4⟩
          cases o with
          | ok r =>
            simp only [encFields_keep, bind_apply]
            rcases modsFor f r.2 { vars := localVars E.getVars ca, fields := vs } b4 with ⟨o, b5⟩
            cases o with
            | ok m =>
              simp only [pure_apply]
              rcases encField f { vars := localVars E.getVars ca, fields := vs } x E.container m b5 with ⟨o, b6⟩
              cases o with
              | ok j =>
                simp only
                have hput : ({ vars := localVars E.getVars ca, fields := vs } : Env V).push x
                    = (({ vars := localVars E.getVars ca, fields := vs } : Env V).push v).put fs.length x := by
                  simp [Env.push, Env.put, ← hl]
                rw [hput, encFields_put_keep x gs _ _ _ _ hi (by simp [Env.push, hl])]
                rcases encFields true gs E.container m (({ vars := localVars E.getVars ca, fields := vs } : Env V).push v) us b6
                  with ⟨o, b7⟩
                cases o <;> simp [Nat.add_assoc]
              | _ => rfl
            | _ => rfl
          | _ => rfl
        | _ => rfl
      | _ => rfl
    | _ => rfl
  obtain ⟨r, p, q, d, h1, h2, h3, h4, h5, h6⟩ := patch_middle_on (α := V)
    (A := encUpTo E w num fs f vs ca fa) (Q := fun r => StartsWord r.2)
    (F := fun r x => encField f { vars := localVars E.getVars ca, fields := vs } x E.container r.2)
    (R := fun r => encFields true gs E.container r.2 (({ vars := localVars E.getVars ca, fields := vs } : Env V).push v) us)
    (W := fun x => encEnum E (i, vs ++ x :: us) ca fa) (fun r j k => r.1 + (j + k))
    (encUpTo_placed E w hw num fs f hfS.1 hfsS vs ca fa)
    (fun r hr x => L.encField hfS.1 fun v => hfS.2.placed v _ r.2 hr)
    (fun r hr => L.encFields true gs _ r.2 _ us hr fun f hf => ⟨(hgS f hf).1, fun v ca fa hfa => (hgS f hf).2.placed v ca fa hfa⟩)
    hwhole hb v he
  unfold encUpTo at h4
  obtain ⟨old, b1, e1, e2⟩ := bind_ok h4
  obtain ⟨k1, b2, e3, e4⟩ := bind_ok e2
  obtain ⟨_, b3, e5, e6⟩ := bind_ok e4
  obtain ⟨r', b4, e7, e8⟩ := bind_ok e6
  obtain ⟨m, b5, e9, e10⟩ := bind_ok e8
  cases e10
  have hm5 : ∃ fr0, fr0 = m ∧ b4 = ⟨d, p⟩ ∧
      (f.attrs.isUse = true → f.attrs.toCode { vars := localVars E.getVars ca, fields := vs } b = (.ok m, b)) := by
    unfold modsFor at e9
    split at e9
    · rename_i hu
      cases e9
      exact ⟨_, rfl, rfl, fun h => by simp [h] at hu⟩
    · obtain ⟨hsame, hall⟩ := toCode_same _ _ _ _ _ e9
      exact ⟨m, rfl, hsame.symm, fun _ => hall b⟩
  obtain ⟨_, _, rfl, hown⟩ := hm5
  refine ⟨m, p, q, h1, h2, h3, hown, fun hwu hfu => ?_, ⟨k1 + r'.1, d, ?_⟩, h5, h6⟩
  · have hr2 := encPart_plain fs _ _ _ vs b3 _ r' (fun g hg => hfu g (by simp [hg])) e7
    have hold : old = none := by
      unfold FieldAttrs.toCode at e1
      simp only [hwu, Bool.false_eq_true, if_false] at e1
      cases e1
      rfl
    unfold modsFor at e9
    simp only [hfu f (by simp), Bool.not_false, if_true] at e9
    cases e9
    rw [hr2, hold]
  · have hpart := encFields_part [] [] fs E.container old { vars := localVars E.getVars ca } vs hl b3
    simp only [List.append_nil, bind_apply, e7, encFields, pure_apply, Nat.add_zero] at hpart
    unfold encVariant
    simp only [bind_apply, e1]
    have e3' : encTagMode E { w with fields := fs } num ca fa b1 = (.ok k1, b2) := e3
    simp only [e3', e5, hpart, pure_apply]

/-! ## Instances -/

/-- An empty variant, and one with a length, a checksum and a body. -/
def probeKind : EnumDef Val := { variants := [{ name := [97], fields := [] }, { name := [98], fields := datagram.fields }] }

/-- C113 on `probeKind`: the checksum of any such message can be put in afterwards. -/
example (len sum : Nat) (body : List Byte) (b b' : Buf) (hp : b.pos ≤ b.data.length) (hs : b.data.length ≤ isizeMax)
    (n : Nat) (he : encEnum probeKind (1, [.num len, .num 0, .bytes body]) none none b = (.ok n, b')) :
    ∃ p q, p ≤ q ∧ q ≤ b'.pos ∧
      (∃ k, encField (u16Field {}) { vars := [], fields := [.num len] } (.num 0) none none ⟨b'.data, p⟩
        = (.ok k, ⟨b'.data, q⟩)) ∧
      ∀ x k b2, encField (u16Field {}) { vars := [], fields := [.num len] } x none none ⟨b'.data, p⟩ = (.ok k, b2) →
        b2.pos = q → ∃ m, encEnum probeKind (1, [.num len, x, .bytes body]) none none b = (.ok m, ⟨b2.data, b'.pos⟩) := by
  obtain ⟨fr, p, q, _, h2, h3, _, h5, _, h7, h8⟩ := C113_variant_partial true probeKind
    { name := [98], fields := datagram.fields } 1 1 (by rfl) (encOk_plain _) datagram_ok [u8Field {}]
    [bytesField { isUse := true, length := some fun env => env.num 0 }] (u16Field {}) rfl datagram_unaware
    [.num len] [.bytes body] (.num 0) rfl none none b b' hp hs n he
  obtain rfl := h5 rfl (by
    intro g hg
    simp only [List.cons_append, List.nil_append, List.mem_cons, List.not_mem_nil, or_false] at hg
    rcases hg with rfl | rfl <;> rfl)
  exact ⟨p, q, h2, h3, h7, h8⟩

example : encEnum probeKind (1, [.num 2, .num 0, .bytes [7, 8]]) none none ⟨[], 0⟩ = (.ok 6, ⟨[1, 2, 0, 0, 7, 8], 6⟩) ∧
    encField (u16Field {}) { vars := [], fields := [.num 2] } (.num 0x1234) none none ⟨[1, 2, 0, 0, 7, 8], 2⟩
      = (.ok 2, ⟨[1, 2, 0x12, 0x34, 7, 8], 4⟩) ∧
    encEnum probeKind (1, [.num 2, .num 0x1234, .bytes [7, 8]]) none none ⟨[], 0⟩
      = (.ok 6, ⟨[1, 2, 0x12, 0x34, 7, 8], 6⟩) := by decide +kernel

/-- C113 (maps): the value of an entry of an encoded map can be overwritten by another one of the same encoded length. -/
theorem C113_entry (c : Bool) (ek : Enc α) (ev : Enc β) (hk : Encodable c α ek) (hv : Encodable c β ev)
    (ca : Option CAttr) (fa : Option FAttr) (hfk : StartsWord (keyFattr fa)) (hfv : StartsWord (valFattr fa))
    (l r : List (α × β)) (a : α) (v : β) (b b' : Buf) (hp : b.pos ≤ b.data.length) (hs : b.data.length ≤ isizeMax) (n : Nat)
    (he : encMap ek ev (l ++ (a, v) :: r) ca fa b = (.ok n, b')) :
    ∃ p q, b.pos ≤ p ∧ p ≤ q ∧ q ≤ b'.pos ∧ (∃ k, ev v ca (valFattr fa) ⟨b'.data, p⟩ = (.ok k, ⟨b'.data, q⟩)) ∧
      ∀ x k b2, ev x ca (valFattr fa) ⟨b'.data, p⟩ = (.ok k, b2) → b2.pos = q →
        ∃ m, encMap ek ev (l ++ (a, x) :: r) ca fa b = (.ok m, ⟨b2.data, b'.pos⟩) := by
  have hb : b.Ok := ⟨hp, hs⟩
  have L := Placed.logic
  let E : α × β → M Nat := fun y => ek y.1 ca (keyFattr fa) >>= fun i => ev y.2 ca (valFattr fa) >>= fun j => (Pure.pure (i + j) : M Nat)
  have hE : ∀ y, Placed Any (E y) := fun y => L.seq (hk.placed y.1 ca _ hfk) (hv.placed y.2 ca _ hfv)
  have hmap : ∀ d b, encMap ek ev d ca fa b = (pushCount ca fa d.length >>= fun n => encAll E d >>= fun m =>
    (Pure.pure (n + m) : M Nat)) b := fun _ _ => rfl
  obtain ⟨_, p, q, h1, h2, h3, _, h5, h6⟩ := patch_middle (g := fun i j k => i + (j + k))
    (A := pushCount ca fa (l.length + (r.length + 1)) >>= fun i => (encAll E l >>= fun j => ek a ca (keyFattr fa) >>= fun k =>
      (Pure.pure (j + k) : M Nat)) >>= fun j => (Pure.pure (i + j) : M Nat))
    (F := fun x => ev x ca (valFattr fa)) (R := encAll E r) (W := fun x => encMap ek ev (l ++ (a, x) :: r) ca fa)
    (L.seq (L.pushCount ca fa _) (L.seq (L.encAll hE l) (hk.placed a ca _ hfk))) (fun x => hv.placed x ca _ hfv)
    (L.encAll hE r) (fun x b => by
      rw [hmap]
      simp only [bind_apply, List.length_append, List.length_cons]
      rcases pushCount ca fa (l.length + (r.length + 1)) b with ⟨o, b1⟩
      cases o with
      | ok i =>
        simp only [encAll_append, encAll, bind_apply]
        rcases encAll E l b1 with ⟨o2, b2⟩
        cases o2 with
        | ok j =>
          simp only [E, pure_apply, bind_apply]
          rcases ek a ca (keyFattr fa) b2 with ⟨o3, b3⟩
          cases o3 with
          | ok k =>
            simp only
            rcases ev x ca (valFattr fa) b3 with ⟨o4, b4⟩
            cases o4 with
            | ok k2 =>
              simp only
              change (match encAll E r b4 with | _ => _) = (match encAll E r b4 with | _ => _)
              rcases encAll E r b4 with ⟨o5, b5⟩
              cases o5 <;> simp [Nat.add_assoc]
            | _ => rfl
          | _ => rfl
        | _ => rfl
      | _ => rfl) hb v he
  exact ⟨p, q, h1, h2, h3, h5, h6⟩

/-- A map from bytes to numbers. -/
example : (encMap encChar (encInt ⟨2, false⟩) [(1, 2), (3, 4)] none none ⟨[], 0⟩).2 = ⟨[2, 1, 0, 2, 3, 0, 4], 7⟩ ∧
    (encInt ⟨2, false⟩ 0x1234 none none ⟨[2, 1, 0, 2, 3, 0, 4], 2⟩).2 = ⟨[2, 1, 0x12, 0x34, 3, 0, 4], 4⟩ ∧
    (encMap encChar (encInt ⟨2, false⟩) [(1, 0x1234), (3, 4)] none none ⟨[], 0⟩).2 = ⟨[2, 1, 0x12, 0x34, 3, 0, 4], 7⟩ := by
  decide +kernel

example (l r : List (Nat × Nat)) (a v : Nat) (b b' : Buf) (hp : b.pos ≤ b.data.length) (hs : b.data.length ≤ isizeMax) (n : Nat)
    (he : encMap encChar (encInt ⟨2, false⟩) (l ++ (a, v) :: r) none none b = (.ok n, b')) :=
  C113_entry true _ _ .char (.int ⟨2, false⟩) none none StartsWord.none StartsWord.none l r a v b b' hp hs n he

end JBytes
