import Verif.Renew
/-!
# Decoding, encoding and decoding again: fields
-/

namespace JBytes
open M

variable {α β V : Type}

/-- What a run of fields decodes, in whatever scope, round trips. -/
def SegRenews (last : Bool) (ca : Option CAttr) (fs : List (Field V)) : Prop := ∀ env b vs b', b.Ok →
  decFields false fs ca none env b = (.ok vs, b') →
  b'.Ok ∧ ∃ w, ∀ suf, (last = true → suf = []) → SegRT fs ca ca env env vs w suf

theorem cachedAfter_same (fs : List (Field V)) (h : ∀ f ∈ fs, f.attrs.variableName = none) : ∀ (ca : Option CAttr)
    (env : Env V) (vs : List V), cachedAfter fs ca env vs = ca := by
  induction fs with
  | nil => intro ca env vs; rfl
  | cons f fs ih =>
    intro ca env vs
    cases vs with
    | nil => rfl
    | cons v vs =>
      rw [cachedAfter, ih (fun g hg => h g (by simp [hg]))]
      simp [cacheVars, h f (by simp)]

theorem SegRenews.nil (last : Bool) (ca : Option CAttr) : SegRenews last ca ([] : List (Field V)) := by
  intro env b vs b' hb h
  rw [decFields, pure_apply, Prod.mk.injEq, Out.ok.injEq] at h
  obtain ⟨rfl, rfl⟩ := h
  exact ⟨hb, [], fun suf _ => ⟨rfl, Appends.pure0.writes, Reads.pure _ _⟩⟩

theorem SegRenews.append {last : Bool} {ca : Option CAttr} {fs gs : List (Field V)} (h1 : SegRenews false ca fs)
    (h2 : SegRenews last ca gs) (hv : ∀ f ∈ fs, f.attrs.variableName = none) : SegRenews last ca (fs ++ gs) := by
  intro env b vs b' hb h
  rw [decFields_append] at h
  obtain ⟨us, b1, e1, e2⟩ := bind_ok h
  obtain ⟨ws, b2, e3, e4⟩ := bind_ok e2
  rw [pure_apply, Prod.mk.injEq, Out.ok.injEq] at e4
  obtain ⟨rfl, rfl⟩ := e4
  rw [cachedAfter_same fs hv] at e3
  obtain ⟨o1, w1, r1⟩ := h1 env b us b1 hb e1
  obtain ⟨o2, w2, r2⟩ := h2 _ b1 ws b2 o1 e3
  refine ⟨o2, w1 ++ w2, fun suf hs => ?_⟩
  have s2 := r2 suf hs
  have s1 := r1 (w2 ++ suf) (fun h => nomatch h)
  refine ⟨by simp [s1.len, s2.len], ?_, ?_⟩
  · exact (s1.writes.seq s2.writes).congr (encFields_append _ _ _ _ _ _ s1.len)
  · refine (Reads.bind (f := fun us => decFields false gs (cachedAfter fs ca env us) none (env.extend us) >>= fun ws =>
      (Pure.pure (us ++ ws) : M (List V))) s1.reads ?_).congr fun b _ => decFields_append _ _ _ _ b
    rw [cachedAfter_same fs hv]
    exact s2.reads.map _

/-- The modifiers of a field that comes back: `value_encode` undoes `value_decode`, and nothing replaces, skips or
peeks. -/
structure Steady (f : Field V) : Prop where
  ordinary : Ordinary f.attrs
  untake : f.attrs.untake = false
  variables : f.attrs.variableName = none
  order : ∀ env, OrderOk f.attrs env
  inverse : ∀ env x, sentValue f.attrs env (finalValue f env x) = x

/-- What a plain field decodes comes back. -/
theorem SegRenews.plain {last : Bool} {ca : Option CAttr} (f : Field V) (hs : Steady f)
    (h : ∀ env, Renews last (f.dec ca (ownModifiers f.attrs env)) (fun v => f.enc v ca (ownModifiers f.attrs env)))
    (hn : f.attrs.ifExpr = none ∨ ∀ env, Writes (f.enc f.noneV ca (ownModifiers f.attrs env)) [])
    (hoff : f.attrs.offset = none ∨ f.attrs.ifExpr = none ∧ ∀ env (b : Buf), b.data.length < b.pos → b.pos < usizeMod →
      ∀ v b', f.dec ca (ownModifiers f.attrs env) b ≠ (.ok v, b')) : SegRenews last ca [f] := by
  classical
  intro env b vs b' hb he
  rw [decFields_cons] at he
  obtain ⟨v, b1, e1, e2⟩ := bind_ok he
  obtain ⟨us, b2, e3, e4⟩ := bind_ok e2
  rw [decFields, pure_apply, Prod.mk.injEq, Out.ok.injEq] at e3
  obtain ⟨rfl, rfl⟩ := e3
  rw [pure_apply, Prod.mk.injEq, Out.ok.injEq] at e4
  obtain ⟨rfl, rfl⟩ := e4
  rw [fieldStep, bind_apply, toCode_ok _ _ (hs.order env)] at e1
  simp only at e1
  obtain ⟨p1, p2, p3, p4, p5, p6⟩ := hs.ordinary
  have hsk : ∃ b0 : Buf, b0.data = b.data ∧ b0.pos < usizeMod ∧ (f.attrs.offset = none → b0 = b) ∧ skipOffset f.attrs env b = (.ok (), b0) := by
    unfold skipOffset
    cases f.attrs.offset with
    | none => exact ⟨b, rfl, by have := hb.1; have := hb.2; have := isizeMax_lt; omega, fun _ => rfl, rfl⟩
    | some e => exact ⟨⟨b.data, wadd b.pos (e env)⟩, rfl, Nat.mod_lt _ (by have := isizeMax_lt; omega), fun h => (by cases h), rfl⟩
  obtain ⟨b0, d0, l0, n0, s0⟩ := hsk
  simp only [decField, bind_apply, s0, p1, p3, p5, p6, decPlain, getPos_apply, hs.untake, Bool.or_self,
    Bool.false_eq_true, if_false] at e1
  rcases hc : decCond f env ca (ownModifiers f.attrs env) b0 with ⟨o, b3⟩
  rw [hc] at e1
  cases o with
  | ok x =>
    simp only at e1
    rw [finishValue_eq] at e1
    by_cases hchk : Checked f env (finalValue f env x)
    · rw [if_pos hchk, Prod.mk.injEq, Out.ok.injEq] at e1
      obtain ⟨rfl, rfl⟩ := e1
      have run : (∀ c, f.attrs.ifExpr = some c → c env = true) → f.dec ca (ownModifiers f.attrs env) b0 = (.ok x, b3) := by
        intro hi
        unfold decCond at hc
        cases hif : f.attrs.ifExpr with
        | none => rw [hif] at hc; exact hc
        | some c => rw [hif] at hc; simp only [ite_apply', hi c hif, if_true] at hc; exact hc
      by_cases hi : ∀ c, f.attrs.ifExpr = some c → c env = true
      · have hd := run hi
        have hb0 : b0.Ok := by
          rcases hoff with h0 | ⟨_, h0⟩
          · rw [n0 h0]; exact hb
          · refine ⟨Nat.le_of_not_lt fun hlt => h0 env b0 hlt l0 x b3 hd, ?_⟩
            rw [d0]
            exact hb.2
        obtain ⟨o3, w, hw, hr⟩ := h env b0 x b3 hb0 hd
        refine ⟨o3, List.replicate (gap f.attrs env) f.attrs.full ++ w, fun suf hsuf => C43_field_segment ?_⟩
        refine C43_field_plain f ca ca env env _ w suf hs.ordinary hs.untake (hs.order env) (hs.order env) rfl ?_ ?_ ?_ ?_ hchk
        · rw [hs.inverse]; exact hw
        · rw [hs.inverse]; exact fun _ => hr suf hsuf
        · intro c hc1 hc2; rw [hi c hc1] at hc2; cases hc2
        · rw [hs.inverse]
      · have hif : ∃ c, f.attrs.ifExpr = some c ∧ c env = false := by
          cases hif : f.attrs.ifExpr with
          | none => exact absurd (fun c hc => by rw [hif] at hc; cases hc) hi
          | some c =>
            refine ⟨c, rfl, ?_⟩
            cases hce : c env with
            | false => rfl
            | true => exact absurd (fun c' hc' => by rw [hif] at hc'; cases hc'; exact hce) hi
        obtain ⟨c, hif, hce⟩ := hif
        have h0 : f.attrs.offset = none := by
          rcases hoff with h0 | ⟨h0, _⟩
          · exact h0
          · rw [hif] at h0; cases h0
        have hw : Writes (f.enc f.noneV ca (ownModifiers f.attrs env)) [] := by
          rcases hn with h1 | h1
          · rw [hif] at h1; cases h1
          · exact h1 env
        unfold decCond at hc
        rw [hif] at hc
        simp only [ite_apply', hce, Bool.false_eq_true, if_false, pure_apply, Prod.mk.injEq, Out.ok.injEq] at hc
        obtain ⟨rfl, rfl⟩ := hc
        refine ⟨by rw [n0 h0]; exact hb, List.replicate (gap f.attrs env) f.attrs.full ++ [], fun suf hsuf => C43_field_segment ?_⟩
        refine C43_field_plain f ca ca env env _ [] suf hs.ordinary hs.untake (hs.order env) (hs.order env) rfl ?_ ?_ ?_ ?_ hchk
        · rw [hs.inverse]; exact hw
        · intro h'; exact absurd h' hi
        · intro _ _ _; exact ⟨hs.inverse env _, rfl⟩
        · rw [hs.inverse]
    · rw [if_neg hchk] at e1
      simp at e1
  | _ => simp at e1

/-- A skipped field always holds its default. -/
theorem SegRenews.skip {last : Bool} {ca : Option CAttr} (f : Field V) (ho : ∀ env, OrderOk f.attrs env)
    (hd : f.attrs.withDecode = none) (he : f.attrs.withEncode = none) (hs : f.attrs.skip = true)
    (hoff : f.attrs.offset = none) : SegRenews last ca [f] := by
  intro env b vs b' hb h
  rw [decFields_cons] at h
  obtain ⟨v, b1, e1, e2⟩ := bind_ok h
  obtain ⟨us, b2, e3, e4⟩ := bind_ok e2
  rw [decFields, pure_apply, Prod.mk.injEq, Out.ok.injEq] at e3
  obtain ⟨rfl, rfl⟩ := e3
  rw [pure_apply, Prod.mk.injEq, Out.ok.injEq] at e4
  obtain ⟨rfl, rfl⟩ := e4
  rw [fieldStep, bind_apply, toCode_ok _ _ (ho env)] at e1
  simp only at e1
  rw [C42_skip f env ca _ hoff hd (.inl hs), Prod.mk.injEq, Out.ok.injEq] at e1
  obtain ⟨rfl, rfl⟩ := e1
  exact ⟨hb, [], fun suf _ => C43_field_segment (C43_field_skip f ca ca env env suf (ho env) (ho env) hd he hs hoff)⟩

/-! ## Words of bit fields -/

/-- A field that is a member `m` of a word of bit fields, in every scope; the value of `m` does not matter. -/
structure IsBits (inj : Nat → V) (k : IntKind) (f : Field V) (m : BitMember) : Prop where
  dec : ∀ ca fa, f.dec ca fa = mapM' inj (decInt k ca fa)
  enc : ∀ n ca fa, f.enc (inj n) ca fa = encInt k n ca fa
  ordinary : Ordinary f.attrs
  order : ∀ env, OrderOk f.attrs env
  own : ∀ env, ownModifiers f.attrs env = some m.fr
  bits : f.attrs.bits.isSome = true
  offset : f.attrs.offset = none
  ifExpr : f.attrs.ifExpr = none
  inverse : ∀ env x, sentValue f.attrs env (finalValue f env x) = x
  variables : f.attrs.variableName = none

/-- The fields of one word: every one but the last is `untake`. -/
def IsWord (inj : Nat → V) (k : IntKind) : List (Field V) → List BitMember → Prop
  | [f], [m] => IsBits inj k f m ∧ f.attrs.untake = false
  | f :: g :: fs, m :: ms => IsBits inj k f m ∧ f.attrs.untake = true ∧ IsWord inj k (g :: fs) ms
  | _, _ => False

/-- The member as it stands in the word `w`. -/
def BitMember.cut (w : Nat) (m : BitMember) : BitMember := { m with v := (w &&& m.mask) / 2 ^ m.t }

theorem cut_shift (w : Nat) (m : BitMember) : (w &&& m.mask) / 2 ^ m.t * 2 ^ m.t = w &&& m.mask := by
  apply Nat.div_mul_cancel
  apply Nat.dvd_of_mod_eq_zero
  rw [Nat.and_mod_two_pow]
  unfold BitMember.mask
  rw [Nat.mul_mod_right, Nat.and_zero]

theorem cut_fits (w : Nat) (m : BitMember) : (m.cut w).Fits := by
  show (w &&& m.mask) / 2 ^ m.t * 2 ^ m.t &&& m.mask = (w &&& m.mask) / 2 ^ m.t * 2 ^ m.t
  rw [cut_shift, Nat.and_assoc, Nat.and_self]

theorem IsBits.step {inj : Nat → V} {k : IntKind} {f : Field V} {m : BitMember} (h : IsBits inj k f m)
    (ca : Option CAttr) (env : Env V) (b b1 : Buf) (u : V) (he : fieldStep f ca env b = (.ok u, b1)) :
    ∃ x b2, decInt k ca (some m.fr) b = (.ok x, b2) ∧ u = finalValue f env (inj x) ∧ Checked f env u ∧
      b1 = if f.attrs.untake then ⟨b2.data, b.pos⟩ else b2 := by
  classical
  rw [fieldStep, bind_apply, toCode_ok _ _ (h.order env), h.own] at he
  simp only at he
  obtain ⟨h1, h2, h3, h4, h5, h6⟩ := h.ordinary
  rcases hd : decInt k ca (some m.fr) b with ⟨o, b2⟩
  have e := congrFun (h.dec ca (some m.fr)) b
  rw [mapM'_apply, hd] at e
  cases o with
  | ok x =>
    have r := C42_decoded f env ca (some m.fr) h.offset h1 h3 h5 h6 (by rw [h.ifExpr]; intro c hc; cases hc) b b2 _ e _ rfl
    by_cases hc : Checked f env (finalValue f env (inj x))
    · rw [r.1 hc, Prod.mk.injEq, Out.ok.injEq] at he
      exact ⟨x, b2, rfl, he.1.symm, he.1 ▸ hc, he.2.symm⟩
    · rw [r.2 hc] at he
      simp at he
  | _ =>
    exfalso
    simp only [decField, bind_apply, skipOffset, h.offset, pure_apply, h1, h3, h5, h6, decPlain, getPos_apply, Bool.or_self,
      Bool.false_eq_true, if_false, decCond, h.ifExpr, e] at he
    simp at he

/-- A member reads its bits of the word that stands in the buffer. -/
theorem decInt_cut {k : IntKind} (hu : k.signed = false) {ca : Option CAttr} {o : ByteOrder} {m : BitMember}
    (hg : m.Good k ca o) {b b2 : Buf} {x : Nat} (he : decInt k ca (some m.fr) b = (.ok x, b2)) :
    ∃ w, takeScalar k.scalar o b = (.ok w, b2) ∧ x = (w &&& m.mask) / 2 ^ m.t := by
  obtain ⟨hb, hl, ho, hm⟩ := hg
  have h := decInt_bits k ca m.fr m.mask m.t m.q hb (Nat.mod_eq_of_lt hm) (.inl hu) b
  have e : decInt k ca (some { m.fr with bits := none }) = takeScalar k.scalar o :=
    ((C19_byteorder ca (some { m.fr with bits := none }) o (by rw [← ho]; rfl)).1 k 0 rfl hl).1
  rw [h, e, mapM'_apply] at he
  rcases hs : takeScalar k.scalar o b with ⟨r, b1⟩
  rw [hs] at he
  cases r with
  | ok w =>
    simp only [Prod.mk.injEq, Out.ok.injEq] at he
    exact ⟨w, by rw [he.2], he.1.symm⟩
  | _ => simp at he

theorem IsWord.read {inj : Nat → V} {k : IntKind} (hu : k.signed = false) (ca : Option CAttr) (o : ByteOrder) (w : Nat)
    (b b2 : Buf) (hb : b.Ok) (hw : takeScalar k.scalar o b = (.ok w, b2)) : ∀ (ms : List BitMember) (fs : List (Field V)) (env : Env V)
    (us : List V) (b' : Buf), IsWord inj k fs ms → (∀ m ∈ ms, m.Good k ca o) →
    decFields false fs ca none env b = (.ok us, b') → b' = b2 ∧ IsGroup inj k env fs (ms.map (·.cut w)) us := by
  have hdata : b2.data = b.data := ((Gives.takeScalar k.scalar o) b hb w b2 hw).1
  have one : ∀ (f : Field V) (m : BitMember) (env : Env V) (u : V) (b1 : Buf), IsBits inj k f m → m.Good k ca o →
      fieldStep f ca env b = (.ok u, b1) →
      IsMember inj k env f (m.cut w) u ∧ b1 = if f.attrs.untake then ⟨b2.data, b.pos⟩ else b2 := by
    intro f m env u b1 hf hg he
    obtain ⟨x, b3, e1, e2, e3, e4⟩ := hf.step ca env b b1 u he
    obtain ⟨w', e5, e6⟩ := decInt_cut hu hg e1
    rw [hw, Prod.mk.injEq, Out.ok.injEq] at e5
    obtain ⟨rfl, rfl⟩ := e5
    subst e6
    refine ⟨⟨hf.dec, hf.enc, hf.ordinary, hf.order env, hf.own env, hf.bits, hf.offset, hf.ifExpr, ?_, e2.symm, e3, hf.variables⟩, e4⟩
    rw [e2, hf.inverse]
    rfl
  intro ms
  induction ms with
  | nil => intro fs env us b' h; rcases fs with _ | ⟨f, _ | ⟨g, fs⟩⟩ <;> exact h.elim
  | cons m ms ih =>
    intro fs env us b' h hg he
    rcases fs with _ | ⟨f, _ | ⟨g, fs⟩⟩
    · exact h.elim
    · rcases ms with _ | ⟨m', ms⟩
      · rw [decFields_cons] at he
        obtain ⟨u, b1, e1, e2⟩ := bind_ok he
        obtain ⟨us', b3, e3, e4⟩ := bind_ok e2
        rw [decFields, pure_apply, Prod.mk.injEq, Out.ok.injEq] at e3
        obtain ⟨rfl, rfl⟩ := e3
        rw [pure_apply, Prod.mk.injEq, Out.ok.injEq] at e4
        obtain ⟨rfl, rfl⟩ := e4
        obtain ⟨r1, r2⟩ := one f m env u b1 h.1 (hg m (by simp)) e1
        rw [h.2] at r2
        exact ⟨r2, r1, h.2⟩
      · exact h.elim
    · rw [decFields_cons] at he
      obtain ⟨u, b1, e1, e2⟩ := bind_ok he
      obtain ⟨us', b3, e3, e4⟩ := bind_ok e2
      rw [pure_apply, Prod.mk.injEq, Out.ok.injEq] at e4
      obtain ⟨rfl, rfl⟩ := e4
      obtain ⟨h1, h2, h3⟩ := h
      obtain ⟨r1, r2⟩ := one f m env u b1 h1 (hg m (by simp)) e1
      rw [h2, if_pos rfl, hdata] at r2
      subst r2
      simp only [cacheVars, h1.variables] at e3
      obtain ⟨q1, q2⟩ := ih (g :: fs) _ us' b3 h3 (fun x hx => hg x (by simp [hx])) e3
      exact ⟨q1, r1, h2, q2⟩

/-- What a word of bit fields with disjoint masks decodes comes back, whatever stood in the other bits. -/
theorem SegRenews.word {inj : Nat → V} {k : IntKind} (hk : k.Valid) (h8 : k.size ≤ 8) (hu : k.signed = false)
    {last : Bool} {ca : Option CAttr} (o : ByteOrder) (fs : List (Field V)) (m : BitMember) (ms : List BitMember)
    (hw : IsWord inj k fs (m :: ms)) (hg : ∀ x ∈ m :: ms, x.Good k ca o) (hstart : m.fr.bitsStart = true)
    (hrest : ∀ x ∈ ms, x.fr.bitsStart = false) (hd : (m :: ms).Pairwise (fun a b => a.mask &&& b.mask = 0)) :
    SegRenews last ca fs := by
  intro env b vs b' hb he
  have hread : ∃ w b2, takeScalar k.scalar o b = (.ok w, b2) := by
    rcases fs with _ | ⟨f, fs⟩
    · cases ms <;> exact hw.elim
    · rw [decFields_cons] at he
      obtain ⟨u, b1, e1, e2⟩ := bind_ok he
      have hf : IsBits inj k f m := by
        rcases fs with _ | ⟨g, fs⟩
        · rcases ms with _ | ⟨m', ms⟩
          · exact hw.1
          · exact hw.elim
        · exact hw.1
      obtain ⟨x, b2, e3, _⟩ := hf.step ca env b b1 u e1
      obtain ⟨w, e4, _⟩ := decInt_cut hu (hg m (by simp)) e3
      exact ⟨w, b2, e4⟩
  obtain ⟨w, b2, hr⟩ := hread
  obtain ⟨rfl, hgr⟩ := IsWord.read hu ca o w b b2 hb hr (m :: ms) fs env vs b' hw hg he
  refine ⟨(Gives.takeScalar k.scalar o).ok hb hr, ?_⟩
  have hg' : ∀ x ∈ m.cut w :: ms.map (·.cut w), x.Good k ca o := by
    intro x hx
    rw [← List.map_cons (f := fun m : BitMember => m.cut w), List.mem_map] at hx
    obtain ⟨y, hy, rfl⟩ := hx
    exact hg y hy
  have hf' : ∀ x ∈ m.cut w :: ms.map (·.cut w), x.Fits := by
    intro x hx
    rw [← List.map_cons (f := fun m : BitMember => m.cut w), List.mem_map] at hx
    obtain ⟨y, _, rfl⟩ := hx
    exact cut_fits w y
  have hr' : ∀ x ∈ ms.map (·.cut w), x.fr.bitsStart = false := by
    intro x hx
    rw [List.mem_map] at hx
    obtain ⟨y, hy, rfl⟩ := hx
    exact hrest y hy
  have hd' : (m.cut w :: ms.map (·.cut w)).Pairwise (fun a b => a.mask &&& b.mask = 0) := by
    rw [← List.map_cons (f := fun m : BitMember => m.cut w), List.pairwise_map]
    exact hd
  obtain ⟨w', hlt, hm, _, hen, -⟩ := C24_group_roundtrip k hk h8 hu ca o (m.cut w) (ms.map (·.cut w)) hg' hf' hstart hr' hd'
  obtain ⟨hl, hen'⟩ := hgr.encoded ca
  refine ⟨toBytes o k.size w', fun suf _ => ⟨hl, ?_, ?_⟩⟩
  · intro pre hp
    rw [toBytes_length] at hp ⊢
    exact ⟨_, by rw [hen']; exact hen pre hp⟩
  · refine hgr.decoded hk hu ca o w' hlt suf _ _ _ _ hg' (fun x hx => ?_)
    rw [hm x hx]
    exact Nat.mul_div_cancel _ (Nat.pow_pos (by omega))

/-! ## Structs and enums -/

theorem Renews.struct {last : Bool} (S : StructDef V) (hd : S.withDecode = none) (he : S.withEncode = none)
    (ht : S.tuple = true → ∀ f ∈ S.fields, f.attrs.isUse = true) (h : SegRenews last S.container S.fields)
    (ca : Option CAttr) (fa : Option FAttr) : Renews last (decStruct S ca fa) (fun v => encStruct S v ca fa) := by
  have key : ∀ b, decStruct S ca fa b = decFields false S.fields S.container none { vars := localVars S.getVars ca } b := by
    intro b
    simp only [decStruct, hd]
    cases htt : S.tuple with
    | false => rfl
    | true => exact decFields_allUsed S.fields (ht htt) _ _ _ b
  intro b vs b' hb e
  rw [key] at e
  obtain ⟨o, w, hw⟩ := h _ b vs b' hb e
  refine ⟨o, w, ?_, fun suf hs => ?_⟩
  · exact (hw [] fun _ => rfl).writes.congr fun b => by simp only [encStruct, he]
  · exact (hw suf hs).reads.congr fun b _ => key b

/-- Every variant, written by the encoder, is told from the others by the decoder. -/
def TagsBack (E : EnumDef V) (ca : Option CAttr) (fa : Option FAttr) : Prop := ∀ i v num, E.IsVariant i v num →
  (E.mode = .uint ∧ fa.bind (·.branch) ≠ none) ∨ ∃ t tw, TagWire E v num ca fa t tw ∧ E.Selects t i v

theorem Repeats.decTag (own ca : Option CAttr) (fa : Option FAttr) : Repeats (decTag own ca fa) := by
  have h8 : Repeats (JBytes.takeU8 >>= fun n => (Pure.pure n.toNat : M Nat)) := Repeats.takeU8.map fun n => n.toNat
  unfold JBytes.decTag
  repeat' split
  all_goals first | exact Repeats.pure _ | exact Repeats.takeUint _ _ | exact h8

theorem Renews.enum {last : Bool} (E : EnumDef V) (hw : E.withDecode = none) (hm : ∀ u, E.mode ≠ .startsWith u)
    (hv : ∀ v ∈ E.variants, v.attrs.isUse = false ∧ v.attrs.byteorder = none ∧ v.attrs.offset = none ∧ NoLeak none v.fields)
    (hf : ∀ v ∈ E.variants, SegRenews last E.container v.fields) (ca : Option CAttr) (fa : Option FAttr)
    (ht : TagsBack E ca fa) : Renews last (decEnum E ca fa) (fun x => encEnum E x ca fa) := by
  intro b x b' hb he
  have htag : ∀ t b1, E.tagOf ca fa b = (.ok t, b1) → b1.Ok ∧
      ∀ n, E.mode = .uint → fa.bind (·.branch) = some n → t = .num n := by
    intro t b1 h
    unfold EnumDef.tagOf at h
    have aux : ∀ (f : Nat → Tag), mapM' f (decTag E.container ca fa) b = (.ok t, b1) → b1.Ok ∧
        ∀ n, fa.bind (·.branch) = some n → t = f n := by
      intro f h
      rw [mapM'_apply] at h
      rcases hd : decTag E.container ca fa b with ⟨o, b2⟩
      rw [hd] at h
      cases o with
      | ok n =>
        simp only [Prod.mk.injEq, Out.ok.injEq] at h
        refine ⟨h.2 ▸ (Repeats.decTag _ _ _).ok hb hd, fun n' hn => ?_⟩
        rw [(C44_tag E.container ca fa b).1 n' hn, Prod.mk.injEq, Out.ok.injEq] at hd
        rw [← h.1, hd.1]
      | _ => simp at h
    cases hmo : E.mode with
    | startsWith u => exact absurd hmo (hm u)
    | uint =>
      rw [hmo] at h
      obtain ⟨a1, a2⟩ := aux Tag.num h
      exact ⟨a1, fun n _ => a2 n⟩
    | takeBytes n =>
      rw [hmo] at h
      simp only [mapM'_apply] at h
      rcases hd : takeBytes n b with ⟨o, b2⟩
      rw [hd] at h
      cases o with
      | ok l =>
        simp only [Prod.mk.injEq, Out.ok.injEq] at h
        exact ⟨h.2 ▸ (Gives.takeBytes n).ok hb hd, fun n' h' => by cases h'⟩
      | _ => simp at h
  have key : ∀ b, decEnum E ca fa b = (E.tagOf ca fa >>= fun t => decArm E { vars := localVars E.getVars ca } t) b := by
    intro b
    unfold EnumDef.tagOf
    cases hmo : E.mode with
    | startsWith u => exact absurd hmo (hm u)
    | takeBytes n =>
      simp only [decEnum, hw, hmo, bind_apply, mapM'_apply]
      rcases takeBytes n b with ⟨o, b1⟩
      cases o <;> rfl
    | uint =>
      simp only [decEnum, hw, hmo, bind_apply, mapM'_apply]
      rcases decTag E.container ca fa b with ⟨o, b1⟩
      cases o <;> rfl
  obtain ⟨d1, d2, d3⟩ := C44_dispatch E hw hm ca fa b
  rcases hto : E.tagOf ca fa b with ⟨o, b1⟩
  cases o with
  | ok t =>
    cases hfa : findArm t 0 (E.variants.zip E.numbers) with
    | none =>
      rw [d2 t b1 hto ((findArm_rejects E t).mp hfa)] at he
      simp at he
    | some p =>
      obtain ⟨i, v⟩ := p
      have hsel := (findArm_selects E t i v).mp hfa
      rw [d1 t b1 i v hto hsel, mapM'_apply] at he
      obtain ⟨⟨num, hvar, _⟩, _⟩ := id hsel
      have hmem : v ∈ E.variants := List.mem_of_getElem? hvar.1
      obtain ⟨v1, v2, v3, v4⟩ := hv v hmem
      have hvf : variantFields E ca v b1 = decFields false v.fields E.container none { vars := localVars E.getVars ca } b1 := by
        simp only [variantFields, toCode_unused _ _ v1, bind_apply, pure_apply, skipOffset, v3]
        cases v.tuple with
        | false => rfl
        | true => exact decFields_noLeak _ _ _ _ _ v4
      rw [hvf] at he
      rcases hdf : decFields false v.fields E.container none { vars := localVars E.getVars ca } b1 with ⟨o, b2⟩
      rw [hdf] at he
      cases o with
      | ok vs =>
        simp only [Prod.mk.injEq, Out.ok.injEq] at he
        obtain ⟨rfl, rfl⟩ := he
        obtain ⟨o1, w, hw'⟩ := hf v hmem _ b1 vs b2 (htag t b1 hto).1 hdf
        have htw : ∃ t' tw, TagWire E v num ca fa t' tw ∧ E.Selects t' i v := by
          rcases ht i v num hvar with ⟨q1, q2⟩ | q
          · cases hbr : fa.bind (·.branch) with
            | none => exact absurd hbr q2
            | some n =>
              have := (htag t b1 hto).2 n q1 hbr
              subst this
              exact ⟨_, _, .branch q1 hbr, hsel⟩
          · exact q
        obtain ⟨t', tw, htw, hsel'⟩ := htw
        have hbody : ∀ suf, (last = true → suf = []) → BodyRT E v { vars := localVars E.getVars ca }
            { vars := localVars E.getVars ca } vs w suf := by
          intro suf hs
          have n4 : NoLeak (ownModifiers v.attrs { vars := localVars E.getVars ca }) v.fields := by
            simpa [ownModifiers, v1] using v4
          have o4 : OrderOk v.attrs { vars := localVars E.getVars ca } := fun e he => by rw [v2] at he; cases he
          have s4 := Segments.cons (gs := []) (w2 := []) (us := []) (suf := suf) (by simpa using hw' suf hs) (.nil _ _ _ _)
          exact ⟨o4, o4, n4, n4, rfl, by simpa using s4⟩
        refine ⟨o1, tw ++ (List.replicate (gap v.attrs { vars := localVars E.getVars ca }) v.attrs.full ++ w), ?_, fun suf hs => ?_⟩
        · obtain ⟨_, rfl, q, _⟩ := C45_enum_roundtrip_partial E hw ca ca fa i v num t' vs tw w [] hm hvar htw hsel' rfl
            (hbody [] fun _ => rfl)
          exact q
        · obtain ⟨_, rfl, _, q⟩ := C45_enum_roundtrip_partial E hw ca ca fa i v num t' vs tw w suf hm hvar htw hsel' rfl
            (hbody suf hs)
          exact q
      | _ => simp at he
  | err e =>
    rw [d3 e b1 hto] at he
    simp at he
  | _ =>
    rw [key, bind_apply, hto] at he
    simp at he

end JBytes
