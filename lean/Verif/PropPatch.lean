import Verif.Patch
/-!
# C113: a field of an encoded message can be overwritten where it stands
-/

namespace JBytes
open M

variable {α β V : Type}

/-- What the generated encoder of `S` does for field `f` after fields with values `vs`: the modifiers of the field are
computed, and its value is written at the position. -/
def writeField (S : StructDef V) (ca : Option CAttr) (vs : List V) (f : Field V) (x : V) : M Nat := do
  let fa ← f.attrs.toCode { vars := localVars S.getVars ca, fields := vs }
  encField f { vars := localVars S.getVars ca, fields := vs } x S.container fa

/-- C113 (in order): the bytes of the first fields do not depend on the fields after them: they are there, at the same
place, when the first fields are encoded alone. -/
theorem C113_prefix (c : Bool) (S : StructDef V) (hw : S.withEncode = none)
    (hS : ∀ f ∈ S.fields, EncOk c f.attrs ∧ Encodable c V f.enc) (fs gs : List (Field V)) (hf : S.fields = fs ++ gs)
    (vs us : List V) (hl : vs.length = fs.length) (ca : Option CAttr) (fa : Option FAttr) (b b' : Buf)
    (hp : b.pos ≤ b.data.length) (hs : b.data.length ≤ isizeMax) (n : Nat)
    (he : encStruct S (vs ++ us) ca fa b = (.ok n, b')) :
    ∃ k b1, encStruct { S with fields := fs } vs ca fa b = (.ok k, b1) ∧ b.pos ≤ b1.pos ∧ b1.pos ≤ b'.pos ∧
      b'.data.take b1.pos = b1.data.take b1.pos := by
  have hb : b.Ok := ⟨hp, hs⟩
  unfold encStruct at he ⊢
  simp only [hw] at he ⊢
  rw [hf, encFields_append fs gs _ _ vs us hl.symm] at he
  obtain ⟨k, b1, e1, e2⟩ := bind_ok he
  obtain ⟨m, b2, e3, e4⟩ := bind_ok e2
  rw [pure_apply, Prod.mk.injEq, Out.ok.injEq] at e4
  obtain ⟨_, rfl⟩ := e4
  obtain ⟨w1, rfl, r1, _⟩ := (encFields_placed (c := c) fs (fun f h => hS f (by simp [hf, h])) _ _ _).ran hb e1
  obtain ⟨w2, rfl, r2, _⟩ := (encFields_placed (c := c) gs (fun f h => hS f (by simp [hf, h])) _ _ _).ran
    (window_ok hb w1 r1) e3
  refine ⟨k, window b w1, e1, by simp [window], by simp [window], ?_⟩
  rw [window_window hb]
  have hp' : (b.data.take b.pos).length = b.pos := by rw [List.length_take]; omega
  simp only [window]
  rw [show b.data.take b.pos ++ (w1 ++ w2) ++ b.data.drop (b.pos + (w1 ++ w2).length)
    = (b.data.take b.pos ++ w1) ++ (w2 ++ b.data.drop (b.pos + (w1 ++ w2).length)) by simp only [List.append_assoc],
    List.take_left' (by rw [List.length_append, hp']), List.take_left' (by rw [List.length_append, hp'])]

/-- C113, the part that holds: after a struct is encoded there are positions `p` and `q` of the field `f`: `p` is
where encoding the fields before it alone ends, and writing the old value at `p` again ends at `q` and changes nothing.
If writing another value `x` at `p` succeeds and ends at `q` as well, the buffer then holds what encoding the struct
with `x` in this field gives.  The fields behind `f` may be of any type, but must not look at `f` in their modifiers.
Missing from the full statement: members of a word of bit fields behind the first one (`C113_violated`) and user-written
encoders.  Fields of enum variants: `C113_variant_partial`. -/
theorem C113_patch_partial (c : Bool) (S : StructDef V) (hw : S.withEncode = none)
    (hS : ∀ f ∈ S.fields, EncOk c f.attrs ∧ Encodable c V f.enc) (fs gs : List (Field V)) (f : Field V)
    (hf : S.fields = fs ++ f :: gs) (hi : ∀ g ∈ gs, Unaware fs.length g.attrs) (vs us : List V) (v : V)
    (hl : vs.length = fs.length) (ca : Option CAttr) (fa : Option FAttr) (b b' : Buf) (hp : b.pos ≤ b.data.length)
    (hs : b.data.length ≤ isizeMax) (n : Nat) (he : encStruct S (vs ++ v :: us) ca fa b = (.ok n, b')) :
    ∃ p q, b.pos ≤ p ∧ p ≤ q ∧ q ≤ b'.pos ∧
      (∃ k d, encStruct { S with fields := fs } vs ca fa b = (.ok k, ⟨d, p⟩)) ∧
      (∃ k, writeField S ca vs f v ⟨b'.data, p⟩ = (.ok k, ⟨b'.data, q⟩)) ∧
      ∀ x k b2, writeField S ca vs f x ⟨b'.data, p⟩ = (.ok k, b2) → b2.pos = q →
        ∃ m, encStruct S (vs ++ x :: us) ca fa b = (.ok m, ⟨b2.data, b'.pos⟩) := by
  have hb : b.Ok := ⟨hp, hs⟩
  have hfS := hS f (by simp [hf])
  have hgS : ∀ g ∈ gs, EncOk c g.attrs ∧ Encodable c V g.enc := fun g h => hS g (by simp [hf, h])
  have hwf : ∀ x, writeField S ca vs f x = fieldEnc f S.container (({ vars := localVars S.getVars ca } : Env V).extend vs) x :=
    fun x => rfl
  simp only [hwf]
  unfold encStruct at he ⊢
  simp only [hw] at he ⊢
  have hwhole := fun x => encFields_append fs (f :: gs) S.container { vars := localVars S.getVars ca } vs (x :: us) hl.symm b
  rw [hf] at he ⊢
  rw [hwhole] at he
  simp only [hwhole]
  clear hwf hwhole
  generalize henv : ({ vars := localVars S.getVars ca } : Env V).extend vs = env at *
  have hlen : env.fields.length = fs.length := by rw [← henv]; simp [Env.extend, hl]
  refine (patch_middle (g := fun i j k => i + (j + k)) (A := encFields false fs S.container none { vars := localVars S.getVars ca } vs)
    (F := fun x => fieldEnc f S.container env x) (R := encFields false gs S.container none (env.push v) us)
    (W := fun x => encFields false fs S.container none { vars := localVars S.getVars ca } vs >>= fun n =>
      encFields false (f :: gs) S.container none env (x :: us) >>= fun m => (Pure.pure (n + m) : M Nat))
    (encFields_placed (c := c) fs (fun f h => hS f (by simp [hf, h])) _ _ _) (fun x => fieldEnc_placed hfS.1 hfS.2 _ _ _)
    (encFields_placed (c := c) gs hgS _ _ _) (fun x b => ?_) hb v he).2
  simp only [bind_apply]
  rcases encFields false fs S.container none { vars := localVars S.getVars ca } vs b with ⟨o, b1⟩
  cases o with
  | ok n1 =>
    simp only [encFields_cons, bind_apply]
    rcases fieldEnc f S.container env x b1 with ⟨o2, b2⟩
    cases o2 with
    | ok n2 =>
      simp only
      have hput : env.push x = (env.push v).put fs.length x := by
        simp [Env.push, Env.put, ← hlen]
      rw [hput, encFields_put x gs _ _ _ hi (by simp [Env.push, hlen])]
      rcases encFields false gs S.container none (env.push v) us b2 with ⟨o3, b3⟩
      cases o3 <;> rfl
    | _ => rfl
  | _ => rfl

/-- C113 (fields without modifiers): any value whose encoding is as long as that of the old one can be written over it
with its own encoder. -/
theorem C113_plain_partial (c : Bool) (S : StructDef V) (hw : S.withEncode = none)
    (hS : ∀ f ∈ S.fields, EncOk c f.attrs ∧ Encodable c V f.enc) (fs gs : List (Field V)) (f : Field V)
    (hf : S.fields = fs ++ f :: gs) (ha : f.attrs = {}) (hi : ∀ g ∈ gs, Unaware fs.length g.attrs) (vs us : List V)
    (v x : V) (hl : vs.length = fs.length) (w w' : List Byte) (k k' : Nat)
    (hv : f.enc v S.container none ⟨[], 0⟩ = (.ok k, ⟨w, w.length⟩))
    (hx : f.enc x S.container none ⟨[], 0⟩ = (.ok k', ⟨w', w'.length⟩)) (hlen : w'.length = w.length)
    (ca : Option CAttr) (fa : Option FAttr) (b b' : Buf) (hp : b.pos ≤ b.data.length) (hs : b.data.length ≤ isizeMax)
    (n : Nat) (he : encStruct S (vs ++ v :: us) ca fa b = (.ok n, b')) :
    ∃ p d d' j m, encStruct { S with fields := fs } vs ca fa b = (.ok j, ⟨d, p⟩) ∧
      f.enc x S.container none ⟨b'.data, p⟩ = (.ok k', ⟨d', p + w'.length⟩) ∧
      encStruct S (vs ++ x :: us) ca fa b = (.ok m, ⟨d', b'.pos⟩) := by
  have hb : b.Ok := ⟨hp, hs⟩
  obtain ⟨p, q, h1, h2, h3, ⟨j, d, h4⟩, ⟨i, h5⟩, h6⟩ :=
    C113_patch_partial c S hw hS fs gs f hf hi vs us v hl ca fa b b' hp hs n he
  have hwf : ∀ x b, writeField S ca vs f x b = f.enc x S.container none b := by
    intro x b
    unfold writeField
    rw [ha]
    show (encField f _ x S.container none) b = _
    simp only [encField, ha, encText, encPlain, padOffset, bind_apply, pure_apply, Bool.or_self, Bool.false_eq_true,
      if_false, Option.isSome_none, Bool.not_false, Bool.or_true, if_true]
    rcases f.enc x S.container none b with ⟨o, b1⟩
    cases o <;> simp
  have hb' : b'.Ok := by
    obtain ⟨w, rfl, r, _⟩ := ((Encodable.struct S hw (fun f h => (hS f h).1) fun f h => (hS f h).2).placed
      (vs ++ v :: us) ca none StartsWord.none).ran hb (by rw [← he]; unfold encStruct; simp only [hw])
    exact window_ok hb w r
  have okp : (⟨b'.data, p⟩ : Buf).Ok := ⟨Nat.le_trans h2 (Nat.le_trans h3 hb'.1), hb'.2⟩
  have ok0 : (⟨[], 0⟩ : Buf).Ok := ⟨Nat.le_refl _, Nat.zero_le _⟩
  have hfe := (hS f (by simp [hf])).2
  obtain ⟨u, hu, ru, au⟩ := (hfe.placed v S.container none StartsWord.none).ran ok0 hv
  obtain ⟨u', hu', ru', au'⟩ := (hfe.placed x S.container none StartsWord.none).ran ok0 hx
  have hu1 : w = u := by simpa [window] using congrArg Buf.data hu
  have hu2 : w' = u' := by simpa [window] using congrArg Buf.data hu'
  subst hu1
  subst hu2
  rw [hwf] at h5
  have hbp := hb'.1
  have hbs := hb'.2
  have hq : q = p + w.length := by
    obtain ⟨u2, hu3, ru3, _⟩ := (hfe.placed v S.container none StartsWord.none).ran okp h5
    obtain ⟨u4, hu5, _, au5⟩ := (hfe.placed v S.container none StartsWord.none).ran okp h5
    have := au ⟨b'.data, 0⟩ ⟨Nat.zero_le _, hbs⟩ (by simpa using ru)
    have h9 := au5 ⟨[], 0⟩ ok0 (by
      have := congrArg Buf.pos hu5
      simp only [window] at this
      simp only
      omega)
    rw [hv] at h9
    have h10 := congrArg (fun r => r.2.data) h9
    simp only [window, List.take_nil, List.nil_append, List.drop_nil, List.append_nil] at h10
    have h11 := congrArg Buf.pos hu5
    simp only [window] at h11
    rw [h10]
    exact h11
  have hrun := au' ⟨b'.data, p⟩ okp (by simp only; omega)
  obtain ⟨m, hm⟩ := h6 x k' _ ((hwf x _).trans hrun) (by simp only [window]; omega)
  exact ⟨p, d, _, j, m, h4, hrun, hm⟩

theorem encInt_empty (k : IntKind) (v : Nat) (ca : Option CAttr) :
    encInt k v ca none ⟨[], 0⟩ = (.ok k.scalar.size,
      ⟨toBytes (getByteorder ca none) k.scalar.size v, (toBytes (getByteorder ca none) k.scalar.size v).length⟩) := by
  show pushScalar k.scalar v (getByteorder ca none) ⟨[], 0⟩ = _
  have h16 := k.scalar.size_le16
  have hm : 16 ≤ isizeMax := by rw [isizeMax_def]; decide
  rw [pushScalar_eq]
  refine (push_end [] _ (by simp only [List.length_nil, toBytes_length]; omega)).trans ?_
  simp

/-- C113 (numbers): an integer field without modifiers can be overwritten by any other number, in the byte order of
the container: a length or a checksum can be put in when the rest of the message is there. -/
theorem C113_number_partial (c : Bool) (S : StructDef V) (hw : S.withEncode = none)
    (hS : ∀ f ∈ S.fields, EncOk c f.attrs ∧ Encodable c V f.enc) (fs gs : List (Field V)) (f : Field V)
    (hf : S.fields = fs ++ f :: gs) (ha : f.attrs = {}) (hi : ∀ g ∈ gs, Unaware fs.length g.attrs) (k : IntKind)
    (hk : k.Valid) (vs us : List V) (v x : V) (i i' : Nat) (hv : f.enc v = encInt k i) (hx : f.enc x = encInt k i')
    (hl : vs.length = fs.length) (ca : Option CAttr) (fa : Option FAttr) (b b' : Buf) (hp : b.pos ≤ b.data.length)
    (hs : b.data.length ≤ isizeMax) (n : Nat) (he : encStruct S (vs ++ v :: us) ca fa b = (.ok n, b')) :
    ∃ p d d' j m, encStruct { S with fields := fs } vs ca fa b = (.ok j, ⟨d, p⟩) ∧
      encInt k i' S.container none ⟨b'.data, p⟩ = (.ok k.size, ⟨d', p + k.size⟩) ∧
      encStruct S (vs ++ x :: us) ca fa b = (.ok m, ⟨d', b'.pos⟩) := by
  obtain ⟨p, d, d', j, m, h1, h2, h3⟩ := C113_plain_partial c S hw hS fs gs f hf ha hi vs us v x hl _ _ _ _
    ((congrFun (congrFun (congrFun hv _) _) _).trans (encInt_empty k i S.container))
    ((congrFun (congrFun (congrFun hx _) _) _).trans (encInt_empty k i' S.container))
    (by simp only [toBytes_length]) ca fa b b' hp hs n he
  rw [hx, toBytes_length, scalar_size hk] at h2
  exact ⟨p, d, d', j, m, h1, h2, h3⟩

/-- C113 (lists): an element of an encoded list can be overwritten by another one of the same encoded length. -/
theorem C113_element (c : Bool) (e : Enc α) (h : Encodable c α e) (ca : Option CAttr) (fa : Option FAttr) (hf : StartsWord fa)
    (l r : List α) (a : α) (b b' : Buf) (hp : b.pos ≤ b.data.length) (hs : b.data.length ≤ isizeMax) (n : Nat)
    (he : encVec e (l ++ a :: r) ca fa b = (.ok n, b')) :
    ∃ p q, b.pos ≤ p ∧ p ≤ q ∧ q ≤ b'.pos ∧ (∃ k, e a ca fa ⟨b'.data, p⟩ = (.ok k, ⟨b'.data, q⟩)) ∧
      ∀ x k b2, e x ca fa ⟨b'.data, p⟩ = (.ok k, b2) → b2.pos = q →
        ∃ m, encVec e (l ++ x :: r) ca fa b = (.ok m, ⟨b2.data, b'.pos⟩) := by
  have hb : b.Ok := ⟨hp, hs⟩
  have L := Placed.logic
  have hel := fun a => h.placed a ca fa hf
  cases hloop : fa.bind (·.loopSkipStarts) with
  | none =>
    obtain ⟨_, p, q, h1, h2, h3, _, h5, h6⟩ := patch_middle (g := fun i j k => i + (j + k))
      (A := pushCount ca fa (l ++ a :: r).length >>= fun i => encAll (fun a => e a ca fa) l >>= fun j => (Pure.pure (i + j) : M Nat))
      (F := fun x => e x ca fa) (R := encAll (fun a => e a ca fa) r) (W := fun x => encVec e (l ++ x :: r) ca fa)
      (L.seq (L.pushCount ca fa _) (L.encAll hel l)) hel (L.encAll hel r) (fun x b => by
        unfold encVec
        rw [hloop]
        simp only [bind_apply, List.length_append, List.length_cons]
        rcases pushCount ca fa (l.length + (r.length + 1)) b with ⟨o, b1⟩
        cases o with
        | ok i =>
          simp only [encAll_append, encAll, bind_apply]
          rcases encAll (fun a => e a ca fa) l b1 with ⟨o2, b2⟩
          cases o2 with
          | ok j =>
            simp only [pure_apply]
            rcases e x ca fa b2 with ⟨o3, b3⟩
            cases o3 with
            | ok k =>
              simp only
              rcases encAll (fun a => e a ca fa) r b3 with ⟨o4, b4⟩
              cases o4 <;> simp [Nat.add_assoc]
            | _ => rfl
          | _ => rfl
        | _ => rfl) hb a he
    exact ⟨p, q, h1, h2, h3, h5, h6⟩
  | some s =>
    have hel' : ∀ a, Placed Any (push s >>= fun n => e a ca fa >>= fun m => (Pure.pure (n + m) : M Nat)) :=
      fun a => L.seq (L.push s) (hel a)
    obtain ⟨_, p, q, h1, h2, h3, _, h5, h6⟩ := patch_middle (g := fun i j k => i + (j + k))
      (A := encAll (fun a => push s >>= fun n => e a ca fa >>= fun m => (Pure.pure (n + m) : M Nat)) l >>= fun i =>
        push s >>= fun j => (Pure.pure (i + j) : M Nat))
      (F := fun x => e x ca fa)
      (R := encAll (fun a => push s >>= fun n => e a ca fa >>= fun m => (Pure.pure (n + m) : M Nat)) r)
      (W := fun x => encVec e (l ++ x :: r) ca fa)
      (L.seq (L.encAll hel' l) (L.push s)) hel (L.encAll hel' r) (fun x b => by
        unfold encVec
        rw [hloop]
        simp only [encAll_append, encAll, bind_apply]
        rcases encAll (fun a => push s >>= fun n => e a ca fa >>= fun m => (Pure.pure (n + m) : M Nat)) l b with ⟨o, b1⟩
        cases o with
        | ok i =>
          simp only
          rcases push s b1 with ⟨o2, b2⟩
          cases o2 with
          | ok j =>
            simp only [pure_apply]
            rcases e x ca fa b2 with ⟨o3, b3⟩
            cases o3 with
            | ok k =>
              simp only
              rcases encAll (fun a => push s >>= fun n => e a ca fa >>= fun m => (Pure.pure (n + m) : M Nat)) r b3 with ⟨o4, b4⟩
              cases o4 <;> simp [Nat.add_assoc]
            | _ => rfl
          | _ => rfl
        | _ => rfl) hb a he
    exact ⟨p, q, h1, h2, h3, h5, h6⟩

/-! ## Instances -/

theorem bytesEnc_encodable (c : Bool) : Encodable c Val bytesEnc := by
  have e : bytesEnc = fun v ca fa => encOption encBytes (match v with | .bytes l => some l | _ => none) ca fa := by
    funext v ca fa
    cases v <;> rfl
  rw [e]
  exact .project _ .bytes

/-- A length, a checksum and a body of that length. -/
def datagram : StructDef Val := { fields := [u8Field {}, u16Field {},
  bytesField { isUse := true, length := some fun env => env.num 0 }] }

theorem datagram_ok : ∀ f ∈ datagram.fields, EncOk true f.attrs ∧ Encodable true Val f.enc := by
  intro f hf
  simp only [datagram, List.mem_cons, List.not_mem_nil, or_false] at hf
  rcases hf with rfl | rfl | rfl
  · exact ⟨encOk_plain _, numEnc_encodable _ _⟩
  · exact ⟨encOk_plain _, numEnc_encodable _ _⟩
  · exact ⟨⟨rfl, .inl rfl, fun _ => rfl⟩, bytesEnc_encodable _⟩

/-- The body looks at the length, and not at the checksum. -/
theorem datagram_unaware : ∀ g ∈ [bytesField { isUse := true, length := some fun env => env.num 0 }],
    Unaware 1 g.attrs := by
  intro g hg
  simp only [List.mem_cons, List.not_mem_nil, or_false] at hg
  subst hg
  refine ⟨?_, ?_, ?_, ?_, ?_, ?_, ?_, ?_, ?_, ?_, ?_⟩ <;> intro e h
  case refine_2 =>
    intro env y
    cases h
    simp [Env.num, Env.put]
  all_goals cases h

/-- C113 on `datagram`: the checksum is encoded as 0, and put into the message afterwards. -/
example (len sum : Nat) (body : List Byte) (b b' : Buf) (hp : b.pos ≤ b.data.length) (hs : b.data.length ≤ isizeMax)
    (n : Nat) (he : encStruct datagram [.num len, .num 0, .bytes body] none none b = (.ok n, b')) :
    ∃ p d d' j m, encStruct { datagram with fields := [u8Field {}] } [.num len] none none b = (.ok j, ⟨d, p⟩) ∧
      numEnc ⟨2, false⟩ (.num sum) none none ⟨b'.data, p⟩ = (.ok 2, ⟨d', p + 2⟩) ∧
      encStruct datagram [.num len, .num sum, .bytes body] none none b = (.ok m, ⟨d', b'.pos⟩) :=
  C113_number_partial true datagram rfl datagram_ok [u8Field {}] _ (u16Field {}) rfl rfl datagram_unaware ⟨2, false⟩
    (.mk _ _ (by decide)) [.num len] [.bytes body] (.num 0) (.num sum) 0 sum rfl rfl rfl none none b b' hp hs n he

example : encStruct datagram [.num 2, .num 0, .bytes [7, 8]] none none ⟨[1, 1], 1⟩
      = (.ok 5, ⟨[1, 2, 0, 0, 7, 8], 6⟩) ∧
    numEnc ⟨2, false⟩ (.num 0x1234) none none ⟨[1, 2, 0, 0, 7, 8], 2⟩ = (.ok 2, ⟨[1, 2, 0x12, 0x34, 7, 8], 4⟩) ∧
    encStruct datagram [.num 2, .num 0x1234, .bytes [7, 8]] none none ⟨[1, 1], 1⟩
      = (.ok 5, ⟨[1, 2, 0x12, 0x34, 7, 8], 6⟩) := by decide +kernel

/-- C113 on a list with a marker before each element. -/
example : encVec (encInt ⟨2, false⟩) [1, 2, 3] none (some { loopSkipStarts := some [0x2D] }) ⟨[], 0⟩
      = (.ok 9, ⟨[0x2D, 0, 1, 0x2D, 0, 2, 0x2D, 0, 3], 9⟩) ∧
    encInt ⟨2, false⟩ 7 none (some { loopSkipStarts := some [0x2D] }) ⟨[0x2D, 0, 1, 0x2D, 0, 2, 0x2D, 0, 3], 4⟩
      = (.ok 2, ⟨[0x2D, 0, 1, 0x2D, 0, 7, 0x2D, 0, 3], 6⟩) := by decide +kernel

example (l r : List Nat) (a : Nat) (b b' : Buf) (hp : b.pos ≤ b.data.length) (hs : b.data.length ≤ isizeMax) (n : Nat)
    (he : encVec (encInt ⟨2, false⟩) (l ++ a :: r) none (some { loopSkipStarts := some [0x2D] }) b = (.ok n, b')) :=
  C113_element true _ (.int ⟨2, false⟩) none (some { loopSkipStarts := some [0x2D] }) (by intro a h; cases h; exact .inl rfl)
    l r a b b' hp hs n he

/-- C113 fails for the members of a word of bit fields: written over the first byte of the message, the first member
loses the second one, and the second member is mixed with its old value. -/
theorem C113_violated :
    encStruct flags [.num 1, .num 2, .num 3] none none ⟨[], 0⟩ = (.ok 4, ⟨[0x12, 0, 3], 3⟩) ∧
    writeField flags none [] (u8Field { isUse := true, bits := some fun _ => 0xF0, bitsStart := true }) (.num 3)
      ⟨[0x12, 0, 3], 0⟩ = (.ok 1, ⟨[0x30, 0, 3], 1⟩) ∧
    encStruct flags [.num 3, .num 2, .num 3] none none ⟨[], 0⟩ = (.ok 4, ⟨[0x32, 0, 3], 3⟩) ∧
    writeField flags none [.num 1] (u8Field { isUse := true, bits := some fun _ => 0x0F }) (.num 4)
      ⟨[0x12, 0, 3], 1⟩ = (.ok 1, ⟨[0x16, 0, 3], 1⟩) ∧
    encStruct flags [.num 1, .num 4, .num 3] none none ⟨[], 0⟩ = (.ok 4, ⟨[0x14, 0, 3], 3⟩) := by
  refine ⟨?_, ?_, ?_, ?_, ?_⟩ <;> decide +kernel

end JBytes
