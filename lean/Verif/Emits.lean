import Verif.Universe
import Verif.WriteLemmas
import Verif.SeqLemmas
/-!
# Helper lemmas: encoders only append, and count what they append
-/

namespace JBytes
open M

variable {α β V : Type}

/-- From the end of a buffer a successful run appends some bytes, stays at the end, and `R` relates the result
and the number of bytes. -/
def Emits (R : α → Nat → Prop) (e : M α) : Prop := ∀ (pre : List Byte) (a : α) (b' : Buf), pre.length ≤ isizeMax →
  e ⟨pre, pre.length⟩ = (.ok a, b') →
  ∃ w, b' = ⟨pre ++ w, (pre ++ w).length⟩ ∧ (pre ++ w).length ≤ isizeMax ∧ R a w.length

/-- The result is the number of bytes (if `c`). -/
def Cnt (c : Bool) (n k : Nat) : Prop := c = true → n = k

theorem Emits.bind {R : α → Nat → Prop} {S : β → Nat → Prop} {e : M α} {f : α → M β} (he : Emits R e)
    (hf : ∀ a k, R a k → Emits (fun b l => S b (k + l)) (f a)) : Emits S (e >>= f) := by
  intro pre b b' hp h
  rw [bind_apply] at h
  rcases hm : e ⟨pre, pre.length⟩ with ⟨o, b1⟩
  rw [hm] at h
  cases o with
  | ok a =>
    simp only at h
    obtain ⟨w, rfl, hl, hr⟩ := he pre a b1 hp hm
    obtain ⟨w', rfl, hl', hs⟩ := hf a _ hr (pre ++ w) b b' hl h
    refine ⟨w ++ w', by simp only [List.append_assoc], by rw [← List.append_assoc]; exact hl', ?_⟩
    rw [List.length_append]
    exact hs
  | _ => cases h

theorem Emits.pure {R : α → Nat → Prop} (a : α) (h : R a 0) : Emits R (Pure.pure a : M α) := by
  intro pre x b' hp he
  cases he
  exact ⟨[], by simp, by simpa using hp, h⟩

theorem Emits.mono {R S : α → Nat → Prop} {e : M α} (h : Emits R e) (hs : ∀ a k, R a k → S a k) : Emits S e := by
  intro pre a b' hp he
  obtain ⟨w, h1, h2, h3⟩ := h pre a b' hp he
  exact ⟨w, h1, h2, hs _ _ h3⟩

theorem Emits.fail (R : α → Nat → Prop) (c : ErrCode) : Emits R (M.fail c : M α) := by
  intro pre a b' _ h
  cases h

theorem Emits.panic (R : α → Nat → Prop) : Emits R (M.panic : M α) := by
  intro pre a b' _ h
  cases h

theorem vecResize_panic (n : Nat) (b : Buf) (h : ¬ n ≤ isizeMax) : vecResize n b = (.panic, b) := by
  unfold vecResize
  rw [if_neg h]

theorem overwrite_panic (d : List Byte) (b : Buf) (h : ¬ (b.pos ≤ b.data.length ∧ d.length ≤ b.data.length - b.pos)) :
    overwrite d b = (.panic, b) := by
  unfold overwrite
  rw [if_neg h]

theorem Emits.push (d : List Byte) : Emits (fun n k => n = k ∧ k = d.length) (push d) := by
  intro pre n b' hp h
  by_cases hs : pre.length + d.length ≤ isizeMax
  · rw [push_end pre d hs] at h
    cases h
    exact ⟨d, by simp, by simpa using hs, rfl, rfl⟩
  · exfalso
    have h3 := isizeMax_lt
    unfold JBytes.push at h
    simp only [bind_apply, remainingLen_apply, ite_apply', Nat.sub_self] at h
    rw [if_pos (by omega)] at h
    unfold bufResize at h
    simp only [bind_apply, getPos_apply, pure_apply] at h
    by_cases hm : wadd pre.length d.length ≤ isizeMax
    · rw [vecResize_apply _ _ hm] at h
      simp only at h
      by_cases h0 : wadd pre.length d.length = 0
      · rw [if_pos h0] at h
        cases h
      · rw [if_neg h0] at h
        have hbig : isizeMax < d.length := by
          by_cases hlt : pre.length + d.length < usizeMod
          · rw [wadd_eq hlt] at hm; omega
          · have := isizeMax_def
            have := usizeMod_def
            omega
        rw [overwrite_panic _ _ (by
          simp only [List.length_append, List.length_take, List.length_replicate]
          omega)] at h
        cases h
    · rw [vecResize_panic _ _ hm] at h
      cases h

theorem Emits.count {d : List Byte} (c : Bool) : Emits (Cnt c) (JBytes.push d) :=
  (Emits.push d).mono fun _ _ h _ => h.1

theorem Emits.seq {c : Bool} {e1 e2 : M Nat} (h1 : Emits (Cnt c) e1) (h2 : Emits (Cnt c) e2) :
    Emits (Cnt c) (do
      let n ← e1
      let m ← e2
      Pure.pure (n + m)) := by
  refine h1.bind fun n k hn => h2.bind fun m l hm => Emits.pure _ ?_
  intro hc
  rw [hn hc, hm hc]
  rfl

theorem Emits.zero {c : Bool} : Emits (Cnt c) (Pure.pure 0 : M Nat) := Emits.pure 0 fun _ => rfl

theorem Emits.scalar {c : Bool} (s : Scalar) (v : Nat) (o : ByteOrder) : Emits (Cnt c) (pushScalar s v o) := by
  rw [pushScalar_eq]
  exact Emits.count c

theorem Emits.uint {c : Bool} (v n : Nat) (o : ByteOrder) : Emits (Cnt c) (pushUint v n o) := by
  by_cases h : n ≤ 8
  · rw [pushUint_eq v n o h]
    exact Emits.count c
  · intro pre a b' _ he
    rw [pushUint_wide v n o (by omega)] at he
    cases he

theorem Emits.encAll {c : Bool} {e : α → M Nat} (h : ∀ a, Emits (Cnt c) (e a)) : ∀ l : List α,
    Emits (Cnt c) (encAll e l)
  | [] => Emits.zero
  | a :: l => Emits.seq (h a) (Emits.encAll h l)

/-! ## Codecs of the crate -/

theorem Emits.encInt {c : Bool} (k : IntKind) (v : Nat) (ca : Option CAttr) (fa : Option FAttr)
    (hb : StartsWord fa) : Emits (Cnt c) (encInt k v ca fa) := by
  unfold JBytes.encInt
  simp only
  have h1 : Emits (fun _ l => l = 0) (encBits k v (getByteorder ca fa) fa) := by
    unfold encBits
    split
    · exact Emits.pure _ rfl
    · rename_i fr
      split
      · exact Emits.pure _ rfl
      · rename_i m hm
        rcases hb fr rfl with h | h
        · rw [hm] at h; cases h
        · simp only [h, if_true]
          exact Emits.pure _ rfl
  refine h1.bind fun x l hl => ?_
  subst hl
  simp only [Nat.zero_add]
  split
  · split
    · exact Emits.fail _ _
    · exact Emits.uint _ _ _
  · exact Emits.scalar _ _ _

theorem Emits.pushOpt {c : Bool} (o : Option (List Byte)) : Emits (Cnt c) (pushOpt o) := by
  cases o with
  | none => exact Emits.zero
  | some x => exact Emits.count c

theorem Emits.encBytes {c : Bool} (d : List Byte) (ca : Option CAttr) (fa : Option FAttr) :
    Emits (Cnt c) (encBytes d ca fa) := by
  have hpre : Emits (Cnt c) (encBytesPrefix ca fa d.length) := by
    unfold encBytesPrefix
    split
    · exact Emits.count c
    · split
      · exact Emits.zero
      · split
        · exact Emits.uint _ _ _
        · split
          · exact Emits.zero
          · split
            · exact Emits.zero
            · split
              · exact Emits.zero
              · exact Emits.count c
  unfold JBytes.encBytes
  refine (Emits.pushOpt (c := c) _).bind fun n1 k1 h1 => (Emits.pushOpt (c := c) _).bind fun n2 k2 h2 => hpre.bind fun n3 k3 h3 =>
    (Emits.count c).bind fun n4 k4 h4 => (Emits.pushOpt (c := c) _).bind fun n5 k5 h5 => Emits.pure _ ?_
  intro hc
  rw [h1 hc, h2 hc, h3 hc, h4 hc, h5 hc]
  omega

theorem Emits.encIp {c : Bool} (d : List Byte) (ca : Option CAttr) (fa : Option FAttr) :
    Emits (Cnt c) (encIp d ca fa) := by
  unfold JBytes.encIp pushByteorderArray
  split <;> exact Emits.count c

theorem Emits.encMac {c : Bool} (d : List Byte) (ca : Option CAttr) (fa : Option FAttr) :
    Emits (Cnt c) (encMac d ca fa) := Emits.uint _ _ _

theorem Emits.encIpAddr {c : Bool} (v : IpAddr) (ca : Option CAttr) (fa : Option FAttr) :
    Emits (Cnt c) (encIpAddr v ca fa) := by
  cases v <;> exact Emits.encIp _ ca fa

theorem Emits.encNet {c : Bool} (v : NetAddr) (ca : Option CAttr) (fa : Option FAttr) (hb : StartsWord fa) :
    Emits (Cnt c) (encNet v ca fa) := by
  cases v with
  | v4 o => exact Emits.encIp _ ca fa
  | v6 o => exact Emits.encIp _ ca fa
  | mac o => exact Emits.encMac _ ca fa
  | usize n => exact Emits.encInt _ _ ca fa hb

theorem Emits.pushCount {c : Bool} (ca : Option CAttr) (fa : Option FAttr) (n : Nat) :
    Emits (Cnt c) (pushCount ca fa n) := by
  unfold JBytes.pushCount
  split
  · exact Emits.count c
  · split
    · exact Emits.uint _ _ _
    · split
      · exact Emits.zero
      · split
        · exact Emits.zero
        · exact Emits.count c

theorem Emits.encVec {c : Bool} {e : Enc α} {ca : Option CAttr} {fa : Option FAttr} (h : ∀ a, Emits (Cnt c) (e a ca fa))
    (l : List α) : Emits (Cnt c) (encVec e l ca fa) := by
  unfold JBytes.encVec
  split
  · exact Emits.encAll (fun a => Emits.seq (Emits.count c) (h a)) l
  · exact Emits.seq (Emits.pushCount ca fa _) (Emits.encAll h l)

theorem Emits.encTuple {c : Bool} {ca : Option CAttr} {fa : Option FAttr} : ∀ (es : List (Enc α)) (l : List α),
    (∀ e ∈ es, ∀ a, Emits (Cnt c) (e a ca fa)) → Emits (Cnt c) (encTuple es l ca fa)
  | [], _, _ => by rw [JBytes.encTuple.eq_def]; exact Emits.zero
  | _ :: _, [], _ => by rw [JBytes.encTuple.eq_def]; exact Emits.zero
  | e :: es, a :: l, h => Emits.seq (h e (by simp) a)
      (Emits.encTuple es l fun e' he' => h e' (List.mem_cons_of_mem _ he'))

theorem Emits.encOption {c : Bool} {e : Enc α} {ca : Option CAttr} {fa : Option FAttr}
    (h : ∀ a, Emits (Cnt c) (e a ca fa)) (o : Option α) : Emits (Cnt c) (encOption e o ca fa) := by
  cases o with
  | none => exact Emits.zero
  | some a => exact h a

theorem Emits.encMap {c : Bool} {ek : Enc α} {ev : Enc β} {ca : Option CAttr} {fa : Option FAttr}
    (hk : ∀ a, Emits (Cnt c) (ek a ca (keyFattr fa))) (hv : ∀ b, Emits (Cnt c) (ev b ca (valFattr fa)))
    (l : List (α × β)) : Emits (Cnt c) (encMap ek ev l ca fa) :=
  Emits.seq (Emits.pushCount ca fa _) (Emits.encAll (fun x => Emits.seq (hk x.1) (hv x.2)) l)

theorem StartsWord.none : StartsWord none := fun _ h => nomatch h

theorem StartsWord.key {fa : Option FAttr} (h : StartsWord fa) : StartsWord (keyFattr fa) := by
  unfold keyFattr
  split
  · exact StartsWord.none
  · split
    · rintro _ ⟨⟩
      exact .inl rfl
    · exact h

theorem StartsWord.val {fa : Option FAttr} (h : StartsWord fa) : StartsWord (valFattr fa) := by
  unfold valFattr
  split
  · exact StartsWord.none
  · split
    · rintro _ ⟨⟩
      exact .inl rfl
    · split
      · rintro _ ⟨⟩
        exact .inl rfl
      · exact h

/-! ## Derived code -/

theorem Emits.toCode {c : Bool} {a : FieldAttrs V} (ha : EncOk c a) (env : Env V) :
    Emits (fun fa k => k = 0 ∧ StartsWord fa) (a.toCode env) := by
  unfold FieldAttrs.toCode
  split
  · have ho : Emits (fun _ k => k = 0) (orderCode a.byteorder env) := by
      unfold orderCode
      split
      · exact Emits.pure _ rfl
      · exact Emits.pure _ rfl
      · split
        · exact Emits.pure _ rfl
        · split
          · exact Emits.pure _ rfl
          · exact Emits.panic _
    refine ho.bind fun o k hk => Emits.pure _ ⟨by omega, ?_⟩
    rintro _ ⟨⟩
    rcases ha.bits with h | h
    · left
      simp [FieldAttrs.modifiers, h]
    · right
      simp [FieldAttrs.modifiers, h]
  · exact Emits.pure _ ⟨rfl, StartsWord.none⟩

theorem Emits.padLoop (x : Byte) : ∀ n : Nat, Emits (fun _ k => k = n) (padLoop x n)
  | 0 => Emits.pure _ rfl
  | n + 1 => by
    refine (Emits.push [x]).bind fun _ k hk => (Emits.padLoop x n).mono fun _ l hl => ?_
    obtain ⟨_, h2⟩ := hk
    simp at h2
    omega

theorem Emits.padOffset {c : Bool} {a : FieldAttrs V} (ha : EncOk c a) (env : Env V) :
    Emits (fun _ k => c = true → k = 0) (padOffset a env) := by
  unfold JBytes.padOffset
  split
  · rename_i e he
    exact (Emits.padLoop _ _).mono fun _ _ _ hc => by rw [ha.offset hc] at he; cases he
  · exact Emits.pure _ fun _ => rfl

theorem Emits.encField {c : Bool} {f : Field V} {env : Env V} {v : V} {ca : Option CAttr} {fa : Option FAttr}
    (ha : EncOk c f.attrs) (h : ∀ v, Emits (Cnt c) (f.enc v ca fa)) : Emits (Cnt c) (encField f env v ca fa) := by
  unfold JBytes.encField
  rw [ha.custom]
  simp only
  split
  · exact Emits.zero
  · have ht : Emits (Cnt c) (encText f.attrs v ca fa) := by
      unfold encText
      split
      · exact Emits.encBytes _ ca fa
      · exact Emits.zero
    have hp : Emits (Cnt c) (encPlain f env v ca fa) := by
      unfold encPlain
      refine (Emits.padOffset ha env).bind fun _ k hk => ?_
      have hs : ∀ v, Emits (fun b l => Cnt c b (k + l)) (f.enc v ca fa) := fun v =>
        (h v).mono fun b l hb hc => by rw [hb hc, hk hc]; omega
      split
      · exact hs _
      · exact hs _
    refine ht.bind fun n k hn => ?_
    split
    · refine hp.bind fun m l hm => Emits.pure _ ?_
      intro hc
      rw [hn hc, hm hc]
      omega
    · exact Emits.pure _ fun hc => by rw [hn hc]; rfl

theorem Emits.encFields {c : Bool} (keep : Bool) : ∀ (fs : List (Field V)) (ca : Option CAttr) (old : Option FAttr)
    (env : Env V) (vs : List V), StartsWord old →
    (∀ f ∈ fs, EncOk c f.attrs ∧ ∀ v ca fa, StartsWord fa → Emits (Cnt c) (f.enc v ca fa)) →
    Emits (Cnt c) (encFields keep fs ca old env vs) := by
  intro fs
  induction fs with
  | nil => intro ca old env vs _ _; rw [JBytes.encFields.eq_def]; exact Emits.zero
  | cons f fs ih =>
    intro ca old env vs ho hf
    cases vs with
    | nil => rw [JBytes.encFields.eq_def]; exact Emits.zero
    | cons v vs =>
      rw [JBytes.encFields.eq_def]
      simp only
      have hstart : Emits (fun fa k => k = 0 ∧ StartsWord fa)
          (if (keep && !f.attrs.isUse) = true then (Pure.pure old : M _) else f.attrs.toCode env) := by
        split
        · exact Emits.pure _ ⟨rfl, ho⟩
        · exact Emits.toCode (hf f (by simp)).1 env
      refine hstart.bind fun fa k hk => ?_
      obtain ⟨rfl, hfa⟩ := hk
      simp only [Nat.zero_add]
      exact Emits.seq (Emits.encField (hf f (by simp)).1 fun v => (hf f (by simp)).2 v ca fa hfa)
        (ih _ _ _ _ hfa fun g hg => hf g (List.mem_cons_of_mem _ hg))

theorem Emits.encTagMode {c : Bool} (E : EnumDef V) (v : Variant V) (num : Nat) (ca : Option CAttr)
    (fa : Option FAttr) : Emits (Cnt c) (encTagMode E v num ca fa) := by
  have hb : Emits (Cnt c) (encTagByte E.byteCountDisable num) := by
    unfold encTagByte
    split
    · exact Emits.zero
    · exact Emits.count c
  unfold JBytes.encTagMode
  split
  · exact Emits.count c
  · exact Emits.zero
  · exact Emits.count c
  · unfold encTag
    split
    · split
      · exact Emits.zero
      · split
        · exact Emits.uint _ _ _
        · split
          · exact Emits.uint _ _ _
          · exact hb
    · split
      · exact Emits.uint _ _ _
      · exact hb

theorem Emits.encEnum {c : Bool} (E : EnumDef V) (x : Nat × List V) (ca : Option CAttr) (fa : Option FAttr)
    (hv : ∀ v ∈ E.variants, EncOk c v.attrs)
    (hf : ∀ v ∈ E.variants, ∀ f ∈ v.fields, EncOk c f.attrs ∧
      ∀ v ca fa, StartsWord fa → Emits (Cnt c) (f.enc v ca fa)) : Emits (Cnt c) (encEnum E x ca fa) := by
  unfold JBytes.encEnum
  split
  · rename_i v num hx
    have hmem : v ∈ E.variants := (List.of_mem_zip (List.mem_of_getElem? hx)).1
    unfold encVariant
    simp only
    refine (Emits.toCode (hv v hmem) _).bind fun old k hk => ?_
    obtain ⟨rfl, hold⟩ := hk
    simp only [Nat.zero_add]
    refine (Emits.encTagMode (c := c) E v num ca fa).bind fun n k1 hn => ?_
    refine (Emits.padOffset (hv v hmem) _).bind fun _ k2 h2 => ?_
    refine (Emits.encFields true _ _ _ _ _ hold (hf v hmem)).bind fun m k3 hm => Emits.pure _ ?_
    intro hc
    rw [hn hc, hm hc, h2 hc]
    omega
  · exact Emits.zero

/-- Every encodable type appends; without `offset` it also reports the number of bytes. -/
theorem Encodable.emits {c : Bool} {e : Enc α} (h : Encodable c α e) : ∀ (v : α) (ca : Option CAttr)
    (fa : Option FAttr), StartsWord fa → Emits (Cnt c) (e v ca fa) := by
  induction h with
  | stop => intro v ca fa _ pre a b' _ h; cases h
  | int k => intro v ca fa hb; exact Emits.encInt k v ca fa hb
  | f32 => intro v ca fa _; exact Emits.scalar _ _ _
  | f64 => intro v ca fa _; exact Emits.scalar _ _ _
  | bool => intro v ca fa _; exact Emits.count c
  | char => intro v ca fa _; exact Emits.count c
  | bytes => intro v ca fa _; exact Emits.encBytes v ca fa
  | ip => intro v ca fa _; exact Emits.encIp v ca fa
  | ipAddr => intro v ca fa _; exact Emits.encIpAddr v ca fa
  | mac => intro v ca fa _; exact Emits.encMac v ca fa
  | net => intro v ca fa hb; exact Emits.encNet v ca fa hb
  | unit => intro v ca fa _; exact Emits.zero
  | vec _ ih => intro v ca fa hb; exact Emits.encVec (fun a => ih a ca fa hb) v
  | array _ ih => intro v ca fa hb; exact Emits.encAll (fun a => ih a ca fa hb) v
  | tuple es _ ih => intro v ca fa hb; exact Emits.encTuple es v fun e he a => ih e he a ca fa hb
  | option _ ih => intro v ca fa hb; exact Emits.encOption (fun a => ih a ca fa hb) v
  | map _ _ ihk ihv =>
    intro v ca fa hb
    exact Emits.encMap (fun a => ihk a ca _ hb.key) (fun b => ihv b ca _ hb.val) v
  | project g _ ih => intro v ca fa hb; exact Emits.encOption (fun a => ih a ca fa hb) (g v)
  | struct S hw ha _ ih =>
    intro v ca fa _
    unfold encStruct
    rw [hw]
    exact Emits.encFields false _ _ _ _ _ StartsWord.none fun f hf => ⟨ha f hf, ih f hf⟩
  | enum E hv ha _ ih =>
    intro x ca fa _
    exact Emits.encEnum E x ca fa hv fun v hvm f hf => ⟨ha v hvm f hf, ih v hvm f hf⟩

end JBytes
