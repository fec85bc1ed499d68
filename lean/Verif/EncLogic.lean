import Verif.Emits
/-!
# Helper lemmas: one induction for all statements about encoders

A property `Φ` of programs that `?`, `return`, failing and `push` respect holds of the encoder of every encodable type.
-/

namespace JBytes
open M

variable {α β V : Type}

/-- Any result. -/
def Any (_ : α) : Prop := True

/-- `Φ α P m`: a property of the program `m` that knows `P` of its results, closed under what encoders are made of. -/
structure EncLogic (Φ : (α : Type) → (α → Prop) → M α → Prop) : Prop where
  bind : ∀ {α β : Type} {P : α → Prop} {Q : β → Prop} {m : M α} {f : α → M β}, Φ α P m → (∀ a, P a → Φ β Q (f a)) →
    Φ β Q (m >>= f)
  pure : ∀ {α : Type} {P : α → Prop} (a : α), P a → Φ α P (Pure.pure a : M α)
  fail : ∀ {α : Type} (P : α → Prop) (c : ErrCode), Φ α P (M.fail c : M α)
  panic : ∀ {α : Type} (P : α → Prop), Φ α P (M.panic : M α)
  timeout : ∀ {α : Type} (P : α → Prop), Φ α P (M.timeout : M α)
  push : ∀ d : List Byte, Φ Nat Any (JBytes.push d)

variable {Φ : (α : Type) → (α → Prop) → M α → Prop} (L : EncLogic Φ)
include L

theorem EncLogic.seq {e1 e2 : M Nat} (h1 : Φ _ Any e1) (h2 : Φ _ Any e2) :
    Φ _ Any (do
      let n ← e1
      let m ← e2
      Pure.pure (n + m)) :=
  L.bind h1 fun _ _ => L.bind h2 fun _ _ => L.pure _ trivial

theorem EncLogic.zero : Φ _ Any (Pure.pure 0 : M Nat) := L.pure 0 trivial

theorem EncLogic.scalar (s : Scalar) (v : Nat) (o : ByteOrder) : Φ _ Any (pushScalar s v o) := by
  rw [pushScalar_eq]
  exact L.push _

theorem EncLogic.uint (v n : Nat) (o : ByteOrder) : Φ _ Any (pushUint v n o) := by
  by_cases h : n ≤ 8
  · rw [pushUint_eq v n o h]
    exact L.push _
  · rw [show pushUint v n o = M.fail .invalidByteLength from funext fun b => pushUint_wide v n o (by omega) b]
    exact L.fail _ _

theorem EncLogic.encAll {e : α → M Nat} (h : ∀ a, Φ _ Any (e a)) : ∀ l : List α, Φ _ Any (encAll e l)
  | [] => L.zero
  | a :: l => L.seq (h a) (EncLogic.encAll h l)

theorem EncLogic.encInt (k : IntKind) (v : Nat) (ca : Option CAttr) (fa : Option FAttr)
    (hb : StartsWord fa) : Φ _ Any (encInt k v ca fa) := by
  unfold JBytes.encInt
  simp only
  have h1 : Φ _ Any (encBits k v (getByteorder ca fa) fa) := by
    unfold encBits
    split
    · exact L.pure _ trivial
    · rename_i fr
      split
      · exact L.pure _ trivial
      · rename_i m hm
        rcases hb fr rfl with h | h
        · rw [hm] at h; cases h
        · simp only [h, if_true]
          exact L.pure _ trivial
  refine L.bind h1 fun x _ => ?_
  split
  · split
    · exact L.fail _ _
    · exact L.uint _ _ _
  · exact L.scalar _ _ _

theorem EncLogic.pushOpt (o : Option (List Byte)) : Φ _ Any (pushOpt o) := by
  cases o with
  | none => exact L.zero
  | some x => exact L.push _

theorem EncLogic.encBytes (d : List Byte) (ca : Option CAttr) (fa : Option FAttr) : Φ _ Any (encBytes d ca fa) := by
  have hpre : Φ _ Any (encBytesPrefix ca fa d.length) := by
    unfold encBytesPrefix
    split
    · exact L.push _
    · split
      · exact L.zero
      · split
        · exact L.uint _ _ _
        · split
          · exact L.zero
          · split
            · exact L.zero
            · split
              · exact L.zero
              · exact L.push _
  unfold JBytes.encBytes
  exact L.bind (L.pushOpt _) fun _ _ => L.bind (L.pushOpt _) fun _ _ => L.bind hpre fun _ _ =>
    L.bind (L.push _) fun _ _ => L.bind (L.pushOpt _) fun _ _ => L.pure _ trivial

theorem EncLogic.encIp (d : List Byte) (ca : Option CAttr) (fa : Option FAttr) : Φ _ Any (encIp d ca fa) := by
  unfold JBytes.encIp pushByteorderArray
  split <;> exact L.push _

theorem EncLogic.encMac (d : List Byte) (ca : Option CAttr) (fa : Option FAttr) : Φ _ Any (encMac d ca fa) :=
  L.uint _ _ _

theorem EncLogic.encIpAddr (v : IpAddr) (ca : Option CAttr) (fa : Option FAttr) : Φ _ Any (encIpAddr v ca fa) := by
  cases v <;> exact L.encIp _ ca fa

theorem EncLogic.encNet (v : NetAddr) (ca : Option CAttr) (fa : Option FAttr) (hb : StartsWord fa) :
    Φ _ Any (encNet v ca fa) := by
  cases v with
  | v4 o => exact L.encIp _ ca fa
  | v6 o => exact L.encIp _ ca fa
  | mac o => exact L.encMac _ ca fa
  | usize n => exact L.encInt _ _ ca fa hb

theorem EncLogic.pushCount (ca : Option CAttr) (fa : Option FAttr) (n : Nat) : Φ _ Any (pushCount ca fa n) := by
  unfold JBytes.pushCount
  split
  · exact L.push _
  · split
    · exact L.uint _ _ _
    · split
      · exact L.zero
      · split
        · exact L.zero
        · exact L.push _

theorem EncLogic.encVec {e : Enc α} {ca : Option CAttr} {fa : Option FAttr} (h : ∀ a, Φ _ Any (e a ca fa))
    (l : List α) : Φ _ Any (encVec e l ca fa) := by
  unfold JBytes.encVec
  split
  · exact L.encAll (fun a => L.seq (L.push _) (h a)) l
  · exact L.seq (L.pushCount ca fa _) (L.encAll h l)

theorem EncLogic.encTuple {ca : Option CAttr} {fa : Option FAttr} : ∀ (es : List (Enc α)) (l : List α),
    (∀ e ∈ es, ∀ a, Φ _ Any (e a ca fa)) → Φ _ Any (encTuple es l ca fa)
  | [], _, _ => by rw [JBytes.encTuple.eq_def]; exact L.zero
  | _ :: _, [], _ => by rw [JBytes.encTuple.eq_def]; exact L.zero
  | e :: es, a :: l, h => L.seq (h e (by simp) a)
      (EncLogic.encTuple es l fun e' he' => h e' (List.mem_cons_of_mem _ he'))

theorem EncLogic.encOption {e : Enc α} {ca : Option CAttr} {fa : Option FAttr}
    (h : ∀ a, Φ _ Any (e a ca fa)) (o : Option α) : Φ _ Any (encOption e o ca fa) := by
  cases o with
  | none => exact L.zero
  | some a => exact h a

theorem EncLogic.encMap {ek : Enc α} {ev : Enc β} {ca : Option CAttr} {fa : Option FAttr}
    (hk : ∀ a, Φ _ Any (ek a ca (keyFattr fa))) (hv : ∀ b, Φ _ Any (ev b ca (valFattr fa)))
    (l : List (α × β)) : Φ _ Any (encMap ek ev l ca fa) :=
  L.seq (L.pushCount ca fa _) (L.encAll (fun x => L.seq (hk x.1) (hv x.2)) l)

/-! ## Derived code -/

theorem EncLogic.toCode {c : Bool} {a : FieldAttrs V} (ha : EncOk c a) (env : Env V) :
    Φ _ StartsWord (a.toCode env) := by
  unfold FieldAttrs.toCode
  split
  · have ho : Φ _ Any (orderCode a.byteorder env) := by
      unfold orderCode
      split
      · exact L.pure _ trivial
      · exact L.pure _ trivial
      · split
        · exact L.pure _ trivial
        · split
          · exact L.pure _ trivial
          · exact L.panic _
    refine L.bind ho fun o _ => L.pure _ ?_
    rintro _ ⟨⟩
    rcases ha.bits with h | h
    · left
      simp [FieldAttrs.modifiers, h]
    · right
      simp [FieldAttrs.modifiers, h]
  · exact L.pure _ StartsWord.none

theorem EncLogic.padLoop (x : Byte) : ∀ n : Nat, Φ _ Any (padLoop x n)
  | 0 => L.pure _ trivial
  | n + 1 => L.bind (L.push [x]) fun _ _ => EncLogic.padLoop x n

theorem EncLogic.padOffset (a : FieldAttrs V) (env : Env V) : Φ _ Any (padOffset a env) := by
  unfold JBytes.padOffset
  split
  · exact L.padLoop _ _
  · exact L.pure _ trivial

theorem EncLogic.encField {c : Bool} {f : Field V} {env : Env V} {v : V} {ca : Option CAttr} {fa : Option FAttr}
    (ha : EncOk c f.attrs) (h : ∀ v, Φ _ Any (f.enc v ca fa)) : Φ _ Any (encField f env v ca fa) := by
  unfold JBytes.encField
  rw [ha.custom]
  simp only
  split
  · exact L.zero
  · have ht : Φ _ Any (encText f.attrs v ca fa) := by
      unfold encText
      split
      · exact L.encBytes _ ca fa
      · exact L.zero
    have hp : Φ _ Any (encPlain f env v ca fa) := by
      unfold encPlain
      refine L.bind (L.padOffset f.attrs env) fun _ _ => ?_
      split
      · exact h _
      · exact h _
    refine L.bind ht fun n _ => ?_
    split
    · exact L.bind hp fun m _ => L.pure _ trivial
    · exact L.pure _ trivial

theorem EncLogic.encFields {c : Bool} (keep : Bool) : ∀ (fs : List (Field V)) (ca : Option CAttr) (old : Option FAttr)
    (env : Env V) (vs : List V), StartsWord old →
    (∀ f ∈ fs, EncOk c f.attrs ∧ ∀ v ca fa, StartsWord fa → Φ _ Any (f.enc v ca fa)) →
    Φ _ Any (encFields keep fs ca old env vs) := by
  intro fs
  induction fs with
  | nil => intro ca old env vs _ _; rw [JBytes.encFields.eq_def]; exact L.zero
  | cons f fs ih =>
    intro ca old env vs ho hf
    cases vs with
    | nil => rw [JBytes.encFields.eq_def]; exact L.zero
    | cons v vs =>
      rw [JBytes.encFields.eq_def]
      simp only
      have hstart : Φ _ StartsWord
          (if (keep && !f.attrs.isUse) = true then (Pure.pure old : M _) else f.attrs.toCode env) := by
        split
        · exact L.pure _ ho
        · exact L.toCode (hf f (by simp)).1 env
      refine L.bind hstart fun fa hfa => ?_
      exact L.seq (L.encField (hf f (by simp)).1 fun v => (hf f (by simp)).2 v ca fa hfa)
        (ih _ _ _ _ hfa fun g hg => hf g (List.mem_cons_of_mem _ hg))

theorem EncLogic.encTagMode (E : EnumDef V) (v : Variant V) (num : Nat) (ca : Option CAttr)
    (fa : Option FAttr) : Φ _ Any (encTagMode E v num ca fa) := by
  have hb : Φ _ Any (encTagByte E.byteCountDisable num) := by
    unfold encTagByte
    split
    · exact L.zero
    · exact L.push _
  unfold JBytes.encTagMode
  split
  · exact L.push _
  · exact L.zero
  · exact L.push _
  · unfold encTag
    split
    · split
      · exact L.zero
      · split
        · exact L.uint _ _ _
        · split
          · exact L.uint _ _ _
          · exact hb
    · split
      · exact L.uint _ _ _
      · exact hb

theorem EncLogic.encEnum {c : Bool} (E : EnumDef V) (x : Nat × List V) (ca : Option CAttr) (fa : Option FAttr)
    (hv : ∀ v ∈ E.variants, EncOk c v.attrs)
    (hf : ∀ v ∈ E.variants, ∀ f ∈ v.fields, EncOk c f.attrs ∧
      ∀ v ca fa, StartsWord fa → Φ _ Any (f.enc v ca fa)) : Φ _ Any (encEnum E x ca fa) := by
  unfold JBytes.encEnum
  split
  · rename_i v num hx
    have hmem : v ∈ E.variants := (List.of_mem_zip (List.mem_of_getElem? hx)).1
    unfold encVariant
    simp only
    exact L.bind (L.toCode (hv v hmem) _) fun old hold => L.bind (L.encTagMode E v num ca fa) fun n _ =>
      L.bind (L.padOffset _ _) fun _ _ => L.bind (L.encFields true _ _ _ _ _ hold (hf v hmem)) fun m _ =>
        L.pure _ trivial
  · exact L.zero

/-- What an encodable type writes does not depend on the buffer. -/
theorem EncLogic.encodable {c : Bool} {e : Enc α} (h : Encodable c α e) : ∀ (v : α) (ca : Option CAttr)
    (fa : Option FAttr), StartsWord fa → Φ _ Any (e v ca fa) := by
  induction h with
  | stop => intro v ca fa _; exact L.timeout _
  | int k => intro v ca fa hb; exact L.encInt k v ca fa hb
  | f32 => intro v ca fa _; exact L.scalar _ _ _
  | f64 => intro v ca fa _; exact L.scalar _ _ _
  | bool => intro v ca fa _; exact L.push _
  | char => intro v ca fa _; exact L.push _
  | bytes => intro v ca fa _; exact L.encBytes v ca fa
  | ip => intro v ca fa _; exact L.encIp v ca fa
  | ipAddr => intro v ca fa _; exact L.encIpAddr v ca fa
  | mac => intro v ca fa _; exact L.encMac v ca fa
  | net => intro v ca fa hb; exact L.encNet v ca fa hb
  | unit => intro v ca fa _; exact L.zero
  | vec _ ih => intro v ca fa hb; exact L.encVec (fun a => ih a ca fa hb) v
  | array _ ih => intro v ca fa hb; exact L.encAll (fun a => ih a ca fa hb) v
  | tuple es _ ih => intro v ca fa hb; exact L.encTuple es v fun e he a => ih e he a ca fa hb
  | option _ ih => intro v ca fa hb; exact L.encOption (fun a => ih a ca fa hb) v
  | map _ _ ihk ihv =>
    intro v ca fa hb
    exact L.encMap (fun a => ihk a ca _ hb.key) (fun b => ihv b ca _ hb.val) v
  | project g _ ih => intro v ca fa hb; exact L.encOption (fun a => ih a ca fa hb) (g v)
  | struct S hw ha _ ih =>
    intro v ca fa _
    unfold encStruct
    rw [hw]
    exact L.encFields false _ _ _ _ _ StartsWord.none fun f hf => ⟨ha f hf, ih f hf⟩
  | enum E hv ha _ ih =>
    intro x ca fa _
    exact L.encEnum E x ca fa hv fun v hvm f hf => ⟨ha v hvm f hf, ih v hvm f hf⟩

end JBytes
