import Verif.PropOrderRead
/-!
# Changing the byte order of a declaration: every outcome of decoding (C110)

For types that look at no byte without consuming it, refused inputs are refused in the other byte order too, with the
same error at the same position; data that ends with the input (`remaining`, `try_count`, `Option`) is included.
-/

namespace JBytes
open M

variable {α β V : Type}

/-! ## Specification -/

/-- `m'` does what `m` does with the numbers turned round: whatever the result of `m` on an input (a value, an error, a
panic), it has consumed pieces such that `m'`, at the same position before the pieces with the numbers turned round and
with as many bytes behind, whatever they are, has the same result and consumes just them. -/
def DecodesTurned (m m' : M α) : Prop := ∀ b : Buf, b.Ok →
  ∃ bs, Sized bs ∧ (m b).2 = ⟨b.data, b.pos + (image bs).length⟩ ∧
    image bs = (b.data.drop b.pos).take (image bs).length ∧
    ∀ pre suf : List Byte, pre.length = b.pos → pre.length + (image bs).length + suf.length = b.data.length →
      m' ⟨pre ++ imageTurned bs ++ suf, pre.length⟩ =
        ((m b).1, ⟨pre ++ imageTurned bs ++ suf, pre.length + (image bs).length⟩)

/-! ## The types -/

/-- Modifiers that search for nothing, with widths of at most 8; with `wide`, every `length` is at most 8. -/
structure NoSearch (wide : Bool) (fr : FAttr) : Prop where
  loops : fr.loopSkipStarts = none
  linend : fr.linend = false
  linendValue : fr.linendValue = none
  key : fr.key = none
  split : fr.split = none
  byteCount : ∀ k, fr.byteCount = some k → k ≤ 8
  outside : ∀ k, fr.byteCountOutside = some k → k ≤ 8
  length : wide = true → ∀ n, fr.length = some n → n ≤ 8

/-- The same, if there are modifiers. -/
def NoSearch? (wide : Bool) (fa : Option FAttr) : Prop := ∀ fr, fa = some fr → NoSearch wide fr

/-- The modifiers of a field or variant: no user-written decoder, no `offset`, nothing put back, and as in `NoSearch`. -/
structure NoPeek {V : Type} (wide : Bool) (a : FieldAttrs V) : Prop where
  custom : a.withDecode = none
  offset : a.offset = none
  untake : a.untake = false
  passed : ∀ o env, NoSearch wide (a.modifiers o env)

/-- The decoders of the crate and of derived types that consume every byte they look at.  With `wide` there may be
128-bit integers. -/
inductive ConsumesAll (wide : Bool) : (α : Type) → Dec α → Prop where
  | int (k : IntKind) : wide = true ∨ k.size ≤ 8 → ConsumesAll wide Nat (decInt k)
  | f32 : ConsumesAll wide Nat decF32
  | f64 : ConsumesAll wide Nat decF64
  | bool : ConsumesAll wide Bool decBool
  | char : ConsumesAll wide Nat decChar
  | bytes : ConsumesAll wide (List Byte) decBytes
  | str : ConsumesAll wide (List Byte) decStr
  | ipv4 : ConsumesAll wide (List Byte) decIpv4
  | ipv6 : ConsumesAll wide (List Byte) decIpv6
  | ip : ConsumesAll wide IpAddr decIpAddr
  | mac : ConsumesAll wide (List Byte) decMac
  | net : ConsumesAll wide NetAddr decNet
  | unit : ConsumesAll wide Unit decUnit
  | vec {α : Type} {d : Dec α} (n : Nat) : ConsumesAll wide α d → ConsumesAll wide (List α) (decVec n d)
  | array {α : Type} {d : Dec α} (k : Nat) : ConsumesAll wide α d → ConsumesAll wide (List α) (decArray k d)
  | tuple {α : Type} (ds : List (Dec α)) : (∀ d ∈ ds, ConsumesAll wide α d) → ConsumesAll wide (List α) (decTuple ds)
  | option {α : Type} {d : Dec α} : ConsumesAll wide α d → ConsumesAll wide (Option α) (decOption d)
  | set {α : Type} [DecidableEq α] {d : Dec α} : ConsumesAll wide α d → ConsumesAll wide (List α) (decSet d)
  | map {α β : Type} [DecidableEq α] {dk : Dec α} {dv : Dec β} : ConsumesAll wide α dk → ConsumesAll wide β dv →
      ConsumesAll wide (List (α × β)) (decMap dk dv)
  /-- A type seen as a part of a sum type. -/
  | inject {α β : Type} {d : Dec α} (g : α → β) : ConsumesAll wide α d → ConsumesAll wide β (fun ca fa => do
      let a ← d ca fa
      return g a)
  | struct {V : Type} (S : StructDef V) : S.withDecode = none → (∀ f ∈ S.fields, NoPeek wide f.attrs) →
      (∀ f ∈ S.fields, ConsumesAll wide V f.dec) → ConsumesAll wide (List V) (decStruct S)
  | enum {V : Type} (E : EnumDef V) : E.withDecode = none → (∀ u, E.mode ≠ .startsWith u) →
      (∀ k, E.container.bind (·.byteCount) = some k → k ≤ 8) → (∀ v ∈ E.variants, NoPeek wide v.attrs) →
      (∀ v ∈ E.variants, ∀ f ∈ v.fields, NoPeek wide f.attrs) →
      (∀ v ∈ E.variants, ∀ f ∈ v.fields, ConsumesAll wide V f.dec) → ConsumesAll wide (Nat × List V) (decEnum E)

/-! ## Helper lemmas -/

theorem DecodesTurned.bind {m m' : M α} {f f' : α → M β} (hm : DecodesTurned m m') (hf : ∀ a, DecodesTurned (f a) (f' a)) :
    DecodesTurned (m >>= f) (m' >>= f') := by
  intro b hb
  obtain ⟨x, hs, hb1, hx, hmx⟩ := hm b hb
  have hle := Mirrors.ok (H := AnyBlocks) hb hx
  rw [bind_apply]
  rcases hr : m b with ⟨o, b1⟩
  rw [hr] at hb1 hmx
  simp only at hb1 hmx
  cases o with
  | ok a =>
    have hok : b1.Ok := by rw [hb1]; exact ⟨hle, hb.2⟩
    obtain ⟨y, hs', hb2, hy, hfy⟩ := hf a b1 hok
    subst hb1
    simp only at hb2 hy ⊢
    refine ⟨x ++ y, hs.append hs', ?_, ?_, fun pre suf hp hl => ?_⟩
    · rw [hb2, image_append, List.length_append, Nat.add_assoc]
    · rw [image_append, List.length_append, List.take_add, List.drop_drop, ← hx, ← hy]
    · rw [image_append, List.length_append] at hl ⊢
      rw [imageTurned_append]
      have e1 := hmx pre (imageTurned y ++ suf) hp (by rw [List.length_append, imageTurned_length]; omega)
      have e2 := hfy (pre ++ imageTurned x) suf (by rw [List.length_append, imageTurned_length, hp])
        (by rw [List.length_append, imageTurned_length]; simp only; omega)
      rw [List.length_append, imageTurned_length] at e2
      simp only [List.append_assoc] at e1 e2 ⊢
      rw [bind_apply, e1]
      simp only
      rw [e2, Nat.add_assoc]
  | _ =>
    refine ⟨x, hs, hb1, hx, fun pre suf hp hl => ?_⟩
    rw [bind_apply, hmx pre suf hp hl]

/-- A program that moves nothing and has the same result everywhere but for the position of errors. -/
theorem DecodesTurned.still {m : M α} (h : ∀ b b' : Buf, b.pos = b'.pos → (m b).2 = b ∧ (m b).1 = (m b').1) :
    DecodesTurned m m := by
  intro b hb
  refine ⟨[], Sized.nil, ?_, rfl, fun pre suf hp hl => ?_⟩
  · rw [(h b b rfl).1]; rfl
  · have h1 := h ⟨pre ++ suf, pre.length⟩ b hp
    simp only [imageTurned, image, List.append_nil, List.length_nil, Nat.add_zero]
    exact Prod.ext h1.2 h1.1

theorem DecodesTurned.pure (a : α) : DecodesTurned (Pure.pure a : M α) (Pure.pure a) :=
  .still fun _ _ _ => ⟨rfl, rfl⟩

theorem DecodesTurned.fail (c : ErrCode) : DecodesTurned (M.fail c : M α) (M.fail c) :=
  .still fun b b' h => ⟨rfl, by show Out.err _ = Out.err _; rw [h]⟩

theorem DecodesTurned.panic : DecodesTurned (M.panic : M α) M.panic := .still fun _ _ _ => ⟨rfl, rfl⟩

/-- A piece of `n` bytes, or an error if there are not as many. -/
theorem DecodesTurned.piece (t : Bool) (n : Nat) (ht : t = true → n ≤ 16) (g g' : List Byte → α) (m m' : M α)
    (hg : ∀ w : List Byte, w.length = n → g' (Block.turn (t, w)) = g w)
    (hm : ∀ b : Buf, b.Ok → m b = mapM' g (JBytes.takeBytes n) b)
    (hm' : ∀ b : Buf, b.Ok → m' b = mapM' g' (JBytes.takeBytes n) b) : DecodesTurned m m' := by
  intro b hb
  rw [hm b hb, mapM'_apply, takeBytes_apply n b hb]
  have hb1 := hb.1
  by_cases hlt : b.data.length - b.pos < n
  · rw [if_pos hlt]
    refine ⟨[], Sized.nil, rfl, rfl, fun pre suf hp hl => ?_⟩
    simp only [imageTurned, image, List.append_nil, List.length_nil, Nat.add_zero] at hl ⊢
    have hok : (⟨pre ++ suf, pre.length⟩ : Buf).Ok := by
      constructor
      · simp
      · simp only [List.length_append]; have := hb.2; omega
    rw [hm' _ hok, mapM'_apply, takeBytes_apply n _ hok]
    simp only [List.length_append]
    rw [if_pos (by omega), hp]
  · rw [if_neg hlt]
    have hl : ((b.data.drop b.pos).take n).length = n := by
      rw [List.length_take, List.length_drop]; omega
    refine ⟨[(t, (b.data.drop b.pos).take n)], ?_, ?_, ?_, fun pre suf hp hs => ?_⟩
    · intro x hx hxt
      rw [List.mem_singleton.mp hx] at hxt ⊢
      rw [hl]
      exact ht hxt
    · simp only [image, List.append_nil, hl]
    · simp only [image, List.append_nil, hl]
    · simp only [image, List.append_nil, hl] at hs ⊢
      have htl : (Block.turn (t, (b.data.drop b.pos).take n)).length = n := by
        rw [Block.turn_length]; exact hl
      have hs' : pre.length + n + suf.length ≤ isizeMax := by have := hb.2; omega
      show m' ⟨pre ++ (Block.turn (t, (b.data.drop b.pos).take n) ++ []) ++ suf, pre.length⟩ =
        (_, ⟨pre ++ (Block.turn (t, (b.data.drop b.pos).take n) ++ []) ++ suf, _⟩)
      rw [List.append_nil, hm' _ (mid_ok htl hs'), mapM'_apply, takeBytes_mid n pre _ suf htl hs']
      simp only [hg _ hl]

theorem DecodesTurned.takeBytes (n : Nat) : DecodesTurned (takeBytes n) (takeBytes n) := by
  refine .piece false n (fun h => nomatch h) id id _ _ (fun _ _ => rfl) ?_ ?_ <;>
  · intro b _
    rw [mapM'_apply]
    rcases JBytes.takeBytes n b with ⟨o, b'⟩
    cases o <;> rfl

theorem DecodesTurned.number (n : Nat) (hn : n ≤ 16) (o o' : ByteOrder) (m m' : M Nat)
    (hm : ∀ b : Buf, b.Ok → m b = mapM' (fromBytes o) (JBytes.takeBytes n) b)
    (hm' : ∀ b : Buf, b.Ok → m' b = mapM' (fromBytes o') (JBytes.takeBytes n) b) : DecodesTurned m m' :=
  .piece (decide (o ≠ o')) n (fun _ => hn) _ _ _ _
    (fun w _ => by cases o <;> cases o' <;> simp [Block.turn, fromBytes, beVal_reverse, leVal_reverse]) hm hm'

theorem DecodesTurned.takeScalar (s : Scalar) (o o' : ByteOrder) : DecodesTurned (takeScalar s o) (takeScalar s o') :=
  .number s.size s.size_le16 o o' _ _ (fun b hb => takeScalar_eq_fixed s o b hb) fun b hb => takeScalar_eq_fixed s o' b hb

theorem DecodesTurned.takeUint (n : Nat) (h : n ≤ 8) (o o' : ByteOrder) : DecodesTurned (takeUint n o) (takeUint n o') :=
  .number n (by omega) o o' _ _ (fun b _ => takeN_apply o 8 n h b) fun b _ => takeN_apply o' 8 n h b

theorem DecodesTurned.index0 (l : List Byte) : DecodesTurned (index0 l) (index0 l) := by
  cases l with
  | nil => exact DecodesTurned.panic
  | cons x xs => exact DecodesTurned.pure x

theorem DecodesTurned.takeU8 : DecodesTurned takeU8 takeU8 :=
  (DecodesTurned.takeBytes 1).bind fun _ => DecodesTurned.index0 _

/-- The number of bytes left, which is the same on both sides. -/
theorem DecodesTurned.rest {f f' : Nat → M α} (hf : ∀ n, DecodesTurned (f n) (f' n)) :
    DecodesTurned (remainingLen >>= f) (remainingLen >>= f') := by
  intro b hb
  obtain ⟨bs, hs, hb1, hx, hm⟩ := hf (b.data.length - b.pos) b hb
  have e : ∀ (g : Nat → M α) (b : Buf), (remainingLen >>= g) b = g (b.data.length - b.pos) b := fun g b => by
    rw [bind_apply, remainingLen_apply]
  rw [e]
  refine ⟨bs, hs, hb1, hx, fun pre suf hp hl => ?_⟩
  rw [e, ← hm pre suf hp hl]
  simp only [List.length_append, imageTurned_length]
  rw [show pre.length + (image bs).length + suf.length = b.data.length from hl, hp]

theorem DecodesTurned.attempt {m m' : M α} (h : DecodesTurned m m') : DecodesTurned (attempt m) (attempt m') := by
  intro b hb
  obtain ⟨bs, hs, hb1, hx, hm⟩ := h b hb
  unfold M.attempt
  rcases hr : m b with ⟨o, b1⟩
  rw [hr] at hb1 hm
  simp only at hb1 hm
  refine ⟨bs, hs, ?_, hx, fun pre suf hp hl => ?_⟩
  · cases o <;> exact hb1
  · rw [hm pre suf hp hl]
    cases o <;> rfl

theorem DecodesTurned.repeatM {m m' : M α} (h : DecodesTurned m m') (n : Nat) :
    DecodesTurned (repeatM m n) (repeatM m' n) := by
  induction n with
  | zero => exact DecodesTurned.pure _
  | succ n ih => exact h.bind fun _ => ih.bind fun _ => DecodesTurned.pure _

theorem DecodesTurned.tryRepeatM {m m' : M α} (h : DecodesTurned m m') (n : Nat) :
    DecodesTurned (tryRepeatM m n) (tryRepeatM m' n) := by
  induction n with
  | zero => exact DecodesTurned.pure _
  | succ n ih =>
    refine h.attempt.bind fun o => ?_
    cases o with
    | none => exact DecodesTurned.pure _
    | some a => exact ih.bind fun _ => DecodesTurned.pure _

/-! ### Codecs of the crate -/

theorem DecodesTurned.decInt (wide : Bool) (k : IntKind) (hk : wide = true ∨ k.size ≤ 8) (ca ca' : Option CAttr)
    (fa : Option FAttr) (hfa : NoSearch? wide fa) : DecodesTurned (decInt k ca fa) (decInt k ca' fa) := by
  unfold JBytes.decInt
  refine DecodesTurned.bind ?_ fun v => ?_
  · unfold JBytes.decWord
    cases hl : fa.bind (·.length) with
    | none => exact DecodesTurned.takeScalar _ _ _
    | some n =>
      simp only
      split
      · exact DecodesTurned.fail _
      · rename_i hn
        refine (DecodesTurned.takeUint n ?_ _ _).bind fun _ => DecodesTurned.pure _
        rcases hk with hw | hk
        · cases fa with
          | none => cases hl
          | some fr => exact (hfa fr rfl).length hw n hl
        · omega
  · split <;> exact DecodesTurned.pure _

theorem DecodesTurned.takePrefixed : DecodesTurned takePrefixed takePrefixed :=
  DecodesTurned.takeU8.bind fun _ => DecodesTurned.takeBytes _

theorem DecodesTurned.decBytes (wide : Bool) (ca ca' : Option CAttr) (fa : Option FAttr) (h : NoSearch? wide fa) :
    DecodesTurned (decBytes ca fa) (decBytes ca' fa) := by
  unfold JBytes.decBytes
  cases fa with
  | none => exact DecodesTurned.takePrefixed
  | some fr =>
    have hf := h fr rfl
    simp only
    rw [hf.key, hf.split, hf.linend, hf.linendValue]
    refine (DecodesTurned.pure _).bind fun _ => (DecodesTurned.pure _).bind fun _ => ?_
    cases fr.length with
    | some n => exact DecodesTurned.takeBytes _
    | none =>
      simp only
      cases hk : fr.byteCount with
      | some k => exact (DecodesTurned.takeUint k (hf.byteCount k hk) _ _).bind fun _ => DecodesTurned.takeBytes _
      | none =>
        simp only [Bool.false_eq_true, if_false]
        split
        · exact DecodesTurned.rest fun n => DecodesTurned.takeBytes n
        · exact DecodesTurned.takePrefixed

theorem DecodesTurned.decStr (wide : Bool) (ca ca' : Option CAttr) (fa : Option FAttr) (h : NoSearch? wide fa) :
    DecodesTurned (decStr ca fa) (decStr ca' fa) := by
  refine (DecodesTurned.decBytes wide ca ca' fa h).bind fun v => ?_
  split
  · exact DecodesTurned.pure _
  · exact DecodesTurned.fail _

theorem DecodesTurned.decIpv4 (ca ca' : Option CAttr) (fa : Option FAttr) :
    DecodesTurned (decIpv4 ca fa) (decIpv4 ca' fa) :=
  (DecodesTurned.takeScalar _ _ _).bind fun _ => DecodesTurned.pure _

theorem DecodesTurned.decIpv6 (ca ca' : Option CAttr) (fa : Option FAttr) :
    DecodesTurned (decIpv6 ca fa) (decIpv6 ca' fa) :=
  (DecodesTurned.takeScalar _ _ _).bind fun _ => DecodesTurned.pure _

theorem DecodesTurned.decMac (ca ca' : Option CAttr) (fa : Option FAttr) :
    DecodesTurned (decMac ca fa) (decMac ca' fa) :=
  (DecodesTurned.takeUint _ (by decide) _ _).bind fun _ => DecodesTurned.pure _

theorem DecodesTurned.decIpAddr (ca ca' : Option CAttr) (fa : Option FAttr) :
    DecodesTurned (decIpAddr ca fa) (decIpAddr ca' fa) := by
  unfold JBytes.decIpAddr
  split
  · split
    · exact (DecodesTurned.decIpv6 ca ca' fa).bind fun _ => DecodesTurned.pure _
    · split
      · exact (DecodesTurned.decIpv4 ca ca' fa).bind fun _ => DecodesTurned.pure _
      · exact DecodesTurned.fail _
  · exact DecodesTurned.fail _

theorem DecodesTurned.decNet (wide : Bool) (ca ca' : Option CAttr) (fa : Option FAttr) (h : NoSearch? wide fa) :
    DecodesTurned (decNet ca fa) (decNet ca' fa) := by
  unfold JBytes.decNet
  split
  · split
    · exact DecodesTurned.fail _
    · split
      · exact (DecodesTurned.decIpv4 ca ca' _).bind fun _ => DecodesTurned.pure _
      · split
        · exact (DecodesTurned.decMac ca ca' _).bind fun _ => DecodesTurned.pure _
        · split
          · exact (DecodesTurned.decIpv6 ca ca' _).bind fun _ => DecodesTurned.pure _
          · exact (DecodesTurned.decInt wide _ (.inr (by decide)) ca ca' _ h).bind fun _ => DecodesTurned.pure _
  · exact DecodesTurned.fail _

theorem DecodesTurned.getCount (wide : Bool) (ca ca' : Option CAttr) (fa : Option FAttr) (h : NoSearch? wide fa) :
    DecodesTurned (getCount ca fa) (getCount ca' fa) := by
  unfold JBytes.getCount
  cases fa with
  | none => exact DecodesTurned.takeU8.bind fun _ => DecodesTurned.pure _
  | some fr =>
    simp only
    split
    · exact DecodesTurned.pure _
    · split
      · exact DecodesTurned.pure _
      · split
        · rename_i k hk
          exact (DecodesTurned.takeUint k ((h fr rfl).outside k hk) _ _).bind fun _ => DecodesTurned.pure _
        · exact DecodesTurned.takeU8.bind fun _ => DecodesTurned.pure _

theorem DecodesTurned.counted (wide : Bool) {m m' : M α} (ca ca' : Option CAttr) (fa : Option FAttr)
    (h : NoSearch? wide fa) (hm : DecodesTurned m m') :
    DecodesTurned
      (JBytes.getCount ca fa >>= fun x => match x with
        | (n, t) => match t with
          | some t => JBytes.tryRepeatM m t
          | none => JBytes.repeatM m n)
      (JBytes.getCount ca' fa >>= fun x => match x with
        | (n, t) => match t with
          | some t => JBytes.tryRepeatM m' t
          | none => JBytes.repeatM m' n) := by
  refine (DecodesTurned.getCount wide ca ca' fa h).bind fun x => ?_
  obtain ⟨n, t⟩ := x
  cases t with
  | none => exact hm.repeatM n
  | some t => exact hm.tryRepeatM t

theorem DecodesTurned.decVec (wide : Bool) {d : Dec α} {ca ca' : Option CAttr} {fa : Option FAttr} (n : Nat)
    (hd : DecodesTurned (d ca fa) (d ca' fa)) (h : NoSearch? wide fa) :
    DecodesTurned (decVec n d ca fa) (decVec n d ca' fa) := by
  have e : fa.bind (·.loopSkipStarts) = none := by
    cases fa with
    | none => rfl
    | some fr => exact (h fr rfl).loops
  unfold JBytes.decVec
  rw [e]
  exact DecodesTurned.counted wide ca ca' fa h hd

theorem DecodesTurned.decTuple {ca ca' : Option CAttr} {fa : Option FAttr} : ∀ ds : List (Dec α),
    (∀ d ∈ ds, DecodesTurned (d ca fa) (d ca' fa)) → DecodesTurned (decTuple ds ca fa) (decTuple ds ca' fa)
  | [], _ => DecodesTurned.pure _
  | d :: ds, h => (h d (by simp)).bind fun _ =>
      (DecodesTurned.decTuple ds fun d' hd' => h d' (List.mem_cons_of_mem _ hd')).bind fun _ => DecodesTurned.pure _

theorem NoSearch?.none (wide : Bool) : NoSearch? wide none := fun _ h => nomatch h

theorem NoSearch?.key {wide : Bool} {fa : Option FAttr} (h : NoSearch? wide fa) : keyFattr fa = fa := by
  cases fa with
  | none => rfl
  | some fr =>
    unfold keyFattr
    simp only [(h fr rfl).split]
    rfl

theorem NoSearch?.val {wide : Bool} {fa : Option FAttr} (h : NoSearch? wide fa) : valFattr fa = fa := by
  cases fa with
  | none => rfl
  | some fr =>
    unfold valFattr
    simp only [(h fr rfl).linendValue, (h fr rfl).linend]
    rfl

/-! ### Derived code -/

theorem DecodesTurned.toCode {wide : Bool} {a : FieldAttrs V} (ha : NoPeek wide a) (env : Env V)
    {f f' : Option FAttr → M β} (hf : ∀ fa, NoSearch? wide fa → DecodesTurned (f fa) (f' fa)) :
    DecodesTurned (a.toCode env >>= f) (a.toCode env >>= f') := by
  unfold FieldAttrs.toCode
  split
  · have e : ∀ f : Option FAttr → M β, ((do
        let o ← JBytes.orderCode a.byteorder env
        Pure.pure (some (a.modifiers o env)) : M _) >>= f) =
        (JBytes.orderCode a.byteorder env >>= fun o => f (some (a.modifiers o env))) := by
      intro f
      funext b
      simp only [bind_apply]
      rcases JBytes.orderCode a.byteorder env b with ⟨x, b'⟩
      cases x <;> rfl
    rw [e, e]
    refine DecodesTurned.bind ?_ fun o => hf _ fun fr hfr => ?_
    · unfold JBytes.orderCode
      split
      · exact DecodesTurned.pure _
      · exact DecodesTurned.pure _
      · split
        · exact DecodesTurned.pure _
        · split
          · exact DecodesTurned.pure _
          · exact DecodesTurned.panic
    · cases hfr
      exact ha.passed o env
  · exact hf none (NoSearch?.none wide)

theorem DecodesTurned.finishValue (a : FieldAttrs V) (env : Env V) (v : V) :
    DecodesTurned (finishValue a env v) (finishValue a env v) := by
  unfold JBytes.finishValue
  cases a.valueDecode <;> cases a.checkValue <;> simp only <;> first
    | exact DecodesTurned.pure _
    | (split
       · exact DecodesTurned.pure _
       · exact DecodesTurned.fail _)

theorem DecodesTurned.decField {wide : Bool} {f : Field V} {env : Env V} {ca ca' : Option CAttr} {fa : Option FAttr}
    (ha : NoPeek wide f.attrs) (hfa : NoSearch? wide fa) (h : DecodesTurned (f.dec ca fa) (f.dec ca' fa)) :
    DecodesTurned (decField f env ca fa) (decField f env ca' fa) := by
  unfold JBytes.decField
  rw [skipOffset, ha.offset, ha.custom]
  refine (DecodesTurned.pure _).bind fun _ => ?_
  simp only
  split
  · exact DecodesTurned.pure _
  · split
    · refine (DecodesTurned.decStr wide ca ca' fa hfa).bind fun s => ?_
      split
      · exact DecodesTurned.pure _
      · exact DecodesTurned.fail _
    · have e : ∀ ca, decPlain f env ca fa = (decCond f env ca fa >>= fun v => JBytes.finishValue f.attrs env v) := by
        intro ca
        unfold decPlain
        rw [ha.untake]
        rfl
      rw [e, e]
      refine DecodesTurned.bind ?_ fun _ => DecodesTurned.finishValue _ _ _
      unfold decCond
      split
      · split
        · exact h
        · exact DecodesTurned.pure _
      · exact h

theorem DecodesTurned.decFields {wide : Bool} (keep : Bool) (fs : List (Field V)) :
    (∀ f ∈ fs, NoPeek wide f.attrs) →
    (∀ f ∈ fs, ∀ ca ca' fa, Alike ca ca' → NoSearch? wide fa → DecodesTurned (f.dec ca fa) (f.dec ca' fa)) →
    ∀ (ca ca' : Option CAttr) (old : Option FAttr) (env : Env V), Alike ca ca' → NoSearch? wide old →
    DecodesTurned (decFields keep fs ca old env) (decFields keep fs ca' old env) := by
  induction fs with
  | nil => intro _ _ ca ca' old env _ _; exact DecodesTurned.pure _
  | cons f fs ih =>
    intro ha hf ca ca' old env hca hold
    have rest : ∀ fa, NoSearch? wide fa → DecodesTurned (do
        let v ← JBytes.decField f env ca fa
        let vs ← JBytes.decFields keep fs (cacheVars f.attrs ca (env.push v)) fa (env.push v)
        Pure.pure (v :: vs)) (do
        let v ← JBytes.decField f env ca' fa
        let vs ← JBytes.decFields keep fs (cacheVars f.attrs ca' (env.push v)) fa (env.push v)
        Pure.pure (v :: vs)) := by
      intro fa hfa
      refine (DecodesTurned.decField (ha f (by simp)) hfa (hf f (by simp) ca ca' fa hca hfa)).bind fun v => ?_
      exact (ih (fun g hg => ha g (List.mem_cons_of_mem _ hg)) (fun g hg => hf g (List.mem_cons_of_mem _ hg)) _ _ fa _
        (hca.cache _ _) hfa).bind fun _ => DecodesTurned.pure _
    unfold JBytes.decFields
    split
    · exact rest old hold
    · exact DecodesTurned.toCode (ha f (by simp)) env rest

theorem DecodesTurned.decTag (wide : Bool) {own own' : Option CAttr} (ho : Alike own own')
    (hn : ∀ k, own.bind (·.byteCount) = some k → k ≤ 8) (ca ca' : Option CAttr) (fa : Option FAttr)
    (h : NoSearch? wide fa) : DecodesTurned (decTag own ca fa) (decTag own' ca' fa) := by
  unfold JBytes.decTag
  rw [← ho.width]
  split
  · rename_i fr
    split
    · exact DecodesTurned.pure _
    · split
      · rename_i k hk
        exact DecodesTurned.takeUint _ ((h fr rfl).byteCount k hk) _ _
      · split
        · rename_i k hk
          exact DecodesTurned.takeUint _ (hn k hk) _ _
        · exact DecodesTurned.takeU8.bind fun _ => DecodesTurned.pure _
  · split
    · rename_i k hk
      exact DecodesTurned.takeUint _ (hn k hk) _ _
    · exact DecodesTurned.takeU8.bind fun _ => DecodesTurned.pure _

theorem struct_decodes {wide : Bool} (S : StructDef V) (c : Option CAttr) (hc : Alike S.container c)
    (hw : S.withDecode = none) (ha : ∀ f ∈ S.fields, NoPeek wide f.attrs)
    (hf : ∀ f ∈ S.fields, ∀ ca ca' fa, Alike ca ca' → NoSearch? wide fa → DecodesTurned (f.dec ca fa) (f.dec ca' fa))
    {ca ca' : Option CAttr} (hca : Alike ca ca') (fa : Option FAttr) :
    DecodesTurned (decStruct S ca fa) (decStruct { S with container := c } ca' fa) := by
  unfold decStruct
  rw [hw]
  simp only
  rw [localVars_alike hca]
  exact DecodesTurned.decFields _ _ ha hf _ _ _ _ hc (NoSearch?.none wide)

theorem enum_decodes {wide : Bool} (E : EnumDef V) (c : Option CAttr) (hc : Alike E.container c) (hw : E.withDecode = none)
    (hm : ∀ u, E.mode ≠ .startsWith u) (hn : ∀ k, E.container.bind (·.byteCount) = some k → k ≤ 8)
    (hv : ∀ v ∈ E.variants, NoPeek wide v.attrs) (ha : ∀ v ∈ E.variants, ∀ f ∈ v.fields, NoPeek wide f.attrs)
    (hf : ∀ v ∈ E.variants, ∀ f ∈ v.fields, ∀ ca ca' fa, Alike ca ca' → NoSearch? wide fa →
      DecodesTurned (f.dec ca fa) (f.dec ca' fa))
    {ca ca' : Option CAttr} (hca : Alike ca ca') (fa : Option FAttr) (hfa : NoSearch? wide fa) :
    DecodesTurned (decEnum E ca fa) (decEnum { E with container := c } ca' fa) := by
  have harm : ∀ env g, DecodesTurned (decArm E env g) (decArm { E with container := c } env g) := by
    intro env g
    have e : (EnumDef.variants { E with container := c }).zip (EnumDef.numbers { E with container := c }) =
        E.variants.zip E.numbers := rfl
    unfold decArm
    rw [e]
    rcases h : findArm g 0 (E.variants.zip E.numbers) with _ | ⟨i, v⟩
    · exact DecodesTurned.fail _
    · obtain ⟨n, hn⟩ := findArm_mem _ _ _ _ _ h
      have hmem := (List.of_mem_zip hn).1
      simp only
      unfold decVariant
      refine DecodesTurned.toCode (hv v hmem) env fun fa hfa => ?_
      rw [skipOffset, (hv v hmem).offset]
      exact (DecodesTurned.pure _).bind fun _ =>
        (DecodesTurned.decFields _ _ (ha v hmem) (hf v hmem) _ _ _ _ hc hfa).bind fun _ => DecodesTurned.pure _
  unfold decEnum
  rw [hw]
  simp only
  rw [localVars_alike hca]
  split
  · rename_i u hu
    exact absurd hu (hm u)
  · exact (DecodesTurned.takeBytes _).bind fun _ => harm _ _
  · exact (DecodesTurned.decTag wide hc hn ca ca' fa hfa).bind fun _ => harm _ _

theorem ConsumesAll.decodes {wide : Bool} {d : Dec α} (h : ConsumesAll wide α d) :
    ∀ (ca ca' : Option CAttr) (fa : Option FAttr), Alike ca ca' → NoSearch? wide fa →
      DecodesTurned (d ca fa) (d ca' fa) := by
  induction h with
  | int k hk => intro ca ca' fa _ hfa; exact DecodesTurned.decInt wide k hk ca ca' fa hfa
  | f32 => intro ca ca' fa _ _; exact DecodesTurned.takeScalar _ _ _
  | f64 => intro ca ca' fa _ _; exact DecodesTurned.takeScalar _ _ _
  | bool =>
    intro ca ca' fa _ _
    exact (DecodesTurned.takeBytes 1).bind fun _ => (DecodesTurned.index0 _).bind fun _ => DecodesTurned.pure _
  | char =>
    intro ca ca' fa _ _
    exact (DecodesTurned.takeBytes 1).bind fun _ => (DecodesTurned.index0 _).bind fun _ => DecodesTurned.pure _
  | bytes => intro ca ca' fa _ hfa; exact DecodesTurned.decBytes wide ca ca' fa hfa
  | str => intro ca ca' fa _ hfa; exact DecodesTurned.decStr wide ca ca' fa hfa
  | ipv4 => intro ca ca' fa _ _; exact DecodesTurned.decIpv4 ca ca' fa
  | ipv6 => intro ca ca' fa _ _; exact DecodesTurned.decIpv6 ca ca' fa
  | ip => intro ca ca' fa _ _; exact DecodesTurned.decIpAddr ca ca' fa
  | mac => intro ca ca' fa _ _; exact DecodesTurned.decMac ca ca' fa
  | net => intro ca ca' fa _ hfa; exact DecodesTurned.decNet wide ca ca' fa hfa
  | unit => intro ca ca' fa _ _; exact DecodesTurned.pure _
  | vec n _ ih => intro ca ca' fa hca hfa; exact DecodesTurned.decVec wide n (ih ca ca' fa hca hfa) hfa
  | array k _ ih => intro ca ca' fa hca hfa; exact (ih ca ca' fa hca hfa).repeatM k
  | tuple ds _ ih => intro ca ca' fa hca hfa; exact DecodesTurned.decTuple _ fun d hd => ih d hd ca ca' fa hca hfa
  | option _ ih =>
    intro ca ca' fa hca hfa
    unfold decOption
    split
    · exact DecodesTurned.pure _
    · exact (ih ca ca' fa hca hfa).attempt
  | set _ ih =>
    intro ca ca' fa hca hfa
    exact (DecodesTurned.counted wide ca ca' fa hfa (ih ca ca' fa hca hfa)).bind fun _ => DecodesTurned.pure _
  | @map _ _ _ dk dv _ _ ihk ihv =>
    intro ca ca' fa hca hfa
    have hk : NoSearch? wide (keyFattr fa) := by rw [hfa.key]; exact hfa
    have hv : NoSearch? wide (valFattr fa) := by rw [hfa.val]; exact hfa
    have he : DecodesTurned (decEntry dk dv ca fa) (decEntry dk dv ca' fa) :=
      (ihk ca ca' _ hca hk).bind fun _ => (ihv ca ca' _ hca hv).bind fun _ => DecodesTurned.pure _
    exact (DecodesTurned.counted wide ca ca' fa hfa he).bind fun _ => DecodesTurned.pure _
  | inject g _ ih => intro ca ca' fa hca hfa; exact (ih ca ca' fa hca hfa).bind fun _ => DecodesTurned.pure _
  | struct S hw ha _ ih =>
    intro ca ca' fa hca _
    exact struct_decodes S S.container (Alike.refl _) hw ha ih hca fa
  | enum E hw hm hn hv ha _ ih =>
    intro ca ca' fa hca hfa
    exact enum_decodes E E.container (Alike.refl _) hw hm hn hv ha ih hca fa hfa

/-! ## C110 -/

/-- C110, every outcome of decoding: for a type that consumes every byte it looks at, in surroundings that differ in the
byte order only, all inputs have the same result in both orders (value, error with its position, or panic), once the
numbers that were read are turned round.  Missing: searches, `untake`, `offset`, custom decoders (values:
`C110_decode_partial`), widths above 8 (`C110_decode_violated`). -/
theorem C110_outcome_partial (wide : Bool) (d : Dec α) (h : ConsumesAll wide α d) (ca ca' : Option CAttr)
    (hca : Alike ca ca') (fa : Option FAttr) (hfa : NoSearch? wide fa) : DecodesTurned (d ca fa) (d ca' fa) :=
  h.decodes ca ca' fa hca hfa

/-- C110, every outcome, for a struct whose declared byte order is changed. -/
theorem C110_outcome_struct_partial (wide : Bool) (S : StructDef V) (hw : S.withDecode = none)
    (ha : ∀ f ∈ S.fields, NoPeek wide f.attrs) (hf : ∀ f ∈ S.fields, ConsumesAll wide V f.dec) (c : Option CAttr)
    (hc : Alike S.container c) (ca : Option CAttr) (fa : Option FAttr) :
    DecodesTurned (decStruct S ca fa) (decStruct { S with container := c } ca fa) :=
  struct_decodes S c hc hw ha (fun f h => (hf f h).decodes) (Alike.refl ca) fa

/-- C110, every outcome, for an enum whose declared byte order is changed. -/
theorem C110_outcome_enum_partial (wide : Bool) (E : EnumDef V) (hw : E.withDecode = none)
    (hm : ∀ u, E.mode ≠ .startsWith u) (hn : ∀ k, E.container.bind (·.byteCount) = some k → k ≤ 8)
    (hv : ∀ v ∈ E.variants, NoPeek wide v.attrs) (ha : ∀ v ∈ E.variants, ∀ f ∈ v.fields, NoPeek wide f.attrs)
    (hf : ∀ v ∈ E.variants, ∀ f ∈ v.fields, ConsumesAll wide V f.dec) (c : Option CAttr) (hc : Alike E.container c)
    (ca : Option CAttr) (fa : Option FAttr) (hfa : NoSearch? wide fa) :
    DecodesTurned (decEnum E ca fa) (decEnum { E with container := c } ca fa) :=
  enum_decodes E c hc hw hm hn hv ha (fun v h f hf' => (hf v h f hf').decodes) (Alike.refl ca) fa hfa

/-! ## Lookahead -/

/-- `#[loop_skip_starts = "\x01"] items: Vec<u8>, n: u16` -/
def beforeNumber : StructDef Val := { fields := [
  ⟨{ isUse := true, loopSkipStarts := some [1] }, fun ca fa => mapM' (fun l => Val.bytes (l.map UInt8.ofNat))
    (decVec 100 (decInt ⟨1, false⟩) ca fa), fun v ca fa => match v with
      | .bytes l => encVec (encInt ⟨1, false⟩) (l.map UInt8.toNat) ca fa
      | _ => return 0, .bytes [], .absent⟩,
  u16Field {}] }

/-- C110 fails for what looks at bytes without consuming them: `loop_skip_starts` looks at the first byte of the number
after the list.  The value without items and with the number 1 is written in both orders, but only the big-endian
message is read; in the little-endian one the number is taken for an item. -/
theorem C110_lookahead_violated :
    encStruct beforeNumber [.bytes [], .num 1] none none ⟨[], 0⟩ = (.ok 2, ⟨[0, 1], 2⟩) ∧
    encStruct { beforeNumber with container := some { byteorder := some .le } } [.bytes [], .num 1] none none ⟨[], 0⟩ =
      (.ok 2, ⟨[1, 0], 2⟩) ∧
    decStruct beforeNumber none none ⟨[0, 1], 0⟩ = (.ok [.bytes [], .num 1], ⟨[0, 1], 2⟩) ∧
    decStruct { beforeNumber with container := some { byteorder := some .le } } none none ⟨[1, 0], 0⟩ =
      (.err ⟨2, .invalidByteLength⟩, ⟨[1, 0], 2⟩) := by
  refine ⟨?_, ?_, ?_, ?_⟩ <;> decide +kernel

/-! ## Instances -/

/-- `a: u16, #[check_value = "*v > 0"] b: u16, #[byte_count = 2] text, #[try_count = 3] more: Vec<u16>` -/
def openRecord : StructDef Val := { fields := [
  u16Field {},
  u16Field { isUse := true, checkValue := some fun _ v => decide (v ≠ .num 0) },
  bytesField { isUse := true, byteCount := some fun _ => 2 },
  ⟨{ isUse := true, tryCount := some fun _ => 3 }, fun ca fa => do
    let l ← decVec 0 (decInt ⟨2, false⟩) ca fa
    return Val.num l.length, fun _ _ _ => return 0, .absent, .absent⟩] }

theorem openRecord_ok : (∀ f ∈ openRecord.fields, NoPeek true f.attrs) ∧ ∀ f ∈ openRecord.fields, ConsumesAll true Val f.dec := by
  constructor
  · intro f hf
    simp only [openRecord, List.mem_cons, List.not_mem_nil, or_false] at hf
    rcases hf with rfl | rfl | rfl | rfl
    · exact ⟨rfl, rfl, rfl, fun o env => ⟨rfl, rfl, rfl, rfl, rfl, (fun k h => by cases h), (fun k h => by cases h),
        fun _ n h => by cases h⟩⟩
    · exact ⟨rfl, rfl, rfl, fun o env => ⟨rfl, rfl, rfl, rfl, rfl, (fun k h => by cases h), (fun k h => by cases h),
        fun _ n h => by cases h⟩⟩
    · exact ⟨rfl, rfl, rfl, fun o env => ⟨rfl, rfl, rfl, rfl, rfl, (fun k h => by cases h; show (2 : Nat) ≤ 8; decide),
        (fun k h => by cases h), fun _ n h => by cases h⟩⟩
    · exact ⟨rfl, rfl, rfl, fun o env => ⟨rfl, rfl, rfl, rfl, rfl, (fun k h => by cases h), (fun k h => by cases h),
        fun _ n h => by cases h⟩⟩
  · intro f hf
    simp only [openRecord, List.mem_cons, List.not_mem_nil, or_false] at hf
    rcases hf with rfl | rfl | rfl | rfl
    · exact .inject Val.num (.int _ (.inl rfl))
    · exact .inject Val.num (.int _ (.inl rfl))
    · exact .inject Val.bytes .bytes
    · exact .inject (fun l : List Nat => Val.num l.length) (.vec 0 (.int _ (.inl rfl)))

/-- C110 on `openRecord`, for all inputs. -/
example : DecodesTurned (decStruct openRecord none none)
    (decStruct { openRecord with container := some { byteorder := some .le } } none none) :=
  C110_outcome_struct_partial true openRecord rfl openRecord_ok.1 openRecord_ok.2 (some { byteorder := some .le })
    ⟨rfl, fun _ => rfl⟩ none none

example : (decStruct openRecord none none ⟨[0, 1, 0, 2, 0, 1, 65, 0, 9, 7], 0⟩).1 =
      .ok [.num 1, .num 2, .bytes [65], .num 1] ∧
    (decStruct { openRecord with container := some { byteorder := some .le } } none none
      ⟨[1, 0, 2, 0, 1, 0, 65, 9, 0, 7], 0⟩).1 = .ok [.num 1, .num 2, .bytes [65], .num 1] ∧
    (decStruct openRecord none none ⟨[0, 1, 0, 0, 5], 0⟩).1 = .err ⟨4, .invalidValue⟩ ∧
    (decStruct { openRecord with container := some { byteorder := some .le } } none none ⟨[1, 0, 0, 0, 5], 0⟩).1 =
      .err ⟨4, .invalidValue⟩ := by
  refine ⟨?_, ?_, ?_, ?_⟩ <;> decide +kernel

end JBytes
