import Verif.Local
import Verif.PropRead
/-!
# Helper lemmas: appending bytes to the data does not change a successful decoding

Unlike `Loc` this holds at every position, also past the end of the data, so it covers `offset`, which can move the
position anywhere.
-/

namespace JBytes
open M

variable {α β V : Type}

/-- A successful run gives the same value and position when bytes are appended to the data. -/
def Ext (m : M α) : Prop := ∀ (data : List Byte) (p : Nat), data.length ≤ isizeMax → p < usizeMod →
  ∀ (v : α) (b' : Buf), m ⟨data, p⟩ = (.ok v, b') → b'.data = data ∧ b'.pos < usizeMod ∧
    ∀ suf : List Byte, (data ++ suf).length ≤ isizeMax → m ⟨data ++ suf, p⟩ = (.ok v, ⟨data ++ suf, b'.pos⟩)

theorem Ext.bind {m : M α} {f : α → M β} (hm : Ext m) (hf : ∀ a, Ext (f a)) : Ext (m >>= f) := by
  intro data p hl hp v b2 h
  rw [bind_apply] at h
  rcases hmb : m ⟨data, p⟩ with ⟨o, b1⟩
  rw [hmb] at h
  cases o with
  | ok a =>
    simp only at h
    obtain ⟨hd, hq, hx⟩ := hm data p hl hp a b1 hmb
    obtain ⟨d1, p1⟩ := b1
    simp only at hd hq hx
    subst hd
    obtain ⟨hd2, hq2, hx2⟩ := hf a d1 p1 hl hq v b2 h
    refine ⟨hd2, hq2, fun suf hs => ?_⟩
    rw [bind_apply, hx suf hs]
    exact hx2 suf hs
  | _ => cases h

theorem Ext.pure (a : α) : Ext (Pure.pure a : M α) := by
  rintro data p _ hp v b' h
  cases h
  exact ⟨rfl, hp, fun _ _ => rfl⟩

theorem Ext.never {m : M α} (h : ∀ b v, (m b).1 ≠ .ok v) : Ext m := by
  intro data p _ _ v b' he
  exact absurd (by rw [he]) (h ⟨data, p⟩ v)

theorem Ext.fail (c : ErrCode) : Ext (M.fail c : M α) := Ext.never fun _ _ h => by cases h

theorem Ext.panic : Ext (M.panic : M α) := Ext.never fun _ _ h => by cases h

theorem Ext.getPos : Ext getPos := by
  rintro data p _ hp v b' h
  cases h
  exact ⟨rfl, hp, fun _ _ => rfl⟩

theorem wadd_lt_usizeMod (a b : Nat) : wadd a b < usizeMod := by
  have := isizeMax_lt
  exact Nat.mod_lt _ (by omega)

theorem Ext.advance (n : Nat) : Ext (advance n) := by
  rintro data p _ _ v b' h
  cases h
  exact ⟨rfl, wadd_lt_usizeMod _ _, fun _ _ => rfl⟩

/-- A local run that never succeeds past the end of the data. -/
theorem Ext.of_loc {m : M α} (h : Loc m)
    (hpast : ∀ (b : Buf) (v : α), b.data.length < b.pos → b.pos < usizeMod → (m b).1 ≠ .ok v) : Ext m := by
  intro data p hl hp v b' he
  by_cases hpos : p ≤ data.length
  · have hin := h.1 ⟨data, p⟩ ⟨hpos, hl⟩
    rw [he] at hin
    simp only at hin
    have hlt := isizeMax_lt
    refine ⟨hin.1, by omega, fun suf hs => ?_⟩
    refine h.2 ⟨data, p⟩ v b' ⟨hpos, hl⟩ he _ hs (by rw [List.length_append]; omega) ?_
    rw [List.take_append_of_le_length (by omega)]
  · exact absurd (by rw [he]) (hpast ⟨data, p⟩ v (by show data.length < p; omega) hp)

theorem Ext.takeBytes (n : Nat) : Ext (takeBytes n) := by
  refine Ext.of_loc (Loc.takeBytes n) fun b v h hp he => ?_
  rw [takeBytes_past n b h hp] at he
  split at he <;> cases he

theorem findSub_nil {x : List Byte} {i : Nat} (h : findSub x [] = some i) : i = 0 ∧ x = [] := by
  have := (findSub_some h).1.le
  simp only [List.length_nil] at this
  exact ⟨by omega, List.length_eq_zero_iff.mp (by omega)⟩

theorem past_drop {b : Buf} (h : b.data.length < b.pos) : b.data.drop b.pos = [] :=
  List.drop_eq_nil_of_le (by omega)

theorem Ext.findSubsequence (x : List Byte) : Ext (findSubsequence x) := by
  refine Ext.of_loc (Loc.findSubsequence x) fun b v h hp he => ?_
  unfold JBytes.findSubsequence at he
  simp only [bind_apply, getPos_apply, remaining_apply', past_drop h] at he
  rcases hf : findSub x [] with _ | i
  · rw [hf] at he; cases he
  · rw [hf] at he
    simp only [bind_apply, advance_apply] at he
    rw [past_slice _ _ _ (by simpa using h)] at he
    cases he

theorem Ext.findNeedle (x : List Byte) : Ext (findSubsequenceNeedle x true) := by
  refine Ext.of_loc (Loc.findNeedle x) fun b v h hp he => ?_
  unfold JBytes.findSubsequenceNeedle at he
  simp only [bind_apply, getPos_apply, remaining_apply', past_drop h] at he
  rcases hf : findSub x [] with _ | i
  · rw [hf] at he; cases he
  · rw [hf] at he
    simp only [bind_apply, advance_apply] at he
    rw [past_slice _ _ _ (by simpa using h)] at he
    cases he

theorem Ext.findSubsequences (ns : List (List Byte)) : Ext (findSubsequences ns) := by
  refine Ext.of_loc (Loc.findSubsequences ns) fun b v h hp he => ?_
  unfold JBytes.findSubsequences at he
  simp only [bind_apply, getPos_apply, remaining_apply', past_drop h] at he
  rcases hf : acFind ns [] with _ | ⟨s, e⟩
  · rw [hf] at he; cases he
  · rw [hf] at he
    simp only [bind_apply, advance_apply] at he
    rw [past_slice _ _ _ (by simpa using h)] at he
    cases he

theorem Ext.index0 (l : List Byte) : Ext (index0 l) := by
  cases l with
  | nil => exact Ext.panic
  | cons x xs => exact Ext.pure x

theorem Ext.takeU8 : Ext takeU8 := (Ext.takeBytes 1).bind fun _ => Ext.index0 _

theorem Ext.takeScalar (s : Scalar) (o : ByteOrder) : Ext (takeScalar s o) := by
  cases s <;> first
    | exact Ext.takeU8.bind fun _ => Ext.pure _
    | exact (Ext.takeBytes _).bind fun _ => Ext.pure _

theorem Ext.takeUint (n : Nat) (o : ByteOrder) : Ext (takeUint n o) := by
  unfold JBytes.takeUint takeN takeBeN takeLeN
  split <;> split <;> first
    | exact (Ext.takeBytes _).bind fun _ => Ext.pure _
    | exact Ext.fail _
    | exact Ext.panic

theorem Ext.repeatM {m : M α} (h : Ext m) (n : Nat) : Ext (repeatM m n) := by
  induction n with
  | zero => exact Ext.pure _
  | succ n ih => exact Ext.bind h fun _ => Ext.bind ih fun _ => Ext.pure _

/-! ## Codecs of the crate -/

theorem Ext.decInt (k : IntKind) (ca : Option CAttr) (fa : Option FAttr) : Ext (decInt k ca fa) := by
  unfold JBytes.decInt
  refine Ext.bind ?_ fun v => ?_
  · unfold decWord
    split
    · split
      · exact Ext.fail _
      · exact (Ext.takeUint _ _).bind fun _ => Ext.pure _
    · exact Ext.takeScalar _ _
  · split <;> exact Ext.pure _

theorem Ext.skipNeedle (o : Option (List Byte)) : Ext (skipNeedle o) := by
  cases o with
  | none => exact Ext.pure _
  | some x => exact (Ext.findNeedle x).bind fun _ => Ext.pure _

theorem Ext.takePrefixed : Ext takePrefixed := Ext.takeU8.bind fun _ => Ext.takeBytes _

theorem Ext.decBytes (ca : Option CAttr) (fa : Option FAttr) (h : ∀ fr, fa = some fr → fr.remaining = false) :
    Ext (decBytes ca fa) := by
  unfold JBytes.decBytes
  split
  · exact Ext.takePrefixed
  · rename_i fr
    refine (Ext.skipNeedle _).bind fun _ => (Ext.skipNeedle _).bind fun _ => ?_
    rw [h fr rfl]
    split
    · exact Ext.takeBytes _
    · split
      · exact (Ext.takeUint _ _).bind fun _ => Ext.takeBytes _
      · split
        · exact Ext.findSubsequences _
        · split
          · exact Ext.findSubsequence _
          · exact Ext.takePrefixed

theorem Ext.decStr (ca : Option CAttr) (fa : Option FAttr) (h : ∀ fr, fa = some fr → fr.remaining = false) :
    Ext (decStr ca fa) := by
  refine (Ext.decBytes ca fa h).bind fun v => ?_
  split
  · exact Ext.pure _
  · exact Ext.fail _

theorem Ext.decIpv4 (ca : Option CAttr) (fa : Option FAttr) : Ext (decIpv4 ca fa) :=
  (Ext.takeScalar _ _).bind fun _ => Ext.pure _

theorem Ext.decIpv6 (ca : Option CAttr) (fa : Option FAttr) : Ext (decIpv6 ca fa) :=
  (Ext.takeScalar _ _).bind fun _ => Ext.pure _

theorem Ext.decMac (ca : Option CAttr) (fa : Option FAttr) : Ext (decMac ca fa) :=
  (Ext.takeUint _ _).bind fun _ => Ext.pure _

theorem Ext.decIpAddr (ca : Option CAttr) (fa : Option FAttr) : Ext (decIpAddr ca fa) := by
  unfold JBytes.decIpAddr
  split
  · split
    · exact (Ext.decIpv6 ca fa).bind fun _ => Ext.pure _
    · split
      · exact (Ext.decIpv4 ca fa).bind fun _ => Ext.pure _
      · exact Ext.fail _
  · exact Ext.fail _

theorem Ext.decNet (ca : Option CAttr) (fa : Option FAttr) : Ext (decNet ca fa) := by
  unfold JBytes.decNet
  split
  · split
    · exact Ext.fail _
    · split
      · exact (Ext.decIpv4 ca fa).bind fun _ => Ext.pure _
      · split
        · exact (Ext.decMac ca fa).bind fun _ => Ext.pure _
        · split
          · exact (Ext.decIpv6 ca fa).bind fun _ => Ext.pure _
          · exact (Ext.decInt _ ca fa).bind fun _ => Ext.pure _
  · exact Ext.fail _

/-- A count read from the wire or given; no `try_count`. -/
theorem Ext.counted {m : M α} (ca : Option CAttr) (fa : Option FAttr)
    (h : ∀ fr, fa = some fr → fr.tryCount = none) (hm : Ext m) :
    Ext (getCount ca fa >>= fun x => match x with
      | (n, t) => match t with
        | some t => JBytes.tryRepeatM m t
        | none => JBytes.repeatM m n) := by
  have h8 : Ext ((do let n ← JBytes.takeU8; Pure.pure (n.toNat, none) : M (Nat × Option Nat)) >>= fun x => match x with
      | (n, t) => match t with
        | some t => JBytes.tryRepeatM m t
        | none => JBytes.repeatM m n) := by
    have e : ((do let n ← JBytes.takeU8; Pure.pure (n.toNat, none) : M (Nat × Option Nat)) >>= fun x => match x with
        | (n, t) => match t with
          | some t => JBytes.tryRepeatM m t
          | none => JBytes.repeatM m n) = (JBytes.takeU8 >>= fun n => JBytes.repeatM m n.toNat) := by
      funext b
      simp only [bind_apply]
      rcases JBytes.takeU8 b with ⟨o, b'⟩
      cases o <;> rfl
    rw [e]
    exact Ext.takeU8.bind fun _ => hm.repeatM _
  unfold getCount
  split
  · exact h8
  · rename_i fr
    rw [h fr rfl]
    split
    · exact (hm.repeatM _)
    · simp only
      split
      · rename_i k hk
        have e : ((do
            let n ← JBytes.takeUint k (getByteorder ca (some fr))
            Pure.pure (n, none) : M (Nat × Option Nat)) >>= fun x => match x with
          | (n, t) => match t with
            | some t => JBytes.tryRepeatM m t
            | none => JBytes.repeatM m n) =
            (JBytes.takeUint k (getByteorder ca (some fr)) >>= fun n => JBytes.repeatM m n) := by
          funext b
          simp only [bind_apply]
          rcases JBytes.takeUint k (getByteorder ca (some fr)) b with ⟨o, b'⟩
          cases o <;> rfl
        rw [e]
        exact (Ext.takeUint k _).bind fun _ => hm.repeatM _
      · exact h8

theorem Ext.decCounted {d : Dec α} {ca : Option CAttr} {fa : Option FAttr} (hd : Ext (d ca fa))
    (h : ∀ fr, fa = some fr → fr.tryCount = none) : Ext (decCounted d ca fa) := Ext.counted ca fa h hd

theorem Ext.decVec {d : Dec α} {ca : Option CAttr} {fa : Option FAttr} (n : Nat) (hd : Ext (d ca fa))
    (h : ∀ fr, fa = some fr → fr.tryCount = none) (hs : ∀ fr, fa = some fr → fr.loopSkipStarts = none) :
    Ext (decVec n d ca fa) := by
  unfold JBytes.decVec
  split
  · rename_i x hx
    cases fa with
    | none => cases hx
    | some fr =>
      have := hs fr rfl
      simp only [Option.bind_some] at hx
      rw [this] at hx
      cases hx
  · exact Ext.decCounted hd h

theorem Ext.decTuple : ∀ (ds : List (Dec α)) {ca : Option CAttr} {fa : Option FAttr},
    (∀ d ∈ ds, Ext (d ca fa)) → Ext (decTuple ds ca fa)
  | [], _, _, _ => Ext.pure _
  | d :: ds, _, _, h => (h d (by simp)).bind fun _ =>
      (Ext.decTuple ds fun d' hd' => h d' (List.mem_cons_of_mem _ hd')).bind fun _ => Ext.pure _

theorem Ext.decMap [DecidableEq α] {dk : Dec α} {dv : Dec β} {ca : Option CAttr} {fa : Option FAttr}
    (hk : Ext (dk ca (keyFattr fa))) (hv : Ext (dv ca (valFattr fa)))
    (h : ∀ fr, fa = some fr → fr.tryCount = none) : Ext (decMap dk dv ca fa) := by
  have he : Ext (decEntry dk dv ca fa) := hk.bind fun _ => hv.bind fun _ => Ext.pure _
  exact Ext.bind (Ext.counted ca fa h he) fun _ => Ext.pure _

/-! ## Derived code -/

theorem Ext.toCode {L : Limits} {a : FieldAttrs V} (ha : AttrsOk L a) (env : Env V) {f : Option FAttr → M β}
    (hf : ∀ fa, FaOk? L fa → Ext (f fa)) : Ext (a.toCode env >>= f) := by
  unfold FieldAttrs.toCode
  split
  · have ho : ∀ o, Ext ((Pure.pure (some (a.modifiers o env)) : M _) >>= f) := by
      intro o
      refine (hf (some (a.modifiers o env)) ?_)
      rintro _ ⟨⟩
      exact ha.passed o env
    have e : ((do
        let o ← orderCode a.byteorder env
        Pure.pure (some (a.modifiers o env)) : M _) >>= f) =
        (orderCode a.byteorder env >>= fun o => (Pure.pure (some (a.modifiers o env)) : M _) >>= f) := by
      funext b
      simp only [bind_apply]
      rcases orderCode a.byteorder env b with ⟨x, b'⟩
      cases x <;> rfl
    rw [e]
    refine Ext.bind ?_ ho
    unfold orderCode
    split
    · exact Ext.pure _
    · exact Ext.pure _
    · split
      · exact Ext.pure _
      · split
        · exact Ext.pure _
        · exact Ext.panic
  · exact hf none (FaOk?.none L)

theorem Ext.finishValue (a : FieldAttrs V) (env : Env V) (v : V) : Ext (finishValue a env v) := by
  unfold JBytes.finishValue
  cases a.valueDecode <;> cases a.checkValue <;> simp only <;> first
    | exact Ext.pure _
    | (split
       · exact Ext.pure _
       · exact Ext.fail _)

theorem Ext.skipOffset (a : FieldAttrs V) (env : Env V) : Ext (skipOffset a env) := by
  unfold JBytes.skipOffset
  split
  · exact Ext.advance _
  · exact Ext.pure _

theorem Ext.decPlain {f : Field V} {env : Env V} {ca : Option CAttr} {fa : Option FAttr}
    (hu : f.attrs.untake = false) (h : Ext (f.dec ca fa)) : Ext (decPlain f env ca fa) := by
  unfold JBytes.decPlain
  rw [hu]
  simp only [Bool.false_eq_true, if_false]
  refine Ext.getPos.bind fun _ => Ext.bind ?_ fun _ => Ext.finishValue _ _ _
  unfold decCond
  split
  · split
    · exact h
    · exact Ext.pure _
  · exact h

theorem Ext.decField {L : Limits} (hS : L.standalone = true) {f : Field V} {env : Env V}
    {ca : Option CAttr} {fa : Option FAttr} (ha : AttrsOk L f.attrs) (hfa : FaOk? L fa) (h : Ext (f.dec ca fa)) :
    Ext (decField f env ca fa) := by
  unfold JBytes.decField
  rw [ha.custom]
  refine (Ext.skipOffset _ _).bind fun _ => ?_
  simp only
  split
  · exact Ext.pure _
  · split
    · refine (Ext.decStr ca fa fun fr hfr => (hfa fr hfr).remaining hS).bind fun s => ?_
      split
      · exact Ext.pure _
      · exact Ext.fail _
    · exact Ext.decPlain (ha.untake hS) h

theorem Ext.decFields {L : Limits} (hS : L.standalone = true) (keep : Bool) :
    ∀ (fs : List (Field V)) (ca : Option CAttr) (old : Option FAttr) (env : Env V), FaOk? L old →
    (∀ f ∈ fs, AttrsOk L f.attrs ∧ ∀ ca fa, FaOk? L fa → Ext (f.dec ca fa)) →
    Ext (decFields keep fs ca old env) := by
  intro fs
  induction fs with
  | nil => intro ca old env _ _; exact Ext.pure _
  | cons f fs ih =>
    intro ca old env ho hf
    have rest : ∀ fa, FaOk? L fa → Ext (do
        let v ← JBytes.decField f env ca fa
        let vs ← JBytes.decFields keep fs (cacheVars f.attrs ca (env.push v)) fa (env.push v)
        Pure.pure (v :: vs)) := by
      intro fa hfa
      refine (Ext.decField hS (hf f (by simp)).1 hfa ((hf f (by simp)).2 ca fa hfa)).bind fun v => ?_
      exact (ih _ fa _ hfa fun g hg => hf g (List.mem_cons_of_mem _ hg)).bind fun _ => Ext.pure _
    unfold JBytes.decFields
    split
    · exact rest old ho
    · exact Ext.toCode (hf f (by simp)).1 env rest

theorem Ext.decVariant {L : Limits} (hS : L.standalone = true) (own : Option CAttr)
    (env : Env V) (i : Nat) (v : Variant V) (hv : AttrsOk L v.attrs)
    (hf : ∀ f ∈ v.fields, AttrsOk L f.attrs ∧ ∀ ca fa, FaOk? L fa → Ext (f.dec ca fa)) :
    Ext (decVariant own env i v) := by
  unfold JBytes.decVariant
  refine Ext.toCode hv env fun fa hfa => ?_
  exact (Ext.skipOffset _ _).bind fun _ => (Ext.decFields hS _ _ _ _ _ hfa hf).bind fun _ => Ext.pure _

theorem Ext.decTag (own ca : Option CAttr) (fa : Option FAttr) : Ext (decTag own ca fa) := by
  unfold JBytes.decTag
  split
  · split
    · exact Ext.pure _
    · split
      · exact Ext.takeUint _ _
      · split
        · exact Ext.takeUint _ _
        · exact Ext.takeU8.bind fun _ => Ext.pure _
  · split
    · exact Ext.takeUint _ _
    · exact Ext.takeU8.bind fun _ => Ext.pure _

theorem Ext.decEnum {L : Limits} (hS : L.standalone = true) (E : EnumDef V)
    (ca : Option CAttr) (fa : Option FAttr) (hw : E.withDecode = none) (hm : ∀ u, E.mode ≠ .startsWith u)
    (hv : ∀ v ∈ E.variants, AttrsOk L v.attrs)
    (hf : ∀ v ∈ E.variants, ∀ f ∈ v.fields, AttrsOk L f.attrs ∧ ∀ ca fa, FaOk? L fa → Ext (f.dec ca fa)) :
    Ext (decEnum E ca fa) := by
  have harm : ∀ env g, Ext (decArm E env g) := by
    intro env g
    unfold decArm
    split
    · rename_i i v h
      obtain ⟨n, hn⟩ := findArm_mem _ _ _ _ _ h
      have := (List.of_mem_zip hn).1
      exact Ext.decVariant hS _ _ _ _ (hv v this) (hf v this)
    · exact Ext.fail _
  unfold JBytes.decEnum
  rw [hw]
  simp only
  split
  · rename_i u hu
    exact absurd hu (hm u)
  · exact (Ext.takeBytes _).bind fun _ => harm _ _
  · exact (Ext.decTag _ ca fa).bind fun _ => harm _ _

/-- Every standalone decoder keeps its result when bytes are appended, if those it is built from do. -/
theorem DerivableIn.ext {L : Limits} {Γ : (α : Type) → (Nat → Dec α) → Prop} (hS : L.standalone = true) {d : Nat → Dec α} (h : DerivableIn L Γ α d) (n : Nat)
    (hΓ : ∀ β e, Γ β e → ∀ ca fa, FaOk? L fa → Ext (e n ca fa)) :
    ∀ (ca : Option CAttr) (fa : Option FAttr), FaOk? L fa → Ext (d n ca fa) := by
  induction h with
  | var h => exact hΓ _ _ h
  | int k hk => intro ca fa _; exact Ext.decInt k ca fa
  | f32 => intro ca fa _; exact Ext.takeScalar _ _
  | f64 => intro ca fa _; exact Ext.takeScalar _ _
  | bool => intro ca fa _; exact (Ext.takeBytes 1).bind fun _ => (Ext.index0 _).bind fun _ => Ext.pure _
  | char => intro ca fa _; exact (Ext.takeBytes 1).bind fun _ => (Ext.index0 _).bind fun _ => Ext.pure _
  | bytes => intro ca fa hfa; exact Ext.decBytes ca fa fun fr hfr => (hfa fr hfr).remaining hS
  | str => intro ca fa hfa; exact Ext.decStr ca fa fun fr hfr => (hfa fr hfr).remaining hS
  | ipv4 => intro ca fa _; exact Ext.decIpv4 ca fa
  | ipv6 => intro ca fa _; exact Ext.decIpv6 ca fa
  | ip => intro ca fa _; exact Ext.decIpAddr ca fa
  | mac => intro ca fa _; exact Ext.decMac ca fa
  | net => intro ca fa _; exact Ext.decNet ca fa
  | unit => intro ca fa _; exact Ext.pure _
  | vec _ ih =>
    intro ca fa hfa
    exact Ext.decVec n (ih ca fa hfa) (fun fr hfr => (hfa fr hfr).tryCount hS)
      fun fr hfr => (hfa fr hfr).loops hS
  | array k _ ih => intro ca fa hfa; exact (ih ca fa hfa).repeatM k
  | tuple ds _ ih =>
    intro ca fa hfa
    refine Ext.decTuple _ fun d hd => ?_
    obtain ⟨d', hd', rfl⟩ := List.mem_map.mp hd
    exact ih d' hd' ca fa hfa
  | option hno _ ih => rw [hS] at hno; cases hno
  | set _ ih =>
    intro ca fa hfa
    exact (Ext.decCounted (ih ca fa hfa) fun fr hfr => (hfa fr hfr).tryCount hS).bind fun _ => Ext.pure _
  | map _ _ ihk ihv =>
    intro ca fa hfa
    exact Ext.decMap (ihk ca _ hfa.key) (ihv ca _ hfa.val) fun fr hfr => (hfa fr hfr).tryCount hS
  | inject f _ ih => intro ca fa hfa; exact (ih ca fa hfa).bind fun _ => Ext.pure _
  | struct S ds _ hw hf ih =>
    intro ca fa _
    show Ext (decStruct (S n) ca fa)
    unfold decStruct
    rw [hw n]
    refine Ext.decFields hS _ _ _ _ _ (FaOk?.none L) fun f hfm => ?_
    obtain ⟨ha, d, hd, he⟩ := hf n f hfm
    exact ⟨ha, fun ca fa hfa => by rw [he]; exact ih d hd ca fa hfa⟩
  | enum E ds _ hw _ hm hv hf ih =>
    intro ca fa hfa
    refine Ext.decEnum hS (E n) ca fa (hw n) (hm hS n) (hv n) fun v hvm f hfm => ?_
    obtain ⟨ha, d, hd, he⟩ := hf n v hvm f hfm
    exact ⟨ha, fun ca fa hfa => by rw [he]; exact ih d hd ca fa hfa⟩

/-- Every standalone decoder keeps its result when bytes are appended. -/
theorem Derivable.ext {L : Limits} (hS : L.standalone = true) {d : Nat → Dec α}
    (h : Derivable L α d) (n : Nat) :
    ∀ (ca : Option CAttr) (fa : Option FAttr), FaOk? L fa → Ext (d n ca fa) :=
  DerivableIn.ext hS h n fun _ _ h => h.elim

end JBytes
