import Verif.Extend
/-!
# Helper lemmas: which errors of a decoder stay when bytes are appended to the data

`Keeps C m`: besides a success (`Ext`), a failure whose code is in `C` is the same when more bytes follow.
-/

namespace JBytes
open M

variable {α β V : Type} {C : ErrCode → Prop}

/-- A success, and a failure with a code of `C`, are the same when bytes are appended to the data. -/
def Keeps (C : ErrCode → Prop) (m : M α) : Prop := Ext m ∧
  ∀ (data : List Byte) (p : Nat), data.length ≤ isizeMax → p < usizeMod →
    ∀ (e : JErr) (b' : Buf), m ⟨data, p⟩ = (.err e, b') → C e.code → b'.data = data ∧
      ∀ suf : List Byte, (data ++ suf).length ≤ isizeMax → m ⟨data ++ suf, p⟩ = (.err e, ⟨data ++ suf, b'.pos⟩)

theorem Keeps.bind {m : M α} {f : α → M β} (hm : Keeps C m) (hf : ∀ a, Keeps C (f a)) : Keeps C (m >>= f) := by
  refine ⟨hm.1.bind fun a => (hf a).1, ?_⟩
  intro data p hl hp e b2 h hc
  rw [bind_apply] at h
  rcases hmb : m ⟨data, p⟩ with ⟨o, b1⟩
  rw [hmb] at h
  cases o with
  | ok a =>
    simp only at h
    obtain ⟨hd, hq, hx⟩ := hm.1 data p hl hp a b1 hmb
    obtain ⟨d1, p1⟩ := b1
    simp only at hd hq hx
    subst hd
    obtain ⟨hd2, hx2⟩ := (hf a).2 d1 p1 hl hq e b2 h hc
    refine ⟨hd2, fun suf hs => ?_⟩
    rw [bind_apply, hx suf hs]
    exact hx2 suf hs
  | err e' =>
    simp only [Prod.mk.injEq, Out.err.injEq] at h
    obtain ⟨rfl, rfl⟩ := h
    obtain ⟨hd, hx⟩ := hm.2 data p hl hp _ _ hmb hc
    refine ⟨hd, fun suf hs => ?_⟩
    rw [bind_apply, hx suf hs]
  | _ => cases h

/-- No failure has a code of `C`. -/
theorem Keeps.quiet {m : M α} (h : Ext m) (hq : ∀ b e, (m b).1 = .err e → ¬ C e.code) : Keeps C m := by
  refine ⟨h, fun data p _ _ e b' he hc => absurd hc (hq ⟨data, p⟩ e (by rw [he]))⟩

theorem Keeps.pure (a : α) : Keeps C (Pure.pure a : M α) := .quiet (Ext.pure a) fun _ _ h => nomatch h

theorem Keeps.panic : Keeps C (M.panic : M α) := .quiet Ext.panic fun _ _ h => nomatch h

theorem Keeps.fail (c : ErrCode) : Keeps C (M.fail c : M α) := by
  refine ⟨Ext.fail c, ?_⟩
  rintro data p _ _ e b' ⟨⟩ _
  exact ⟨rfl, fun _ _ => rfl⟩

theorem Keeps.getPos : Keeps C getPos := .quiet Ext.getPos fun _ _ h => nomatch h

theorem Keeps.advance (n : Nat) : Keeps C (advance n) := .quiet (Ext.advance n) fun _ _ h => nomatch h

theorem slice_quiet (i j : Nat) (b : Buf) (e : JErr) : (slice i j b).1 ≠ .err e := by
  unfold slice
  split <;> exact fun h => nomatch h

theorem takeBytes_codes (n : Nat) (b : Buf) (e : JErr) (h : (takeBytes n b).1 = .err e) :
    e.code = .invalidByteLength := by
  unfold takeBytes remainingLen at h
  simp only [bind_apply, remaining_apply', pure_apply] at h
  split at h
  · cases h; rfl
  · exact absurd h (slice_quiet _ _ _ _)

/-- Lack of bytes is not among the codes. -/
class Short (C : ErrCode → Prop) : Prop where
  not : ¬ C .invalidByteLength

variable [Short C]
set_option linter.unusedSectionVars false

theorem Keeps.takeBytes (n : Nat) : Keeps C (takeBytes n) :=
  .quiet (Ext.takeBytes n) fun b e h => by rw [takeBytes_codes n b e h]; exact Short.not

theorem findSubsequence_codes (x : List Byte) (b : Buf) (e : JErr) (h : (findSubsequence x b).1 = .err e) :
    e.code = .fail := by
  unfold findSubsequence at h
  simp only [bind_apply, getPos_apply, remaining_apply'] at h
  generalize findSub x (b.data.drop b.pos) = o at h
  rcases o with _ | i
  · cases h; rfl
  · exact absurd h (slice_quiet _ _ _ _)

theorem findNeedle_codes (x : List Byte) (b : Buf) (e : JErr) (h : (findSubsequenceNeedle x true b).1 = .err e) :
    e.code = .fail := by
  unfold findSubsequenceNeedle at h
  simp only [bind_apply, getPos_apply, remaining_apply'] at h
  generalize findSub x (b.data.drop b.pos) = o at h
  rcases o with _ | i
  · cases h; rfl
  · exact absurd h (slice_quiet _ _ _ _)

theorem findSubsequences_codes (ns : List (List Byte)) (b : Buf) (e : JErr) (h : (findSubsequences ns b).1 = .err e) :
    e.code = .fail := by
  unfold findSubsequences at h
  simp only [bind_apply, getPos_apply, remaining_apply'] at h
  generalize acFind ns (b.data.drop b.pos) = o at h
  rcases o with _ | i
  · cases h; rfl
  · exact absurd h (slice_quiet _ _ _ _)

theorem Keeps.findSubsequence (hs : ¬ C .fail) (x : List Byte) : Keeps C (findSubsequence x) :=
  .quiet (Ext.findSubsequence x) fun b e h => by rw [findSubsequence_codes x b e h]; exact hs

theorem Keeps.findNeedle (hs : ¬ C .fail) (x : List Byte) : Keeps C (findSubsequenceNeedle x true) :=
  .quiet (Ext.findNeedle x) fun b e h => by rw [findNeedle_codes x b e h]; exact hs

theorem Keeps.findSubsequences (hs : ¬ C .fail) (ns : List (List Byte)) : Keeps C (findSubsequences ns) :=
  .quiet (Ext.findSubsequences ns) fun b e h => by rw [findSubsequences_codes ns b e h]; exact hs

/-- A search fails with a code outside of `C`, or there are no searches. -/
def SearchOk (C : ErrCode → Prop) (fa : Option FAttr) : Prop := ¬ C .fail ∨ ∀ fr, fa = some fr →
  fr.linend = false ∧ fr.linendValue = none ∧ fr.key = none ∧ fr.split = none

theorem Keeps.index0 (l : List Byte) : Keeps C (index0 l) := by
  cases l with
  | nil => exact Keeps.panic
  | cons x xs => exact Keeps.pure x

theorem Keeps.takeU8 : Keeps C takeU8 := (Keeps.takeBytes 1).bind fun _ => Keeps.index0 _

theorem Keeps.takeScalar (s : Scalar) (o : ByteOrder) : Keeps C (takeScalar s o) := by
  cases s <;> first
    | exact Keeps.takeU8.bind fun _ => Keeps.pure _
    | exact (Keeps.takeBytes _).bind fun _ => Keeps.pure _

theorem Keeps.takeUint (n : Nat) (o : ByteOrder) : Keeps C (takeUint n o) := by
  unfold JBytes.takeUint takeN takeBeN takeLeN
  split <;> split <;> first
    | exact (Keeps.takeBytes _).bind fun _ => Keeps.pure _
    | exact Keeps.fail _
    | exact Keeps.panic

theorem Keeps.repeatM {m : M α} (h : Keeps C m) (n : Nat) : Keeps C (repeatM m n) := by
  induction n with
  | zero => exact Keeps.pure _
  | succ n ih => exact Keeps.bind h fun _ => Keeps.bind ih fun _ => Keeps.pure _

/-! ## Codecs of the crate -/

theorem Keeps.decInt (k : IntKind) (ca : Option CAttr) (fa : Option FAttr) : Keeps C (decInt k ca fa) := by
  unfold JBytes.decInt
  refine Keeps.bind ?_ fun v => ?_
  · unfold decWord
    split
    · split
      · exact Keeps.fail _
      · exact (Keeps.takeUint _ _).bind fun _ => Keeps.pure _
    · exact Keeps.takeScalar _ _
  · split <;> exact Keeps.pure _

theorem Keeps.skipNeedle (o : Option (List Byte)) (hs : ¬ C .fail ∨ o = none) : Keeps C (skipNeedle o) := by
  cases o with
  | none => exact Keeps.pure _
  | some x => exact (Keeps.findNeedle (hs.resolve_right fun h => nomatch h) x).bind fun _ => Keeps.pure _

theorem Keeps.takePrefixed : Keeps C takePrefixed := Keeps.takeU8.bind fun _ => Keeps.takeBytes _

theorem Keeps.decBytes (ca : Option CAttr) (fa : Option FAttr) (h : ∀ fr, fa = some fr → fr.remaining = false)
    (hs : SearchOk C fa) : Keeps C (decBytes ca fa) := by
  unfold JBytes.decBytes
  split
  · exact Keeps.takePrefixed
  · rename_i fr
    refine (Keeps.skipNeedle _ (hs.imp id fun h => (h fr rfl).2.2.1)).bind fun _ =>
      (Keeps.skipNeedle _ (hs.imp id fun h => (h fr rfl).2.2.2)).bind fun _ => ?_
    rw [h fr rfl]
    split
    · exact Keeps.takeBytes _
    · split
      · exact (Keeps.takeUint _ _).bind fun _ => Keeps.takeBytes _
      · split
        · rename_i hl
          exact Keeps.findSubsequences (hs.resolve_right fun h => by rw [(h fr rfl).1] at hl; cases hl) _
        · split
          · rename_i hl
            exact Keeps.findSubsequence (hs.resolve_right fun h => by rw [(h fr rfl).2.1] at hl; cases hl) _
          · exact Keeps.takePrefixed

theorem Keeps.decStr (ca : Option CAttr) (fa : Option FAttr) (h : ∀ fr, fa = some fr → fr.remaining = false)
    (hs : SearchOk C fa) : Keeps C (decStr ca fa) := by
  refine (Keeps.decBytes ca fa h hs).bind fun v => ?_
  split
  · exact Keeps.pure _
  · exact Keeps.fail _

theorem Keeps.decIpv4 (ca : Option CAttr) (fa : Option FAttr) : Keeps C (decIpv4 ca fa) :=
  (Keeps.takeScalar _ _).bind fun _ => Keeps.pure _

theorem Keeps.decIpv6 (ca : Option CAttr) (fa : Option FAttr) : Keeps C (decIpv6 ca fa) :=
  (Keeps.takeScalar _ _).bind fun _ => Keeps.pure _

theorem Keeps.decMac (ca : Option CAttr) (fa : Option FAttr) : Keeps C (decMac ca fa) :=
  (Keeps.takeUint _ _).bind fun _ => Keeps.pure _

theorem Keeps.decIpAddr (ca : Option CAttr) (fa : Option FAttr) : Keeps C (decIpAddr ca fa) := by
  unfold JBytes.decIpAddr
  split
  · split
    · exact (Keeps.decIpv6 ca fa).bind fun _ => Keeps.pure _
    · split
      · exact (Keeps.decIpv4 ca fa).bind fun _ => Keeps.pure _
      · exact Keeps.fail _
  · exact Keeps.fail _

theorem Keeps.decNet (ca : Option CAttr) (fa : Option FAttr) : Keeps C (decNet ca fa) := by
  unfold JBytes.decNet
  split
  · split
    · exact Keeps.fail _
    · split
      · exact (Keeps.decIpv4 ca fa).bind fun _ => Keeps.pure _
      · split
        · exact (Keeps.decMac ca fa).bind fun _ => Keeps.pure _
        · split
          · exact (Keeps.decIpv6 ca fa).bind fun _ => Keeps.pure _
          · exact (Keeps.decInt _ ca fa).bind fun _ => Keeps.pure _
  · exact Keeps.fail _

/-- A count read from the wire or given; no `try_count`. -/
theorem Keeps.counted {m : M α} (ca : Option CAttr) (fa : Option FAttr)
    (h : ∀ fr, fa = some fr → fr.tryCount = none) (hm : Keeps C m) :
    Keeps C (getCount ca fa >>= fun x => match x with
      | (n, t) => match t with
        | some t => JBytes.tryRepeatM m t
        | none => JBytes.repeatM m n) := by
  have h8 : Keeps C ((do let n ← JBytes.takeU8; Pure.pure (n.toNat, none) : M (Nat × Option Nat)) >>= fun x => match x with
      | (n, t) => match t with
        | some t => JBytes.tryRepeatM m t
        | none => JBytes.repeatM m n) := by
    have e : ((do let n ← JBytes.takeU8; Pure.pure (n.toNat, none) : M (Nat × Option Nat)) >>= fun x => match x with
        | (n, t) => match t with
          | some t => JBytes.tryRepeatM m t
          | none => JBytes.repeatM m n) = (JBytes.takeU8 >>= fun n => JBytes.repeatM m n.toNat) := by
      funext b
      simp only [bind_apply]
      rcases JBytes.takeU8 b with ⟨o, b'⟩
      cases o <;> rfl
    rw [e]
    exact Keeps.takeU8.bind fun _ => hm.repeatM _
  unfold getCount
  split
  · exact h8
  · rename_i fr
    rw [h fr rfl]
    split
    · exact (hm.repeatM _)
    · simp only
      split
      · rename_i k hk
        have e : ((do
            let n ← JBytes.takeUint k (getByteorder ca (some fr))
            Pure.pure (n, none) : M (Nat × Option Nat)) >>= fun x => match x with
          | (n, t) => match t with
            | some t => JBytes.tryRepeatM m t
            | none => JBytes.repeatM m n) =
            (JBytes.takeUint k (getByteorder ca (some fr)) >>= fun n => JBytes.repeatM m n) := by
          funext b
          simp only [bind_apply]
          rcases JBytes.takeUint k (getByteorder ca (some fr)) b with ⟨o, b'⟩
          cases o <;> rfl
        rw [e]
        exact (Keeps.takeUint k _).bind fun _ => hm.repeatM _
      · exact h8

theorem Keeps.decCounted {d : Dec α} {ca : Option CAttr} {fa : Option FAttr} (hd : Keeps C (d ca fa))
    (h : ∀ fr, fa = some fr → fr.tryCount = none) : Keeps C (decCounted d ca fa) := Keeps.counted ca fa h hd

theorem Keeps.decVec {d : Dec α} {ca : Option CAttr} {fa : Option FAttr} (n : Nat) (hd : Keeps C (d ca fa))
    (h : ∀ fr, fa = some fr → fr.tryCount = none) (hs : ∀ fr, fa = some fr → fr.loopSkipStarts = none) :
    Keeps C (decVec n d ca fa) := by
  unfold JBytes.decVec
  split
  · rename_i x hx
    cases fa with
    | none => cases hx
    | some fr =>
      have := hs fr rfl
      simp only [Option.bind_some] at hx
      rw [this] at hx
      cases hx
  · exact Keeps.decCounted hd h

theorem Keeps.decTuple : ∀ (ds : List (Dec α)) {ca : Option CAttr} {fa : Option FAttr},
    (∀ d ∈ ds, Keeps C (d ca fa)) → Keeps C (decTuple ds ca fa)
  | [], _, _, _ => Keeps.pure _
  | d :: ds, _, _, h => (h d (by simp)).bind fun _ =>
      (Keeps.decTuple ds fun d' hd' => h d' (List.mem_cons_of_mem _ hd')).bind fun _ => Keeps.pure _

theorem Keeps.decMap [DecidableEq α] {dk : Dec α} {dv : Dec β} {ca : Option CAttr} {fa : Option FAttr}
    (hk : Keeps C (dk ca (keyFattr fa))) (hv : Keeps C (dv ca (valFattr fa)))
    (h : ∀ fr, fa = some fr → fr.tryCount = none) : Keeps C (decMap dk dv ca fa) := by
  have he : Keeps C (decEntry dk dv ca fa) := hk.bind fun _ => hv.bind fun _ => Keeps.pure _
  exact Keeps.bind (Keeps.counted ca fa h he) fun _ => Keeps.pure _

/-! ## Derived code -/

theorem FaOk?.searchOk {L : Limits} {fa : Option FAttr} (h : FaOk? L fa) (hT : C .fail → L.searchless = true) :
    SearchOk C fa := by
  by_cases hc : C .fail
  · exact .inr fun fr hfr => (h fr hfr).searches (hT hc)
  · exact .inl hc

theorem Keeps.toCode {L : Limits} {a : FieldAttrs V} (ha : AttrsOk L a) (env : Env V) {f : Option FAttr → M β}
    (hf : ∀ fa, FaOk? L fa → Keeps C (f fa)) : Keeps C (a.toCode env >>= f) := by
  unfold FieldAttrs.toCode
  split
  · have ho : ∀ o, Keeps C ((Pure.pure (some (a.modifiers o env)) : M _) >>= f) := by
      intro o
      refine (hf (some (a.modifiers o env)) ?_)
      rintro _ ⟨⟩
      exact ha.passed o env
    have e : ((do
        let o ← orderCode a.byteorder env
        Pure.pure (some (a.modifiers o env)) : M _) >>= f) =
        (orderCode a.byteorder env >>= fun o => (Pure.pure (some (a.modifiers o env)) : M _) >>= f) := by
      funext b
      simp only [bind_apply]
      rcases orderCode a.byteorder env b with ⟨x, b'⟩
      cases x <;> rfl
    rw [e]
    refine Keeps.bind ?_ ho
    unfold orderCode
    split
    · exact Keeps.pure _
    · exact Keeps.pure _
    · split
      · exact Keeps.pure _
      · split
        · exact Keeps.pure _
        · exact Keeps.panic
  · exact hf none (FaOk?.none L)

theorem Keeps.finishValue (a : FieldAttrs V) (env : Env V) (v : V) : Keeps C (finishValue a env v) := by
  unfold JBytes.finishValue
  cases a.valueDecode <;> cases a.checkValue <;> simp only <;> first
    | exact Keeps.pure _
    | (split
       · exact Keeps.pure _
       · exact Keeps.fail _)

theorem Keeps.skipOffset (a : FieldAttrs V) (env : Env V) : Keeps C (skipOffset a env) := by
  unfold JBytes.skipOffset
  split
  · exact Keeps.advance _
  · exact Keeps.pure _

theorem Keeps.decPlain {f : Field V} {env : Env V} {ca : Option CAttr} {fa : Option FAttr}
    (hu : f.attrs.untake = false) (h : Keeps C (f.dec ca fa)) : Keeps C (decPlain f env ca fa) := by
  unfold JBytes.decPlain
  rw [hu]
  simp only [Bool.false_eq_true, if_false]
  refine Keeps.getPos.bind fun _ => Keeps.bind ?_ fun _ => Keeps.finishValue _ _ _
  unfold decCond
  split
  · split
    · exact h
    · exact Keeps.pure _
  · exact h

theorem Keeps.decField {L : Limits} (hS : L.standalone = true) (hT : C .fail → L.searchless = true) {f : Field V} {env : Env V}
    {ca : Option CAttr} {fa : Option FAttr} (ha : AttrsOk L f.attrs) (hfa : FaOk? L fa) (h : Keeps C (f.dec ca fa)) :
    Keeps C (decField f env ca fa) := by
  unfold JBytes.decField
  rw [ha.custom]
  refine (Keeps.skipOffset _ _).bind fun _ => ?_
  simp only
  split
  · exact Keeps.pure _
  · split
    · refine (Keeps.decStr ca fa (fun fr hfr => (hfa fr hfr).remaining hS) (hfa.searchOk hT)).bind fun s => ?_
      split
      · exact Keeps.pure _
      · exact Keeps.fail _
    · exact Keeps.decPlain (ha.untake hS) h

theorem Keeps.decFields {L : Limits} (hS : L.standalone = true) (hT : C .fail → L.searchless = true) (keep : Bool) :
    ∀ (fs : List (Field V)) (ca : Option CAttr) (old : Option FAttr) (env : Env V), FaOk? L old →
    (∀ f ∈ fs, AttrsOk L f.attrs ∧ ∀ ca fa, FaOk? L fa → Keeps C (f.dec ca fa)) →
    Keeps C (decFields keep fs ca old env) := by
  intro fs
  induction fs with
  | nil => intro ca old env _ _; exact Keeps.pure _
  | cons f fs ih =>
    intro ca old env ho hf
    have rest : ∀ fa, FaOk? L fa → Keeps C (do
        let v ← JBytes.decField f env ca fa
        let vs ← JBytes.decFields keep fs (cacheVars f.attrs ca (env.push v)) fa (env.push v)
        Pure.pure (v :: vs)) := by
      intro fa hfa
      refine (Keeps.decField hS hT (hf f (by simp)).1 hfa ((hf f (by simp)).2 ca fa hfa)).bind fun v => ?_
      exact (ih _ fa _ hfa fun g hg => hf g (List.mem_cons_of_mem _ hg)).bind fun _ => Keeps.pure _
    unfold JBytes.decFields
    split
    · exact rest old ho
    · exact Keeps.toCode (hf f (by simp)).1 env rest

theorem Keeps.decVariant {L : Limits} (hS : L.standalone = true) (hT : C .fail → L.searchless = true) (own : Option CAttr)
    (env : Env V) (i : Nat) (v : Variant V) (hv : AttrsOk L v.attrs)
    (hf : ∀ f ∈ v.fields, AttrsOk L f.attrs ∧ ∀ ca fa, FaOk? L fa → Keeps C (f.dec ca fa)) :
    Keeps C (decVariant own env i v) := by
  unfold JBytes.decVariant
  refine Keeps.toCode hv env fun fa hfa => ?_
  exact (Keeps.skipOffset _ _).bind fun _ => (Keeps.decFields hS hT _ _ _ _ _ hfa hf).bind fun _ => Keeps.pure _

theorem Keeps.decTag (own ca : Option CAttr) (fa : Option FAttr) : Keeps C (decTag own ca fa) := by
  unfold JBytes.decTag
  split
  · split
    · exact Keeps.pure _
    · split
      · exact Keeps.takeUint _ _
      · split
        · exact Keeps.takeUint _ _
        · exact Keeps.takeU8.bind fun _ => Keeps.pure _
  · split
    · exact Keeps.takeUint _ _
    · exact Keeps.takeU8.bind fun _ => Keeps.pure _

theorem Keeps.decEnum {L : Limits} (hS : L.standalone = true) (hT : C .fail → L.searchless = true) (E : EnumDef V)
    (ca : Option CAttr) (fa : Option FAttr) (hw : E.withDecode = none) (hm : ∀ u, E.mode ≠ .startsWith u)
    (hv : ∀ v ∈ E.variants, AttrsOk L v.attrs)
    (hf : ∀ v ∈ E.variants, ∀ f ∈ v.fields, AttrsOk L f.attrs ∧ ∀ ca fa, FaOk? L fa → Keeps C (f.dec ca fa)) :
    Keeps C (decEnum E ca fa) := by
  have harm : ∀ env g, Keeps C (decArm E env g) := by
    intro env g
    unfold decArm
    split
    · rename_i i v h
      obtain ⟨n, hn⟩ := findArm_mem _ _ _ _ _ h
      have := (List.of_mem_zip hn).1
      exact Keeps.decVariant hS hT _ _ _ _ (hv v this) (hf v this)
    · exact Keeps.fail _
  unfold JBytes.decEnum
  rw [hw]
  simp only
  split
  · rename_i u hu
    exact absurd hu (hm u)
  · exact (Keeps.takeBytes _).bind fun _ => harm _ _
  · exact (Keeps.decTag _ ca fa).bind fun _ => harm _ _

/-- Every standalone decoder keeps its result when bytes are appended, if those it is built from do. -/
theorem DerivableIn.keeps {L : Limits} {Γ : (α : Type) → (Nat → Dec α) → Prop} (hS : L.standalone = true) (hT : C .fail → L.searchless = true) {d : Nat → Dec α} (h : DerivableIn L Γ α d) (n : Nat)
    (hΓ : ∀ β e, Γ β e → ∀ ca fa, FaOk? L fa → Keeps C (e n ca fa)) :
    ∀ (ca : Option CAttr) (fa : Option FAttr), FaOk? L fa → Keeps C (d n ca fa) := by
  induction h with
  | var h => exact hΓ _ _ h
  | int k hk => intro ca fa _; exact Keeps.decInt k ca fa
  | f32 => intro ca fa _; exact Keeps.takeScalar _ _
  | f64 => intro ca fa _; exact Keeps.takeScalar _ _
  | bool => intro ca fa _; exact (Keeps.takeBytes 1).bind fun _ => (Keeps.index0 _).bind fun _ => Keeps.pure _
  | char => intro ca fa _; exact (Keeps.takeBytes 1).bind fun _ => (Keeps.index0 _).bind fun _ => Keeps.pure _
  | bytes => intro ca fa hfa; exact Keeps.decBytes ca fa (fun fr hfr => (hfa fr hfr).remaining hS) (hfa.searchOk hT)
  | str => intro ca fa hfa; exact Keeps.decStr ca fa (fun fr hfr => (hfa fr hfr).remaining hS) (hfa.searchOk hT)
  | ipv4 => intro ca fa _; exact Keeps.decIpv4 ca fa
  | ipv6 => intro ca fa _; exact Keeps.decIpv6 ca fa
  | ip => intro ca fa _; exact Keeps.decIpAddr ca fa
  | mac => intro ca fa _; exact Keeps.decMac ca fa
  | net => intro ca fa _; exact Keeps.decNet ca fa
  | unit => intro ca fa _; exact Keeps.pure _
  | vec _ ih =>
    intro ca fa hfa
    exact Keeps.decVec n (ih ca fa hfa) (fun fr hfr => (hfa fr hfr).tryCount hS)
      fun fr hfr => (hfa fr hfr).loops hS
  | array k _ ih => intro ca fa hfa; exact (ih ca fa hfa).repeatM k
  | tuple ds _ ih =>
    intro ca fa hfa
    refine Keeps.decTuple _ fun d hd => ?_
    obtain ⟨d', hd', rfl⟩ := List.mem_map.mp hd
    exact ih d' hd' ca fa hfa
  | option hno _ ih => rw [hS] at hno; cases hno
  | set _ ih =>
    intro ca fa hfa
    exact (Keeps.decCounted (ih ca fa hfa) fun fr hfr => (hfa fr hfr).tryCount hS).bind fun _ => Keeps.pure _
  | map _ _ ihk ihv =>
    intro ca fa hfa
    exact Keeps.decMap (ihk ca _ hfa.key) (ihv ca _ hfa.val) fun fr hfr => (hfa fr hfr).tryCount hS
  | inject f _ ih => intro ca fa hfa; exact (ih ca fa hfa).bind fun _ => Keeps.pure _
  | struct S ds _ hw hf ih =>
    intro ca fa _
    show Keeps C (decStruct (S n) ca fa)
    unfold decStruct
    rw [hw n]
    refine Keeps.decFields hS hT _ _ _ _ _ (FaOk?.none L) fun f hfm => ?_
    obtain ⟨ha, d, hd, he⟩ := hf n f hfm
    exact ⟨ha, fun ca fa hfa => by rw [he]; exact ih d hd ca fa hfa⟩
  | enum E ds _ hw _ hm hv hf ih =>
    intro ca fa hfa
    refine Keeps.decEnum hS hT (E n) ca fa (hw n) (hm hS n) (hv n) fun v hvm f hfm => ?_
    obtain ⟨ha, d, hd, he⟩ := hf n v hvm f hfm
    exact ⟨ha, fun ca fa hfa => by rw [he]; exact ih d hd ca fa hfa⟩

/-- Every standalone decoder keeps its result when bytes are appended. -/
theorem Derivable.keeps {L : Limits} (hS : L.standalone = true) (hT : C .fail → L.searchless = true) {d : Nat → Dec α}
    (h : Derivable L α d) (n : Nat) :
    ∀ (ca : Option CAttr) (fa : Option FAttr), FaOk? L fa → Keeps C (d n ca fa) :=
  DerivableIn.keeps hS hT h n fun _ _ h => h.elim

end JBytes
