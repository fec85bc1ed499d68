import Verif.Good
/-!
# Helper lemmas: the result of a decoder depends only on the bytes it consumes
-/

namespace JBytes
open M

variable {α β V : Type}

/-- A successful run gives the same value and position on any data with the same bytes up to the final position. -/
def Local (m : M α) : Prop := ∀ (b : Buf) (v : α) (b' : Buf), b.Ok → m b = (.ok v, b') →
  ∀ data' : List Byte, data'.length ≤ isizeMax → b'.pos ≤ data'.length → data'.take b'.pos = b.data.take b'.pos →
    m ⟨data', b.pos⟩ = (.ok v, ⟨data', b'.pos⟩)

/-- Local, and staying inside the data. -/
def Loc (m : M α) : Prop := Inside m ∧ Local m

theorem take_of_le {l l' : List Byte} {i j : Nat} (h : l.take j = l'.take j) (hij : i ≤ j) : l.take i = l'.take i := by
  have := congrArg (List.take i) h
  rwa [List.take_take, List.take_take, Nat.min_eq_left hij] at this

theorem Loc.bind {m : M α} {f : α → M β} (hm : Loc m) (hf : ∀ a, Loc (f a)) : Loc (m >>= f) := by
  refine ⟨hm.1.bind fun a => (hf a).1, ?_⟩
  intro b v b2 hb h data' hl hp ht
  rw [bind_apply] at h ⊢
  have hin := hm.1 b hb
  have hok := hm.1.ok hb
  rcases hmb : m b with ⟨o, b1⟩
  rw [hmb] at h hin hok
  cases o with
  | ok a =>
    simp only at h hin
    have hin2 := (hf a).1 b1 hok
    rw [h] at hin2
    simp only at hin2
    have h12 : b1.pos ≤ b2.pos := hin2.2.1
    have e1 := hm.2 b a b1 hb hmb data' hl (by omega) (take_of_le ht h12)
    rw [e1]
    have e2 := (hf a).2 b1 v b2 hok h data' hl hp (by rw [hin.1]; exact ht)
    exact e2
  | _ => cases h

theorem Loc.pure (a : α) : Loc (Pure.pure a : M α) := by
  refine ⟨Inside.pure a, ?_⟩
  rintro b v b' _ h data' _ _ _
  cases h
  rfl

theorem Local.never {m : M α} (h : ∀ b v, b.Ok → (m b).1 ≠ .ok v) : Local m := by
  intro b v b' hb he
  exact absurd (by rw [he]) (h b v hb)

theorem Loc.fail (c : ErrCode) : Loc (M.fail c : M α) :=
  ⟨Inside.fail c, Local.never fun _ _ _ h => by cases h⟩

theorem Loc.panic : Loc (M.panic : M α) := ⟨Inside.panic, Local.never fun _ _ _ h => by cases h⟩

theorem take_drop_of_take {l l' : List Byte} {p n j : Nat} (h : l'.take j = l.take j) (hj : p + n ≤ j) :
    (l'.drop p).take n = (l.drop p).take n := by
  have := take_of_le h hj
  rw [List.take_drop, List.take_drop, this]

theorem Loc.takeBytes (n : Nat) : Loc (takeBytes n) := by
  refine ⟨(tame_takeBytes n).inside, ?_⟩
  intro b v b' hb h data' hl hp ht
  rw [takeBytes_apply n b hb] at h
  split at h
  · cases h
  · cases h
    simp only at hp ht ⊢
    rw [takeBytes_apply n _ ⟨by show b.pos ≤ data'.length; omega, hl⟩]
    simp only
    rw [if_neg (by omega), take_drop_of_take ht (Nat.le_refl _)]

theorem Loc.index0 (l : List Byte) : Loc (index0 l) := by
  cases l with
  | nil => exact Loc.panic
  | cons x xs => exact Loc.pure x

theorem Loc.takeU8 : Loc takeU8 := (Loc.takeBytes 1).bind fun _ => Loc.index0 _

theorem Loc.takeScalar (s : Scalar) (o : ByteOrder) : Loc (takeScalar s o) := by
  cases s <;> first
    | exact Loc.takeU8.bind fun _ => Loc.pure _
    | exact (Loc.takeBytes _).bind fun _ => Loc.pure _

theorem Loc.takeUint (n : Nat) (o : ByteOrder) : Loc (takeUint n o) := by
  unfold JBytes.takeUint takeN takeBeN takeLeN
  split <;> split <;> first
    | exact (Loc.takeBytes _).bind fun _ => Loc.pure _
    | exact Loc.fail _
    | exact Loc.panic

theorem occursAt_iff {needle hay : List Byte} {i : Nat} :
    OccursAt needle hay i ↔ i + needle.length ≤ hay.length ∧ (hay.take (i + needle.length)).drop i = needle := by
  constructor
  · intro h
    refine ⟨h.le, ?_⟩
    obtain ⟨a, c, rfl, rfl⟩ := h
    rw [List.append_assoc, ← List.take_drop]
    simp
  · rintro ⟨h1, h2⟩
    refine ⟨hay.take i, hay.drop (i + needle.length), ?_, by simp; omega⟩
    have e : hay.take (i + needle.length) = hay.take i ++ needle := by
      conv => lhs; rw [← List.take_append_drop i (hay.take (i + needle.length))]
      rw [h2, List.take_take, Nat.min_eq_left (by omega)]
    rw [← e, List.take_append_drop]

theorem findSub_local {needle hay hay' : List Byte} {i : Nat} (h : findSub needle hay = some i)
    (hl : i + needle.length ≤ hay'.length)
    (ht : hay'.take (i + needle.length) = hay.take (i + needle.length)) : findSub needle hay' = some i := by
  obtain ⟨h1, h2⟩ := findSub_some h
  refine findSub_eq_some (occursAt_iff.mpr ⟨hl, by rw [ht]; exact (occursAt_iff.mp h1).2⟩) fun j hj hc => ?_
  refine h2 j hj (occursAt_iff.mpr ⟨by have := h1.le; omega, ?_⟩)
  rw [← take_of_le ht (by omega)]
  exact (occursAt_iff.mp hc).2

theorem acFind_local {ns : List (List Byte)} {hay hay' : List Byte} {s e : Nat} (h : acFind ns hay = some (s, e))
    (hl : e ≤ hay'.length) (ht : hay'.take e = hay.take e) : acFind ns hay' = some (s, e) := by
  obtain ⟨_, h2, h3, h4⟩ := acFind_some h
  refine acFind_eq_some hl (by rw [ht]; exact h2) (by rw [ht]; exact h3) fun k hk => ?_
  rw [take_of_le ht (Nat.le_of_lt hk)]
  exact h4 k hk

theorem take_drop_eq {l l' : List Byte} {p j : Nat} (h : l'.take (p + j) = l.take (p + j)) :
    (l'.drop p).take j = (l.drop p).take j := take_drop_of_take h (Nat.le_refl _)

theorem Loc.findSubsequence (x : List Byte) : Loc (findSubsequence x) := by
  refine ⟨(tame_findSubsequence x).inside, ?_⟩
  intro b v b' hb h data' hl hp ht
  rw [findSubsequence_apply x b hb] at h
  rcases hf : findSub x (b.data.drop b.pos) with _ | i
  · rw [hf] at h; cases h
  · rw [hf] at h
    cases h
    simp only at hp ht ⊢
    rw [findSubsequence_apply x _ ⟨by show b.pos ≤ data'.length; omega, hl⟩]
    have := findSub_local (hay' := data'.drop b.pos) hf (by rw [List.length_drop]; omega) (take_drop_eq ht)
    simp only [this]
    rw [take_drop_of_take ht (by omega)]

theorem Loc.findNeedle (x : List Byte) : Loc (findSubsequenceNeedle x true) := by
  refine ⟨(tame_findSubsequenceNeedle x true).inside, ?_⟩
  intro b v b' hb h data' hl hp ht
  rw [findSubsequenceNeedle_apply x true b hb] at h
  rcases hf : findSub x (b.data.drop b.pos) with _ | i
  · rw [hf] at h; cases h
  · rw [hf] at h
    cases h
    simp only [if_true] at hp ht ⊢
    rw [findSubsequenceNeedle_apply x true _ ⟨by show b.pos ≤ data'.length; omega, hl⟩]
    have := findSub_local (hay' := data'.drop b.pos) hf (by rw [List.length_drop]; omega) (take_drop_eq ht)
    simp only [this, if_true]
    rw [take_drop_of_take ht (by omega)]

theorem Loc.findSubsequences (ns : List (List Byte)) : Loc (findSubsequences ns) := by
  refine ⟨(tame_findSubsequences ns).inside, ?_⟩
  intro b v b' hb h data' hl hp ht
  rw [findSubsequences_apply ns b hb] at h
  rcases hf : acFind ns (b.data.drop b.pos) with _ | ⟨s, e⟩
  · rw [hf] at h; cases h
  · rw [hf] at h
    cases h
    simp only at hp ht ⊢
    rw [findSubsequences_apply ns _ ⟨by show b.pos ≤ data'.length; omega, hl⟩]
    have := acFind_local (hay' := data'.drop b.pos) hf (by rw [List.length_drop]; omega) (take_drop_eq ht)
    obtain ⟨_, ⟨n, _, _, hs⟩, _⟩ := acFind_some hf
    simp only [this]
    rw [take_drop_of_take ht (by omega)]

theorem Loc.repeatM {m : M α} (h : Loc m) (n : Nat) : Loc (repeatM m n) := by
  induction n with
  | zero => exact Loc.pure _
  | succ n ih => exact Loc.bind h fun _ => Loc.bind ih fun _ => Loc.pure _

/-! ## Codecs of the crate -/

theorem Loc.decInt (k : IntKind) (ca : Option CAttr) (fa : Option FAttr) : Loc (decInt k ca fa) := by
  unfold JBytes.decInt
  refine Loc.bind ?_ fun v => ?_
  · unfold decWord
    split
    · split
      · exact Loc.fail _
      · exact (Loc.takeUint _ _).bind fun _ => Loc.pure _
    · exact Loc.takeScalar _ _
  · split <;> exact Loc.pure _

theorem Loc.skipNeedle (o : Option (List Byte)) : Loc (skipNeedle o) := by
  cases o with
  | none => exact Loc.pure _
  | some x => exact (Loc.findNeedle x).bind fun _ => Loc.pure _

theorem Loc.takePrefixed : Loc takePrefixed := Loc.takeU8.bind fun _ => Loc.takeBytes _

theorem Loc.decBytes (ca : Option CAttr) (fa : Option FAttr) (h : ∀ fr, fa = some fr → fr.remaining = false) :
    Loc (decBytes ca fa) := by
  unfold JBytes.decBytes
  split
  · exact Loc.takePrefixed
  · rename_i fr
    refine (Loc.skipNeedle _).bind fun _ => (Loc.skipNeedle _).bind fun _ => ?_
    rw [h fr rfl]
    split
    · exact Loc.takeBytes _
    · split
      · exact (Loc.takeUint _ _).bind fun _ => Loc.takeBytes _
      · split
        · exact Loc.findSubsequences _
        · split
          · exact Loc.findSubsequence _
          · exact Loc.takePrefixed

theorem Loc.decStr (ca : Option CAttr) (fa : Option FAttr) (h : ∀ fr, fa = some fr → fr.remaining = false) :
    Loc (decStr ca fa) := by
  refine (Loc.decBytes ca fa h).bind fun v => ?_
  split
  · exact Loc.pure _
  · exact Loc.fail _

theorem Loc.decIpv4 (ca : Option CAttr) (fa : Option FAttr) : Loc (decIpv4 ca fa) :=
  (Loc.takeScalar _ _).bind fun _ => Loc.pure _

theorem Loc.decIpv6 (ca : Option CAttr) (fa : Option FAttr) : Loc (decIpv6 ca fa) :=
  (Loc.takeScalar _ _).bind fun _ => Loc.pure _

theorem Loc.decMac (ca : Option CAttr) (fa : Option FAttr) : Loc (decMac ca fa) :=
  (Loc.takeUint _ _).bind fun _ => Loc.pure _

theorem Loc.decIpAddr (ca : Option CAttr) (fa : Option FAttr) : Loc (decIpAddr ca fa) := by
  unfold JBytes.decIpAddr
  split
  · split
    · exact (Loc.decIpv6 ca fa).bind fun _ => Loc.pure _
    · split
      · exact (Loc.decIpv4 ca fa).bind fun _ => Loc.pure _
      · exact Loc.fail _
  · exact Loc.fail _

theorem Loc.decNet (ca : Option CAttr) (fa : Option FAttr) : Loc (decNet ca fa) := by
  unfold JBytes.decNet
  split
  · split
    · exact Loc.fail _
    · split
      · exact (Loc.decIpv4 ca fa).bind fun _ => Loc.pure _
      · split
        · exact (Loc.decMac ca fa).bind fun _ => Loc.pure _
        · split
          · exact (Loc.decIpv6 ca fa).bind fun _ => Loc.pure _
          · exact (Loc.decInt _ ca fa).bind fun _ => Loc.pure _
  · exact Loc.fail _

/-- A count read from the wire or given; no `try_count`. -/
theorem Loc.counted {m : M α} (ca : Option CAttr) (fa : Option FAttr)
    (h : ∀ fr, fa = some fr → fr.tryCount = none) (hm : Loc m) :
    Loc (getCount ca fa >>= fun x => match x with
      | (n, t) => match t with
        | some t => JBytes.tryRepeatM m t
        | none => JBytes.repeatM m n) := by
  have h8 : Loc ((do let n ← JBytes.takeU8; Pure.pure (n.toNat, none) : M (Nat × Option Nat)) >>= fun x => match x with
      | (n, t) => match t with
        | some t => JBytes.tryRepeatM m t
        | none => JBytes.repeatM m n) := by
    have e : ((do let n ← JBytes.takeU8; Pure.pure (n.toNat, none) : M (Nat × Option Nat)) >>= fun x => match x with
        | (n, t) => match t with
          | some t => JBytes.tryRepeatM m t
          | none => JBytes.repeatM m n) = (JBytes.takeU8 >>= fun n => JBytes.repeatM m n.toNat) := by
      funext b
      simp only [bind_apply]
      rcases JBytes.takeU8 b with ⟨o, b'⟩
      cases o <;> rfl
    rw [e]
    exact Loc.takeU8.bind fun _ => hm.repeatM _
  unfold getCount
  split
  · exact h8
  · rename_i fr
    rw [h fr rfl]
    split
    · exact (hm.repeatM _)
    · simp only
      split
      · rename_i k hk
        have e : ((do
            let n ← JBytes.takeUint k (getByteorder ca (some fr))
            Pure.pure (n, none) : M (Nat × Option Nat)) >>= fun x => match x with
          | (n, t) => match t with
            | some t => JBytes.tryRepeatM m t
            | none => JBytes.repeatM m n) =
            (JBytes.takeUint k (getByteorder ca (some fr)) >>= fun n => JBytes.repeatM m n) := by
          funext b
          simp only [bind_apply]
          rcases JBytes.takeUint k (getByteorder ca (some fr)) b with ⟨o, b'⟩
          cases o <;> rfl
        rw [e]
        exact (Loc.takeUint k _).bind fun _ => hm.repeatM _
      · exact h8

theorem Loc.decCounted {d : Dec α} {ca : Option CAttr} {fa : Option FAttr} (hd : Loc (d ca fa))
    (h : ∀ fr, fa = some fr → fr.tryCount = none) : Loc (decCounted d ca fa) := Loc.counted ca fa h hd

theorem Loc.decVec {d : Dec α} {ca : Option CAttr} {fa : Option FAttr} (n : Nat) (hd : Loc (d ca fa))
    (h : ∀ fr, fa = some fr → fr.tryCount = none) (hs : ∀ fr, fa = some fr → fr.loopSkipStarts = none) :
    Loc (decVec n d ca fa) := by
  unfold JBytes.decVec
  split
  · rename_i x hx
    cases fa with
    | none => cases hx
    | some fr =>
      have := hs fr rfl
      simp only [Option.bind_some] at hx
      rw [this] at hx
      cases hx
  · exact Loc.decCounted hd h

theorem Loc.decTuple : ∀ (ds : List (Dec α)) {ca : Option CAttr} {fa : Option FAttr},
    (∀ d ∈ ds, Loc (d ca fa)) → Loc (decTuple ds ca fa)
  | [], _, _, _ => Loc.pure _
  | d :: ds, _, _, h => (h d (by simp)).bind fun _ =>
      (Loc.decTuple ds fun d' hd' => h d' (List.mem_cons_of_mem _ hd')).bind fun _ => Loc.pure _

theorem Loc.decMap [DecidableEq α] {dk : Dec α} {dv : Dec β} {ca : Option CAttr} {fa : Option FAttr}
    (hk : Loc (dk ca (keyFattr fa))) (hv : Loc (dv ca (valFattr fa)))
    (h : ∀ fr, fa = some fr → fr.tryCount = none) : Loc (decMap dk dv ca fa) := by
  have he : Loc (decEntry dk dv ca fa) := hk.bind fun _ => hv.bind fun _ => Loc.pure _
  exact Loc.bind (Loc.counted ca fa h he) fun _ => Loc.pure _

/-! ## Derived code -/

theorem Loc.toCode {L : Limits} {a : FieldAttrs V} (ha : AttrsOk L a) (env : Env V) {f : Option FAttr → M β}
    (hf : ∀ fa, FaOk? L fa → Loc (f fa)) : Loc (a.toCode env >>= f) := by
  unfold FieldAttrs.toCode
  split
  · have ho : ∀ o, Loc ((Pure.pure (some (a.modifiers o env)) : M _) >>= f) := by
      intro o
      refine (hf (some (a.modifiers o env)) ?_)
      rintro _ ⟨⟩
      exact ha.passed o env
    have e : ((do
        let o ← orderCode a.byteorder env
        Pure.pure (some (a.modifiers o env)) : M _) >>= f) =
        (orderCode a.byteorder env >>= fun o => (Pure.pure (some (a.modifiers o env)) : M _) >>= f) := by
      funext b
      simp only [bind_apply]
      rcases orderCode a.byteorder env b with ⟨x, b'⟩
      cases x <;> rfl
    rw [e]
    refine Loc.bind ?_ ho
    unfold orderCode
    split
    · exact Loc.pure _
    · exact Loc.pure _
    · split
      · exact Loc.pure _
      · split
        · exact Loc.pure _
        · exact Loc.panic
  · exact hf none (FaOk?.none L)

theorem Loc.finishValue (a : FieldAttrs V) (env : Env V) (v : V) : Loc (finishValue a env v) := by
  unfold JBytes.finishValue
  cases a.valueDecode <;> cases a.checkValue <;> simp only <;> first
    | exact Loc.pure _
    | (split
       · exact Loc.pure _
       · exact Loc.fail _)

theorem Loc.getPos : Loc getPos := by
  refine ⟨(Good.getPos (p := false) (t := false) (N := 0)).1, ?_⟩
  rintro b v b' _ h data' _ _ _
  cases h
  rfl

theorem Loc.decPlain {f : Field V} {env : Env V} {ca : Option CAttr} {fa : Option FAttr}
    (hu : f.attrs.untake = false) (h : Loc (f.dec ca fa)) : Loc (decPlain f env ca fa) := by
  unfold JBytes.decPlain
  rw [hu]
  simp only [Bool.false_eq_true, if_false]
  refine Loc.getPos.bind fun _ => Loc.bind ?_ fun _ => Loc.finishValue _ _ _
  unfold decCond
  split
  · split
    · exact h
    · exact Loc.pure _
  · exact h

theorem Loc.decField {L : Limits} (hL : L.noOffset = true) (hS : L.standalone = true) {f : Field V} {env : Env V}
    {ca : Option CAttr} {fa : Option FAttr} (ha : AttrsOk L f.attrs) (hfa : FaOk? L fa) (h : Loc (f.dec ca fa)) :
    Loc (decField f env ca fa) := by
  unfold JBytes.decField
  rw [skipOffset, ha.offset hL, ha.custom]
  refine (Loc.pure _).bind fun _ => ?_
  simp only
  split
  · exact Loc.pure _
  · split
    · refine (Loc.decStr ca fa fun fr hfr => (hfa fr hfr).remaining hS).bind fun s => ?_
      split
      · exact Loc.pure _
      · exact Loc.fail _
    · exact Loc.decPlain (ha.untake hS) h

theorem Loc.decFields {L : Limits} (hL : L.noOffset = true) (hS : L.standalone = true) (keep : Bool) :
    ∀ (fs : List (Field V)) (ca : Option CAttr) (old : Option FAttr) (env : Env V), FaOk? L old →
    (∀ f ∈ fs, AttrsOk L f.attrs ∧ ∀ ca fa, FaOk? L fa → Loc (f.dec ca fa)) →
    Loc (decFields keep fs ca old env) := by
  intro fs
  induction fs with
  | nil => intro ca old env _ _; exact Loc.pure _
  | cons f fs ih =>
    intro ca old env ho hf
    have rest : ∀ fa, FaOk? L fa → Loc (do
        let v ← JBytes.decField f env ca fa
        let vs ← JBytes.decFields keep fs (cacheVars f.attrs ca (env.push v)) fa (env.push v)
        Pure.pure (v :: vs)) := by
      intro fa hfa
      refine (Loc.decField hL hS (hf f (by simp)).1 hfa ((hf f (by simp)).2 ca fa hfa)).bind fun v => ?_
      exact (ih _ fa _ hfa fun g hg => hf g (List.mem_cons_of_mem _ hg)).bind fun _ => Loc.pure _
    unfold JBytes.decFields
    split
    · exact rest old ho
    · exact Loc.toCode (hf f (by simp)).1 env rest

theorem Loc.decVariant {L : Limits} (hL : L.noOffset = true) (hS : L.standalone = true) (own : Option CAttr)
    (env : Env V) (i : Nat) (v : Variant V) (hv : AttrsOk L v.attrs)
    (hf : ∀ f ∈ v.fields, AttrsOk L f.attrs ∧ ∀ ca fa, FaOk? L fa → Loc (f.dec ca fa)) :
    Loc (decVariant own env i v) := by
  unfold JBytes.decVariant
  refine Loc.toCode hv env fun fa hfa => ?_
  rw [skipOffset, hv.offset hL]
  exact (Loc.pure _).bind fun _ => (Loc.decFields hL hS _ _ _ _ _ hfa hf).bind fun _ => Loc.pure _

theorem Loc.decTag (own ca : Option CAttr) (fa : Option FAttr) : Loc (decTag own ca fa) := by
  unfold JBytes.decTag
  split
  · split
    · exact Loc.pure _
    · split
      · exact Loc.takeUint _ _
      · split
        · exact Loc.takeUint _ _
        · exact Loc.takeU8.bind fun _ => Loc.pure _
  · split
    · exact Loc.takeUint _ _
    · exact Loc.takeU8.bind fun _ => Loc.pure _

theorem Loc.decEnum {L : Limits} (hL : L.noOffset = true) (hS : L.standalone = true) (E : EnumDef V)
    (ca : Option CAttr) (fa : Option FAttr) (hw : E.withDecode = none) (hm : ∀ u, E.mode ≠ .startsWith u)
    (hv : ∀ v ∈ E.variants, AttrsOk L v.attrs)
    (hf : ∀ v ∈ E.variants, ∀ f ∈ v.fields, AttrsOk L f.attrs ∧ ∀ ca fa, FaOk? L fa → Loc (f.dec ca fa)) :
    Loc (decEnum E ca fa) := by
  have harm : ∀ env g, Loc (decArm E env g) := by
    intro env g
    unfold decArm
    split
    · rename_i i v h
      obtain ⟨n, hn⟩ := findArm_mem _ _ _ _ _ h
      have := (List.of_mem_zip hn).1
      exact Loc.decVariant hL hS _ _ _ _ (hv v this) (hf v this)
    · exact Loc.fail _
  unfold JBytes.decEnum
  rw [hw]
  simp only
  split
  · rename_i u hu
    exact absurd hu (hm u)
  · exact (Loc.takeBytes _).bind fun _ => harm _ _
  · exact (Loc.decTag _ ca fa).bind fun _ => harm _ _

/-- Every standalone decoder without `offset` is local, if those it is built from are. -/
theorem DerivableIn.loc {L : Limits} {Γ : (α : Type) → (Nat → Dec α) → Prop} (hL : L.noOffset = true)
    (hS : L.standalone = true) {d : Nat → Dec α} (h : DerivableIn L Γ α d) (n : Nat)
    (hΓ : ∀ β e, Γ β e → ∀ ca fa, FaOk? L fa → Loc (e n ca fa)) :
    ∀ (ca : Option CAttr) (fa : Option FAttr), FaOk? L fa → Loc (d n ca fa) := by
  induction h with
  | var h => exact hΓ _ _ h
  | int k hk => intro ca fa _; exact Loc.decInt k ca fa
  | f32 => intro ca fa _; exact Loc.takeScalar _ _
  | f64 => intro ca fa _; exact Loc.takeScalar _ _
  | bool => intro ca fa _; exact (Loc.takeBytes 1).bind fun _ => (Loc.index0 _).bind fun _ => Loc.pure _
  | char => intro ca fa _; exact (Loc.takeBytes 1).bind fun _ => (Loc.index0 _).bind fun _ => Loc.pure _
  | bytes => intro ca fa hfa; exact Loc.decBytes ca fa fun fr hfr => (hfa fr hfr).remaining hS
  | str => intro ca fa hfa; exact Loc.decStr ca fa fun fr hfr => (hfa fr hfr).remaining hS
  | ipv4 => intro ca fa _; exact Loc.decIpv4 ca fa
  | ipv6 => intro ca fa _; exact Loc.decIpv6 ca fa
  | ip => intro ca fa _; exact Loc.decIpAddr ca fa
  | mac => intro ca fa _; exact Loc.decMac ca fa
  | net => intro ca fa _; exact Loc.decNet ca fa
  | unit => intro ca fa _; exact Loc.pure _
  | vec _ ih =>
    intro ca fa hfa
    exact Loc.decVec n (ih ca fa hfa) (fun fr hfr => (hfa fr hfr).tryCount hS)
      fun fr hfr => (hfa fr hfr).loops hS
  | array k _ ih => intro ca fa hfa; exact (ih ca fa hfa).repeatM k
  | tuple ds _ ih =>
    intro ca fa hfa
    refine Loc.decTuple _ fun d hd => ?_
    obtain ⟨d', hd', rfl⟩ := List.mem_map.mp hd
    exact ih d' hd' ca fa hfa
  | option hno _ ih => rw [hS] at hno; cases hno
  | set _ ih =>
    intro ca fa hfa
    exact (Loc.decCounted (ih ca fa hfa) fun fr hfr => (hfa fr hfr).tryCount hS).bind fun _ => Loc.pure _
  | map _ _ ihk ihv =>
    intro ca fa hfa
    exact Loc.decMap (ihk ca _ hfa.key) (ihv ca _ hfa.val) fun fr hfr => (hfa fr hfr).tryCount hS
  | inject f _ ih => intro ca fa hfa; exact (ih ca fa hfa).bind fun _ => Loc.pure _
  | struct S ds _ hw hf ih =>
    intro ca fa _
    show Loc (decStruct (S n) ca fa)
    unfold decStruct
    rw [hw n]
    refine Loc.decFields hL hS _ _ _ _ _ (FaOk?.none L) fun f hfm => ?_
    obtain ⟨ha, d, hd, he⟩ := hf n f hfm
    exact ⟨ha, fun ca fa hfa => by rw [he]; exact ih d hd ca fa hfa⟩
  | enum E ds _ hw _ hm hv hf ih =>
    intro ca fa hfa
    refine Loc.decEnum hL hS (E n) ca fa (hw n) (hm hS n) (hv n) fun v hvm f hfm => ?_
    obtain ⟨ha, d, hd, he⟩ := hf n v hvm f hfm
    exact ⟨ha, fun ca fa hfa => by rw [he]; exact ih d hd ca fa hfa⟩

/-- Every standalone decoder without `offset` is local. -/
theorem Derivable.loc {L : Limits} (hL : L.noOffset = true) (hS : L.standalone = true) {d : Nat → Dec α}
    (h : Derivable L α d) (n : Nat) :
    ∀ (ca : Option CAttr) (fa : Option FAttr), FaOk? L fa → Loc (d n ca fa) :=
  DerivableIn.loc hL hS h n fun _ _ h => h.elim

end JBytes
