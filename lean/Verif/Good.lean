import Verif.Universe
import Verif.Safe
import Verif.PropSeq
/-!
# Helper lemmas: decoders of derivable types stay inside the data, do not panic and terminate
-/

namespace JBytes
open M

variable {α β V : Type} {p : Bool} {t : Bool} {N : Nat}

/-- Inside the data; without panic if `p`; with at most `N` bytes left, terminating if `t`. -/
def Good (p t : Bool) (N : Nat) (m : M α) : Prop :=
  Inside m ∧ (p = true → NoPanic m) ∧ (t = true → Halts N m)

theorem Good.bind {m : M α} {f : α → M β} (hm : Good p t N m) (hf : ∀ a, Good p t N (f a)) :
    Good p t N (m >>= f) :=
  ⟨hm.1.bind fun a => (hf a).1, fun h => NoPanic.bind hm.1 (hm.2.1 h) fun a => (hf a).2.1 h,
    fun h => Halts.bind hm.1 (hm.2.2 h) fun a => (hf a).2.2 h⟩

theorem Good.pure (a : α) : Good p t N (Pure.pure a : M α) :=
  ⟨Inside.pure a, fun _ => NoPanic.pure a, fun _ => Halts.pure _ a⟩

theorem Good.fail (c : ErrCode) : Good p t N (M.fail c : M α) :=
  ⟨Inside.fail c, fun _ => NoPanic.fail c, fun _ => Halts.fail _ c⟩

theorem Good.tame {m : M α} (h : Tame m) : Good p t N m := ⟨h.inside, fun _ => h.noPanic, fun _ => h.halts _⟩

theorem Good.attempt {m : M α} (h : Good p t N m) : Good p t N (M.attempt m) :=
  ⟨h.1.attempt, fun hp => (h.2.1 hp).attempt, fun ht => (h.2.2 ht).attempt⟩

theorem Good.map {m : M α} (h : Good p t N m) (f : α → β) : Good p t N (mapM' f m) := h.bind fun _ => Good.pure _

theorem Good.takeUint (n : Nat) (o : ByteOrder) (h : p = true → n ≤ 8) : Good p t N (takeUint n o) :=
  ⟨Inside.takeUint n o, fun hp => NoPanic.takeUint n o fun _ => h hp, fun _ => Halts.takeUint _ n o⟩

theorem Good.repeatM {m : M α} (h : Good p t N m) (n : Nat) : Good p t N (repeatM m n) :=
  ⟨h.1.repeatM n, fun hp => NoPanic.repeatM h.1 (h.2.1 hp) n, fun ht => Halts.repeatM h.1 (h.2.2 ht) n⟩

theorem Good.tryRepeatM {m : M α} (h : Good p t N m) (n : Nat) : Good p t N (tryRepeatM m n) :=
  ⟨h.1.tryRepeatM n, fun hp => NoPanic.tryRepeatM h.1 (h.2.1 hp) n, fun ht => Halts.tryRepeatM h.1 (h.2.2 ht) n⟩

theorem Good.whileStarts {m : M α} (h : Good p t N m) (x : List Byte) (n : Nat) (hx : t = true → x ≠ [] ∧ N < n) :
    Good p t N (whileStarts x m n) :=
  ⟨h.1.whileStarts x n, fun hp => NoPanic.whileStarts h.1 (h.2.1 hp) x n,
    fun ht => Halts.whileStarts h.1 (h.2.2 ht) x (hx ht).1 (hx ht).2⟩

/-- Reading and going back to where the reading started. -/
theorem Good.restore {m : M α} {f : α → M β} (hm : Good p t N m) (hf : ∀ a, Good p t N (f a)) :
    Good p t N (do
      let q ← getPos
      let v ← m
      setPos q
      f v) := by
  have key : ∀ b : Buf, b.Ok → ∀ v b', m b = (.ok v, b') →
      (do let q ← getPos
          let v ← m
          setPos q
          f v : M β) b = f v b := by
    intro b hb v b' h
    have h1 := (hm.1 b hb).1
    rw [h] at h1
    simp only [bind_apply, getPos_apply, h, setPos_apply]
    congr 1
    cases b; cases b'; simp only at h1; rw [h1]
  have key2 : ∀ b : Buf, (∀ v, (m b).1 ≠ .ok v) →
      ((do let q ← getPos
           let v ← m
           setPos q
           f v : M β) b).2 = (m b).2 ∧
      (((do let q ← getPos
            let v ← m
            setPos q
            f v : M β) b).1 = .panic → (m b).1 = .panic) ∧
      (((do let q ← getPos
            let v ← m
            setPos q
            f v : M β) b).1 = .timeout → (m b).1 = .timeout) := by
    intro b h
    simp only [bind_apply, getPos_apply]
    rcases hm' : m b with ⟨o, b'⟩
    rw [hm'] at h
    cases o with
    | ok v => exact absurd rfl (h v)
    | _ => refine ⟨rfl, ?_, ?_⟩ <;> intro h <;> first | rfl | cases h
  refine ⟨?_, ?_, ?_⟩
  · intro b hb
    by_cases h : ∃ v, (m b).1 = .ok v
    · obtain ⟨v, h⟩ := h
      rw [key b hb v (m b).2 (by rw [← h])]
      exact (hf v).1 b hb
    · have h' : ∀ v, (m b).1 ≠ .ok v := fun v hv => h ⟨v, hv⟩
      rw [(key2 b h').1]
      exact hm.1 b hb
  · intro hp b hb
    by_cases h : ∃ v, (m b).1 = .ok v
    · obtain ⟨v, h⟩ := h
      rw [key b hb v (m b).2 (by rw [← h])]
      exact (hf v).2.1 hp b hb
    · exact fun hh => hm.2.1 hp b hb ((key2 b fun v hv => h ⟨v, hv⟩).2.1 hh)
  · intro ht b hb hn
    by_cases h : ∃ v, (m b).1 = .ok v
    · obtain ⟨v, h⟩ := h
      rw [key b hb v (m b).2 (by rw [← h])]
      exact (hf v).2.2 ht b hb hn
    · exact fun hh => hm.2.2 ht b hb hn ((key2 b fun v hv => h ⟨v, hv⟩).2.2 hh)

/-! ## Codecs of the crate -/

theorem Good.decInt (k : IntKind) (ca : Option CAttr) (fa : Option FAttr)
    (h : p = true → k.size ≤ 8 ∨ ∀ n, fa.bind (·.length) = some n → n ≤ 8) : Good p t N (decInt k ca fa) := by
  unfold JBytes.decInt
  refine Good.bind ?_ fun v => ?_
  · unfold decWord
    split
    · rename_i n hn
      by_cases hk : k.size < n
      · rw [if_pos hk]; exact Good.fail _
      · rw [if_neg hk]
        refine (Good.takeUint n _ fun hp => ?_).bind fun _ => Good.pure _
        rcases h hp with h | h
        · omega
        · exact h n hn
    · exact Good.tame (tame_takeScalar _ _)
  · split <;> exact Good.pure _

theorem Good.skipNeedle (o : Option (List Byte)) : Good p t N (skipNeedle o) := by
  cases o with
  | none => exact Good.pure _
  | some x => exact (Good.tame (tame_findSubsequenceNeedle x true)).bind fun _ => Good.pure _

theorem Good.takePrefixed : Good p t N takePrefixed := (Good.tame tame_takeU8).bind fun _ => Good.tame (tame_takeBytes _)

theorem Good.decBytes (ca : Option CAttr) (fa : Option FAttr)
    (h : p = true → ∀ fr, fa = some fr → ∀ k, fr.byteCount = some k → k ≤ 8) : Good p t N (decBytes ca fa) := by
  unfold JBytes.decBytes
  split
  · exact Good.takePrefixed
  · rename_i fr
    refine (Good.skipNeedle _).bind fun _ => (Good.skipNeedle _).bind fun _ => ?_
    split
    · exact Good.tame (tame_takeBytes _)
    · split
      · rename_i k hk
        exact (Good.takeUint k _ fun hp => h hp fr rfl k hk).bind fun _ => Good.tame (tame_takeBytes _)
      · split
        · exact Good.tame (tame_findSubsequences _)
        · split
          · exact Good.tame (tame_findSubsequence _)
          · split
            · exact (Good.tame tame_remainingLen).bind fun _ => Good.tame (tame_takeBytes _)
            · exact Good.takePrefixed

theorem Good.decStr (ca : Option CAttr) (fa : Option FAttr)
    (h : p = true → ∀ fr, fa = some fr → ∀ k, fr.byteCount = some k → k ≤ 8) : Good p t N (decStr ca fa) := by
  refine (Good.decBytes ca fa h).bind fun v => ?_
  split
  · exact Good.pure _
  · exact Good.fail _

theorem Good.decIpv4 (ca : Option CAttr) (fa : Option FAttr) : Good p t N (decIpv4 ca fa) :=
  (Good.tame (tame_takeScalar _ _)).bind fun _ => Good.pure _

theorem Good.decIpv6 (ca : Option CAttr) (fa : Option FAttr) : Good p t N (decIpv6 ca fa) :=
  (Good.tame (tame_takeScalar _ _)).bind fun _ => Good.pure _

theorem Good.decMac (ca : Option CAttr) (fa : Option FAttr) : Good p t N (decMac ca fa) :=
  (Good.takeUint 6 _ fun _ => by omega).bind fun _ => Good.pure _

theorem Good.decIpAddr (ca : Option CAttr) (fa : Option FAttr) : Good p t N (decIpAddr ca fa) := by
  unfold JBytes.decIpAddr
  split
  · split
    · exact (Good.decIpv6 ca fa).bind fun _ => Good.pure _
    · split
      · exact (Good.decIpv4 ca fa).bind fun _ => Good.pure _
      · exact Good.fail _
  · exact Good.fail _

theorem Good.decNet (ca : Option CAttr) (fa : Option FAttr) : Good p t N (decNet ca fa) := by
  unfold JBytes.decNet
  split
  · split
    · exact Good.fail _
    · split
      · exact (Good.decIpv4 ca fa).bind fun _ => Good.pure _
      · split
        · exact (Good.decMac ca fa).bind fun _ => Good.pure _
        · split
          · exact (Good.decIpv6 ca fa).bind fun _ => Good.pure _
          · exact (Good.decInt _ ca fa fun _ => .inl (by decide)).bind fun _ => Good.pure _
  · exact Good.fail _

theorem Good.getCount (ca : Option CAttr) (fa : Option FAttr)
    (h : p = true → ∀ fr, fa = some fr → ∀ k, fr.byteCountOutside = some k → k ≤ 8) :
    Good p t N (getCount ca fa) := by
  unfold JBytes.getCount
  split
  · exact (Good.tame tame_takeU8).bind fun _ => Good.pure _
  · rename_i fr
    split
    · exact Good.pure _
    · split
      · exact Good.pure _
      · split
        · rename_i k hk
          exact (Good.takeUint k _ fun hp => h hp fr rfl k hk).bind fun _ => Good.pure _
        · exact (Good.tame tame_takeU8).bind fun _ => Good.pure _

theorem Good.decCounted {d : Dec α} {ca : Option CAttr} {fa : Option FAttr} (hd : Good p t N (d ca fa))
    (h : p = true → ∀ fr, fa = some fr → ∀ k, fr.byteCountOutside = some k → k ≤ 8) :
    Good p t N (decCounted d ca fa) := by
  refine (Good.getCount ca fa h).bind fun x => ?_
  obtain ⟨n, tc⟩ := x
  cases tc with
  | none => exact hd.repeatM n
  | some k => exact hd.tryRepeatM k

theorem Good.decVec {d : Dec α} {ca : Option CAttr} {fa : Option FAttr} (n : Nat) (hd : Good p t N (d ca fa))
    (h : p = true → ∀ fr, fa = some fr → ∀ k, fr.byteCountOutside = some k → k ≤ 8)
    (hs : t = true → N < n ∧ ∀ fr, fa = some fr → fr.loopSkipStarts ≠ some []) :
    Good p t N (decVec n d ca fa) := by
  unfold JBytes.decVec
  split
  · rename_i x hx
    refine hd.whileStarts x n fun ht => ⟨?_, (hs ht).1⟩
    rintro rfl
    cases fa with
    | none => cases hx
    | some fr => exact (hs ht).2 fr rfl hx
  · exact Good.decCounted hd h

theorem Good.decTuple : ∀ (ds : List (Dec α)) {ca : Option CAttr} {fa : Option FAttr},
    (∀ d ∈ ds, Good p t N (d ca fa)) → Good p t N (decTuple ds ca fa)
  | [], _, _, _ => Good.pure _
  | d :: ds, _, _, h => (h d (by simp)).bind fun _ =>
      (Good.decTuple ds fun d' hd' => h d' (List.mem_cons_of_mem _ hd')).bind fun _ => Good.pure _

theorem Good.decOption {d : Dec α} {ca : Option CAttr} {fa : Option FAttr} (hd : Good p t N (d ca fa)) :
    Good p t N (decOption d ca fa) := by
  unfold JBytes.decOption
  split
  · exact Good.pure _
  · exact hd.attempt

theorem Good.decMap [DecidableEq α] {dk : Dec α} {dv : Dec β} {ca : Option CAttr} {fa : Option FAttr}
    (hk : Good p t N (dk ca (keyFattr fa))) (hv : Good p t N (dv ca (valFattr fa)))
    (h : p = true → ∀ fr, fa = some fr → ∀ k, fr.byteCountOutside = some k → k ≤ 8) :
    Good p t N (decMap dk dv ca fa) := by
  have he : Good p t N (decEntry dk dv ca fa) := hk.bind fun _ => hv.bind fun _ => Good.pure _
  refine Good.bind ?_ fun _ => Good.pure _
  refine (Good.getCount ca fa h).bind fun x => ?_
  obtain ⟨n, tc⟩ := x
  cases tc with
  | none => exact he.repeatM n
  | some k => exact he.tryRepeatM k

/-! ## Modifiers -/

theorem FaOk?.none (L : Limits) : FaOk? L none := fun _ h => nomatch h

theorem FaOk?.key {L : Limits} {fa : Option FAttr} (h : FaOk? L fa) : FaOk? L (keyFattr fa) := by
  unfold keyFattr
  split
  · exact FaOk?.none L
  · rename_i fr
    split
    · rename_i hs
      rintro _ ⟨⟩
      constructor <;> simp
      exact fun hn => (((h fr rfl).searches hn).2.2.2)
    · exact h

theorem FaOk?.val {L : Limits} {fa : Option FAttr} (h : FaOk? L fa) : FaOk? L (valFattr fa) := by
  unfold valFattr
  split
  · exact FaOk?.none L
  · rename_i fr
    split
    · rename_i hs
      rintro _ ⟨⟩
      constructor <;> simp
      exact fun hn => (((h fr rfl).searches hn).2.1)
    · split
      · rename_i hs
        rintro _ ⟨⟩
        constructor <;> simp
        cases hn : L.searchless with
        | false => rfl
        | true => rw [((h fr rfl).searches hn).1] at hs; cases hs
      · exact h

/-- Computing the modifiers of a field: the result respects the limits. -/
theorem Good.toCode {L : Limits} {a : FieldAttrs V} (ha : AttrsOk L a) (env : Env V) {f : Option FAttr → M β}
    (hf : ∀ fa, FaOk? L fa → Good L.narrow t N (f fa)) : Good L.narrow t N (a.toCode env >>= f) := by
  unfold FieldAttrs.toCode
  split
  · have ho : ∀ o, Good L.narrow t N ((Pure.pure (some (a.modifiers o env)) : M _) >>= f) := by
      intro o
      refine (hf (some (a.modifiers o env)) ?_)
      rintro _ ⟨⟩
      exact ha.passed o env
    have e : ((do
        let o ← orderCode a.byteorder env
        Pure.pure (some (a.modifiers o env)) : M _) >>= f) =
        (orderCode a.byteorder env >>= fun o => (Pure.pure (some (a.modifiers o env)) : M _) >>= f) := by
      funext b
      simp only [bind_apply]
      rcases orderCode a.byteorder env b with ⟨x, b'⟩
      cases x <;> rfl
    rw [e]
    refine Good.bind ?_ ho
    unfold orderCode
    split
    · exact Good.pure _
    · exact Good.pure _
    · rename_i e he
      split
      · exact Good.pure _
      · split
        · exact Good.pure _
        · rename_i h0 h1
          exact ⟨Inside.panic, fun hp => absurd (ha.order hp e env he) (by simp [h0, h1]), fun _ => Halts.panic _⟩
  · exact hf none (FaOk?.none L)

/-! ## Derived code -/

theorem Good.finishValue (a : FieldAttrs V) (env : Env V) (v : V) : Good p t N (finishValue a env v) := by
  unfold JBytes.finishValue
  cases a.valueDecode <;> cases a.checkValue <;> simp only <;> first
    | exact Good.pure _
    | (split
       · exact Good.pure _
       · exact Good.fail _)

theorem Good.decCond {f : Field V} {env : Env V} {ca : Option CAttr} {fa : Option FAttr}
    (h : Good p t N (f.dec ca fa)) : Good p t N (decCond f env ca fa) := by
  unfold JBytes.decCond
  split
  · split
    · exact h
    · exact Good.pure _
  · exact h

theorem Good.getPos : Good p t N getPos :=
  Good.tame fun b hb => .inl ⟨b.pos, 0, rfl, hb.1⟩

theorem Good.decPlain {f : Field V} {env : Env V} {ca : Option CAttr} {fa : Option FAttr}
    (h : Good p t N (f.dec ca fa)) : Good p t N (decPlain f env ca fa) := by
  unfold JBytes.decPlain
  cases hu : f.attrs.untake with
  | true =>
    simp only [if_true]
    exact Good.restore (Good.decCond h) fun _ => Good.finishValue _ _ _
  | false =>
    simp only [Bool.false_eq_true, if_false]
    exact Good.getPos.bind fun _ => (Good.decCond h).bind fun _ => Good.finishValue _ _ _

theorem Good.decField {L : Limits} (hL : L.noOffset = true) {f : Field V} {env : Env V} {ca : Option CAttr}
    {fa : Option FAttr} (ha : AttrsOk L f.attrs) (hfa : FaOk? L fa) (h : Good L.narrow t N (f.dec ca fa)) :
    Good L.narrow t N (decField f env ca fa) := by
  unfold JBytes.decField
  rw [skipOffset, ha.offset hL, ha.custom]
  refine (Good.pure _).bind fun _ => ?_
  simp only
  split
  · exact Good.pure _
  · split
    · refine (Good.decStr ca fa fun hp fr hfr => (hfa fr hfr).byteCount hp).bind fun s => ?_
      split
      · exact Good.pure _
      · exact Good.fail _
    · exact Good.decPlain h

theorem Good.decFields {L : Limits} (hL : L.noOffset = true) (keep : Bool) : ∀ (fs : List (Field V))
    (ca : Option CAttr) (old : Option FAttr) (env : Env V), FaOk? L old →
    (∀ f ∈ fs, AttrsOk L f.attrs ∧ ∀ ca fa, FaOk? L fa → Good L.narrow t N (f.dec ca fa)) →
    Good L.narrow t N (decFields keep fs ca old env) := by
  intro fs
  induction fs with
  | nil => intro ca old env _ _; exact Good.pure _
  | cons f fs ih =>
    intro ca old env ho hf
    have rest : ∀ fa, FaOk? L fa → Good L.narrow t N (do
        let v ← JBytes.decField f env ca fa
        let vs ← JBytes.decFields keep fs (cacheVars f.attrs ca (env.push v)) fa (env.push v)
        Pure.pure (v :: vs)) := by
      intro fa hfa
      refine (Good.decField hL (hf f (by simp)).1 hfa ((hf f (by simp)).2 ca fa hfa)).bind fun v => ?_
      exact (ih _ fa _ hfa fun g hg => hf g (List.mem_cons_of_mem _ hg)).bind fun _ => Good.pure _
    unfold JBytes.decFields
    split
    · exact rest old ho
    · exact Good.toCode (hf f (by simp)).1 env rest

theorem Good.decVariant {L : Limits} (hL : L.noOffset = true) (own : Option CAttr) (env : Env V) (i : Nat)
    (v : Variant V) (hv : AttrsOk L v.attrs)
    (hf : ∀ f ∈ v.fields, AttrsOk L f.attrs ∧ ∀ ca fa, FaOk? L fa → Good L.narrow t N (f.dec ca fa)) :
    Good L.narrow t N (decVariant own env i v) := by
  unfold JBytes.decVariant
  refine Good.toCode hv env fun fa hfa => ?_
  rw [skipOffset, hv.offset hL]
  exact (Good.pure _).bind fun _ => (Good.decFields hL _ _ _ _ _ hfa hf).bind fun _ => Good.pure _

theorem findArm_mem (g : Tag) : ∀ (l : List (Variant V × Nat)) (i j : Nat) (v : Variant V),
    findArm g i l = some (j, v) → ∃ n, (v, n) ∈ l := by
  intro l
  induction l with
  | nil => intro i j v h; cases h
  | cons x xs ih =>
    intro i j v h
    obtain ⟨w, n⟩ := x
    unfold findArm at h
    split at h
    · cases h; exact ⟨n, by simp⟩
    · obtain ⟨m, hm⟩ := ih _ _ _ h
      exact ⟨m, List.mem_cons_of_mem _ hm⟩

theorem findWord_mem (data : List Byte) : ∀ (l : List (Variant V)) (i j : Nat) (v : Variant V),
    findWord data i l = some (j, v) → v ∈ l ∧ (v.branchDefault = true ∨ v.word.isPrefixOf data = true) := by
  intro l
  induction l with
  | nil => intro i j v h; cases h
  | cons x xs ih =>
    intro i j v h
    unfold findWord at h
    split at h
    · rename_i hc
      cases h
      exact ⟨by simp, by simpa using hc⟩
    · obtain ⟨h1, h2⟩ := ih _ _ _ h
      exact ⟨List.mem_cons_of_mem _ h1, h2⟩

theorem Good.decTag {L : Limits} (own ca : Option CAttr) (fa : Option FAttr)
    (ho : L.narrow = true → ∀ c k, own = some c → c.byteCount = some k → k ≤ 8) (hfa : FaOk? L fa) :
    Good L.narrow t N (decTag own ca fa) := by
  have h8 : Good L.narrow t N (do let x ← takeU8; Pure.pure x.toNat) :=
    (Good.tame tame_takeU8).bind fun _ => Good.pure _
  have hown : ∀ k, own.bind (·.byteCount) = some k → L.narrow = true → k ≤ 8 := by
    intro k hk hp
    cases own with
    | none => cases hk
    | some c => exact ho hp c k rfl hk
  unfold JBytes.decTag
  split
  · rename_i fr
    split
    · exact Good.pure _
    · split
      · rename_i k hk
        exact Good.takeUint k _ fun hp => (hfa fr rfl).byteCount hp k hk
      · split
        · rename_i k hk
          exact Good.takeUint k _ (hown k hk)
        · exact h8
  · split
    · rename_i k hk
      exact Good.takeUint k _ (hown k hk)
    · exact h8

/-- Good in each state because it there behaves like a good action from a state further on. -/
theorem Good.of_step {m : M α} (h : ∀ b, b.Ok → ∃ b1 : Buf, b1.Ok ∧ b1.data = b.data ∧ b.pos ≤ b1.pos ∧
    ∃ m' : M α, Good p t N m' ∧ m b = m' b1) : Good p t N m := by
  refine ⟨?_, ?_, ?_⟩
  · intro b hb
    obtain ⟨b1, h1, h2, h3, m, hm, he⟩ := h b hb
    rw [he]
    have := hm.1 b1 h1
    rw [h2] at this
    exact ⟨this.1, by omega, this.2.2⟩
  · intro hp b hb
    obtain ⟨b1, h1, h2, h3, m, hm, he⟩ := h b hb
    rw [he]
    exact hm.2.1 hp b1 h1
  · intro ht b hb hn
    obtain ⟨b1, h1, h2, h3, m, hm, he⟩ := h b hb
    rw [he]
    exact hm.2.2 ht b1 h1 (by rw [h2]; omega)

theorem Good.decEnumOf {L : Limits} (E : EnumDef V) (ca : Option CAttr) (fa : Option FAttr)
    (hw : E.withDecode = none)
    (ho : L.narrow = true → ∀ c k, E.container = some c → c.byteCount = some k → k ≤ 8) (hfa : FaOk? L fa)
    (hv : ∀ v ∈ E.variants, ∀ own env i, Good L.narrow t N (JBytes.decVariant own env i v)) :
    Good L.narrow t N (decEnum E ca fa) := by
  have harm : ∀ env g, Good L.narrow t N (decArm E env g) := by
    intro env g
    unfold decArm
    split
    · rename_i i v h
      obtain ⟨n, hn⟩ := findArm_mem _ _ _ _ _ h
      have := (List.of_mem_zip hn).1
      exact hv v this _ _ _
    · exact Good.fail _
  unfold JBytes.decEnum
  rw [hw]
  simp only
  split
  · rename_i u hu
    have key : ∀ b : Buf, b.Ok → ∀ i v, findWord (b.data.drop b.pos) 0 E.variants = some (i, v) →
        (u || v.branchDefault) = false → (⟨b.data, b.pos + v.word.length⟩ : Buf).Ok ∧
        wadd b.pos v.word.length = b.pos + v.word.length := by
      intro b hb i v h hc
      have hlen := (findWord_mem _ _ _ _ _ h).2
      simp only [Bool.or_eq_false_iff] at hc
      rw [hc.2] at hlen
      simp only [Bool.false_eq_true, false_or] at hlen
      have hlen := (List.isPrefixOf_iff_prefix.mp hlen).length_le
      rw [List.length_drop] at hlen
      have h1 := hb.1
      have h2 := hb.2
      have h3 := isizeMax_lt
      exact ⟨⟨by show b.pos + _ ≤ b.data.length; omega, hb.2⟩, wadd_eq (by omega)⟩
    refine Good.of_step fun b hb => ?_
    rw [bind_apply, remaining_apply']
    simp only
    rcases hw : findWord (b.data.drop b.pos) 0 E.variants with _ | ⟨i, v⟩
    · exact ⟨b, hb, rfl, Nat.le_refl _, _, Good.fail _, rfl⟩
    · have hmem := (findWord_mem _ _ _ _ _ hw).1
      have hg : Good L.narrow t N (JBytes.decVariant E.container { vars := localVars E.getVars ca } i v) :=
        hv v hmem _ _ _
      simp only
      cases hc : (u || v.branchDefault) with
      | true => exact ⟨b, hb, rfl, Nat.le_refl _, _, hg, rfl⟩
      | false =>
        obtain ⟨k1, k2⟩ := key b hb i v hw hc
        refine ⟨_, k1, rfl, Nat.le_add_right _ _, _, hg, ?_⟩
        simp only [Bool.false_eq_true, if_false]
        rw [bind_apply, advance_apply, k2]
  · exact (Good.tame (tame_takeBytes _)).bind fun _ => harm _ _
  · exact (Good.decTag _ ca fa ho hfa).bind fun _ => harm _ _

theorem Good.decEnum {L : Limits} (hL : L.noOffset = true) (E : EnumDef V) (ca : Option CAttr) (fa : Option FAttr)
    (hw : E.withDecode = none)
    (ho : L.narrow = true → ∀ c k, E.container = some c → c.byteCount = some k → k ≤ 8) (hfa : FaOk? L fa)
    (hv : ∀ v ∈ E.variants, AttrsOk L v.attrs)
    (hf : ∀ v ∈ E.variants, ∀ f ∈ v.fields, AttrsOk L f.attrs ∧
      ∀ ca fa, FaOk? L fa → Good L.narrow t N (f.dec ca fa)) :
    Good L.narrow t N (decEnum E ca fa) :=
  Good.decEnumOf E ca fa hw ho hfa fun v h _ _ _ => Good.decVariant hL _ _ _ _ (hv v h) (hf v h)

/-- Every derivable decoder without `offset` is well behaved, if those it is built from are. -/
theorem DerivableIn.good {L : Limits} {Γ : (α : Type) → (Nat → Dec α) → Prop} (hL : L.noOffset = true)
    {d : Nat → Dec α} (h : DerivableIn L Γ α d) (n : Nat)
    (hΓ : ∀ β e, Γ β e → ∀ ca fa, FaOk? L fa → Good L.narrow t N (e n ca fa))
    (ht : t = true → L.prefixes = true ∧ N < n) :
    ∀ (ca : Option CAttr) (fa : Option FAttr), FaOk? L fa → Good L.narrow t N (d n ca fa) := by
  induction h with
  | var h => exact hΓ _ _ h
  | int k hk =>
    intro ca fa hfa
    refine Good.decInt k ca fa fun hp => ?_
    rcases hk hp with hw | hk
    · refine .inr fun m hm => ?_
      cases fa with
      | none => cases hm
      | some fr => exact (hfa fr rfl).length hp hw m hm
    · exact .inl hk
  | f32 => intro ca fa _; exact Good.tame (tame_takeScalar _ _)
  | f64 => intro ca fa _; exact Good.tame (tame_takeScalar _ _)
  | bool => intro ca fa _; exact Good.tame tame_takeBool
  | char => intro ca fa _; exact Good.tame tame_takeChar
  | bytes => intro ca fa hfa; exact Good.decBytes ca fa fun hp fr hfr => (hfa fr hfr).byteCount hp
  | str => intro ca fa hfa; exact Good.decStr ca fa fun hp fr hfr => (hfa fr hfr).byteCount hp
  | ipv4 => intro ca fa _; exact Good.decIpv4 ca fa
  | ipv6 => intro ca fa _; exact Good.decIpv6 ca fa
  | ip => intro ca fa _; exact Good.decIpAddr ca fa
  | mac => intro ca fa _; exact Good.decMac ca fa
  | net => intro ca fa _; exact Good.decNet ca fa
  | unit => intro ca fa _; exact Good.pure _
  | vec _ ih =>
    intro ca fa hfa
    exact Good.decVec n (ih ca fa hfa) (fun hp fr hfr => (hfa fr hfr).outside hp)
      fun h => ⟨(ht h).2, fun fr hfr => (hfa fr hfr).starts (ht h).1⟩
  | array k _ ih => intro ca fa hfa; exact (ih ca fa hfa).repeatM k
  | tuple ds _ ih =>
    intro ca fa hfa
    refine Good.decTuple _ fun d hd => ?_
    obtain ⟨d', hd', rfl⟩ := List.mem_map.mp hd
    exact ih d' hd' ca fa hfa
  | option _ _ ih => intro ca fa hfa; exact Good.decOption (ih ca fa hfa)
  | set _ ih =>
    intro ca fa hfa
    exact (Good.decCounted (ih ca fa hfa) fun hp fr hfr => (hfa fr hfr).outside hp).bind fun _ => Good.pure _
  | map _ _ ihk ihv =>
    intro ca fa hfa
    exact Good.decMap (ihk ca _ hfa.key) (ihv ca _ hfa.val) fun hp fr hfr => (hfa fr hfr).outside hp
  | inject f _ ih => intro ca fa hfa; exact (ih ca fa hfa).map f
  | struct S ds _ hw hf ih =>
    intro ca fa _
    show Good _ _ _ (decStruct (S n) ca fa)
    unfold decStruct
    rw [hw n]
    refine Good.decFields hL _ _ _ _ _ (FaOk?.none L) fun f hfm => ?_
    obtain ⟨ha, d, hd, he⟩ := hf n f hfm
    exact ⟨ha, fun ca fa hfa => by rw [he]; exact ih d hd ca fa hfa⟩
  | enum E ds _ hw ho _ hv hf ih =>
    intro ca fa hfa
    refine Good.decEnum hL (E n) ca fa (hw n) (fun hp c k => ho hp n c k) hfa (hv n) fun v hvm f hfm => ?_
    obtain ⟨ha, d, hd, he⟩ := hf n v hvm f hfm
    exact ⟨ha, fun ca fa hfa => by rw [he]; exact ih d hd ca fa hfa⟩

/-- Every derivable decoder without `offset` is well behaved. -/
theorem Derivable.good {L : Limits} (hL : L.noOffset = true) {d : Nat → Dec α} (h : Derivable L α d) (n : Nat)
    (ht : t = true → L.prefixes = true ∧ N < n) :
    ∀ (ca : Option CAttr) (fa : Option FAttr), FaOk? L fa → Good L.narrow t N (d n ca fa) :=
  DerivableIn.good hL h n (fun _ _ h => h.elim) ht

end JBytes
