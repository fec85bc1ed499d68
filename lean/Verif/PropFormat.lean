import Verif.Format
import Verif.PropTop
import Verif.PropRecursive
import Verif.PropMore
/-!
# Every value that has an image is written as it and read back from it: C70
-/

namespace JBytes
open M

variable {α β V : Type}

/-- Container modifiers that differ in the variables at most. -/
def SameOrder (ce cd : Option CAttr) : Prop := cd.bind (·.byteorder) = ce.bind (·.byteorder)

theorem SameOrder.effective {ce cd : Option CAttr} (h : SameOrder ce cd) (fa : Option FAttr) :
    effectiveOrder cd fa = effectiveOrder ce fa := by
  unfold effectiveOrder
  rw [h]

/-- What C70 says about one type. -/
def Sends (d : Dec α) (e : Enc α) (R : WireRel α) : Prop := ∀ ce cd fa v w suf, SameOrder ce cd → R ce cd fa v w suf →
  Writes (e v ce fa) w ∧ Reads (d cd fa) v w suf

theorem NumWire.eq {o : ByteOrder} {n v : Nat} {w : List Byte} (h : NumWire o n v w) : w = toBytes o n v ∧ v < 256 ^ n := by
  obtain ⟨rfl, h⟩ := h
  refine ⟨?_, h.1⟩
  rw [h.unique (isValueOf_fromBytes o w), toBytes_fromBytes]

/-! ## Scalars -/

theorem Sends.int (k : IntKind) (hk : k.Valid) : Sends (decInt k) (encInt k) (intRel k) := by
  intro ce cd fa v w suf hs h
  obtain ⟨hb, h⟩ := h
  cases hl : fa.bind (·.length) with
  | none =>
    rw [hl] at h
    obtain ⟨rfl, hv⟩ := NumWire.eq h
    refine ⟨int_writes k hk v ce fa hb hl, ?_⟩
    rw [← hs.effective]
    exact int_reads k hk v cd fa suf hb hl hv
  | some n =>
    rw [hl] at h
    obtain ⟨hn, h8, hz, h⟩ := h
    cases fa with
    | none => cases hl
    | some fr =>
      simp only [Option.bind_some] at hb hl
      obtain ⟨rfl, hv⟩ := NumWire.eq h
      have fin : ∀ u ud : List Byte, u.length = n → IsValueOf (effectiveOrder ce (some fr)) u v → ud.length = n →
          IsValueOf (effectiveOrder cd (some fr)) ud v → Appends (encInt k v ce (some fr)) u →
          (∀ suf, Reads (decInt k cd (some fr)) v ud suf) →
          Writes (encInt k v ce (some fr)) (toBytes (effectiveOrder ce (some fr)) n v) ∧
            Reads (decInt k cd (some fr)) v (toBytes (effectiveOrder ce (some fr)) n v) suf := by
        intro u ud h1 h2 h3 h4 h5 h6
        rw [hs.effective] at h4
        have e1 := (NumWire.eq ⟨h1, h2⟩).1
        have e2 := (NumWire.eq ⟨h3, h4⟩).1
        rw [e1] at h5
        rw [e2] at h6
        exact ⟨h5.writes, h6 suf⟩
      rcases hz with hz | rfl
      · obtain ⟨u, a1, a2, a3, -⟩ := C20_length_roundtrip k v n ce fr hb hl hn h8 hv hz
        obtain ⟨ud, b1, b2, -, b4⟩ := C20_length_roundtrip k v n cd fr hb hl hn h8 hv hz
        exact fin u ud a1 a2 b1 b2 a3 b4
      · obtain ⟨u, a1, a2, a3, -⟩ := C21_full_width_partial k v ce fr hb hl h8 hv
        obtain ⟨ud, b1, b2, -, b4⟩ := C21_full_width_partial k v cd fr hb hl h8 hv
        exact fin u ud a1 a2 b1 b2 a3 b4

theorem Sends.f32 : Sends decF32 encF32 (floatRel 4) := by
  intro ce cd fa v w suf hs h
  obtain ⟨rfl, hv⟩ := NumWire.eq h
  have e := (C19_byteorder ce fa _ rfl).2.2.2.1 v
  have d := (C19_byteorder cd fa _ rfl).2.2.1
  rw [e.1, d.1, hs.effective]
  exact ⟨(Appends.scalar .f32 v _).writes, Reads.scalar .f32 _ v suf hv⟩

theorem Sends.f64 : Sends decF64 encF64 (floatRel 8) := by
  intro ce cd fa v w suf hs h
  obtain ⟨rfl, hv⟩ := NumWire.eq h
  have e := (C19_byteorder ce fa _ rfl).2.2.2.1 v
  have d := (C19_byteorder cd fa _ rfl).2.2.1
  rw [e.2, d.2, hs.effective]
  exact ⟨(Appends.scalar .f64 v _).writes, Reads.scalar .f64 _ v suf hv⟩

theorem Sends.bool : Sends decBool encBool boolRel := by
  rintro ce cd fa v _ suf - rfl
  refine ⟨(Appends.push _).writes, fun pre hp => ?_⟩
  rw [decBool, takeBool_apply _ (ok_of_size hp), mapM'_apply, Reads.u8 _ suf pre hp]
  cases v <;> rfl

theorem Sends.char : Sends decChar encChar charRel := by
  rintro ce cd fa v w suf - h
  match w, h with
  | [], h => cases h
  | x :: _ :: _, h => simp [charRel] at h
  | [x], h =>
    have h : x.toNat = v := by simpa [charRel] using h
    subst h
    refine ⟨?_, fun pre hp => ?_⟩
    · have := (Appends.push [UInt8.ofNat x.toNat]).writes
      rw [UInt8.ofNat_toNat] at this
      show Writes (push [UInt8.ofNat x.toNat]) [x]
      rw [UInt8.ofNat_toNat]
      exact this
    · rw [decChar, takeChar_apply _ (ok_of_size hp), mapM'_apply, Reads.u8 _ suf pre hp]

theorem Sends.bytes : Sends decBytes encBytes bytesRel := by
  rintro ce cd fa v _ suf hs ⟨hf, rfl⟩
  refine ⟨(encBytes_appends v ce fa ?_).writes, ?_⟩
  · intro k hk
    rw [hk] at hf
    exact hf.1
  · have := decBytes_reads v suf cd fa hf
    unfold bytesWire at this ⊢
    rwa [hs.effective] at this

theorem Sends.str : Sends decStr encBytes strRel := by
  rintro ce cd fa v w suf hs ⟨ht, h⟩
  obtain ⟨h1, h2⟩ := Sends.bytes ce cd fa v w suf hs h
  exact ⟨h1, fun pre hp => ((C28_text_decode cd fa _).1 _ _).mpr ⟨h2 pre hp, ht⟩⟩

theorem Sends.ipv4 : Sends decIpv4 encIp (octetsRel 4) := by
  rintro ce cd fa v _ suf hs ⟨hl, rfl⟩
  refine ⟨((C37_fixed_addresses ce fa v).1 hl).1.writes, ?_⟩
  rw [← hs.effective]
  exact ((C37_fixed_addresses cd fa v).1 hl).2 suf

theorem Sends.ipv6 : Sends decIpv6 encIp (octetsRel 16) := by
  rintro ce cd fa v _ suf hs ⟨hl, rfl⟩
  refine ⟨((C37_fixed_addresses ce fa v).2.1 hl).1.writes, ?_⟩
  rw [← hs.effective]
  exact ((C37_fixed_addresses cd fa v).2.1 hl).2 suf

theorem Sends.mac : Sends decMac encMac (octetsRel 6) := by
  rintro ce cd fa v _ suf hs ⟨hl, rfl⟩
  refine ⟨((C37_fixed_addresses ce fa v).2.2 hl).1.writes, ?_⟩
  rw [← hs.effective]
  exact ((C37_fixed_addresses cd fa v).2.2 hl).2 suf

theorem Sends.ip : Sends decIpAddr encIpAddr ipRel := by
  rintro ce cd fa v _ suf hs ⟨hv, hl, rfl⟩
  cases fa with
  | none => cases hl
  | some fr =>
    refine ⟨(C37_ip_addr ce fr v hv hl).1.writes, ?_⟩
    rw [← hs.effective]
    exact (C37_ip_addr cd fr v hv hl).2 suf

theorem Sends.net : Sends decNet encNet netRel := by
  rintro ce cd fa v w suf hs ⟨hb, n, hl, hw⟩
  cases fa with
  | none => cases hl
  | some fr =>
    refine ⟨(C37_net_addr ce fr n v w hl hb hw).1.writes, ?_⟩
    rw [← hs.effective] at hw
    exact (C37_net_addr cd fr n v w hl hb hw).2 suf

theorem Sends.unit : Sends decUnit encUnit unitRel := by
  rintro ce cd fa v _ suf - rfl
  exact ⟨Appends.pure0.writes, Reads.pure _ _⟩

/-! ## Sequences -/

variable {R : α → List Byte → List Byte → Prop}

theorem Images.writes {e : α → M Nat} {l : List α} {w suf : List Byte} (h : Images R l w suf)
    (he : ∀ a w s, R a w s → Writes (e a) w) : Writes (encAll e l) w := by
  induction h with
  | nil => exact Appends.pure0.writes
  | cons h _ ih => exact (he _ _ _ h).seq ih

theorem Images.runs {m : M α} {l : List α} {w suf : List Byte} (h : Images R l w suf)
    (hd : ∀ a w s, R a w s → Reads m a w s) : ∀ pre : List Byte, pre.length + w.length + suf.length ≤ isizeMax →
    Runs m ⟨pre ++ (w ++ suf), pre.length⟩ l ⟨pre ++ (w ++ suf), pre.length + w.length⟩ := by
  induction h with
  | nil => intro pre _; exact .nil _
  | @cons a l w1 w2 suf h _ ih =>
    intro pre hp
    simp only [List.length_append] at hp
    have e := hd _ _ _ h pre (by simp only [List.length_append]; omega)
    have r := ih (pre ++ w1) (by simp only [List.length_append]; omega)
    simp only [List.length_append, List.append_assoc] at r ⊢
    rw [← Nat.add_assoc]
    exact .cons e r

theorem Images.repeat {m : M α} {l : List α} {w suf : List Byte} (h : Images R l w suf)
    (hd : ∀ a w s, R a w s → Reads m a w s) : Reads (repeatM m l.length) l w suf :=
  fun pre hp => (repeatM_iff m _ _ _ _).mpr ⟨h.runs hd pre hp, rfl⟩

theorem Images.tryRepeat {m : M α} {l : List α} {w suf : List Byte} (h : Images R l w suf)
    (hd : ∀ a w s, R a w s → Reads m a w s) : Reads (tryRepeatM m l.length) l w suf :=
  fun pre hp => tryRepeatM_runs m _ _ _ _ (h.runs hd pre hp) rfl

theorem Images.while {m : M α} {p : List Byte} {l : List α} {w suf : List Byte}
    (h : Images (fun a w s => ∃ u, w = p ++ u ∧ R a u s) l w suf) (hd : ∀ a w s, R a w s → Reads m a w s) :
    ¬ p <+: suf → ∀ fuel, l.length < fuel → Reads (whileStarts p m fuel) l w suf := by
  induction h with
  | nil suf =>
    intro hs fuel hf
    exact Reads.whileStarts (img := fun _ => []) (l := ([] : List α)) (fun _ h => by cases h) suf hs fuel hf
  | @cons a l w1 w2 suf h _ ih =>
    intro hs fuel hf
    obtain ⟨u, rfl, h⟩ := h
    cases fuel with
    | zero => simp at hf
    | succ fuel =>
      have r := ih hs fuel (by simpa using hf)
      intro pre hp
      have e1 := takeBytesStarts_prefix p (u ++ w2 ++ suf) pre (by simp only [List.length_append] at hp ⊢; omega)
      have e2 := hd _ _ _ h (pre ++ p) (by simp only [List.length_append] at hp ⊢; omega)
      have e3 := r (pre ++ p ++ u) (by simp only [List.length_append] at hp ⊢; omega)
      simp only [List.append_assoc, List.length_append] at e1 e2 e3
      simp only [whileStarts, List.append_assoc, bind_apply, attempt_apply, e1, e2]
      simp only [Nat.add_assoc] at e3 ⊢
      simp only [e3, pure_apply, List.length_append]

theorem countWire_order {ce cd : Option CAttr} (h : SameOrder ce cd) (fa : Option FAttr) (n : Nat) :
    countWire cd fa n = countWire ce fa n := by
  unfold countWire
  rw [h.effective]

theorem counted_reads {R : WireRel α} {m : Option CAttr → Option FAttr → M α} {ce cd : Option CAttr} {fa : Option FAttr}
    {l : List α} {w suf : List Byte} (hs : SameOrder ce cd) (h : countedRel R ce cd fa l w suf)
    (hd : ∀ a w s, R ce cd fa a w s → Reads (m cd fa) a w s) : Reads (decCounted m cd fa) l w suf := by
  obtain ⟨hf, body, hi, rfl⟩ := h
  rw [decCounted_eq, ← countWire_order hs]
  refine Reads.bind (getCount_reads cd fa _ _ hf) ?_
  unfold countResult
  split
  · exact hi.tryRepeat hd
  · exact hi.repeat hd

theorem Sends.vec {d : Dec α} {e : Enc α} {R : WireRel α} (h : Sends d e R) (fuel : Nat) :
    Sends (decVec fuel d) (encVec e) (vecRel fuel R) := by
  intro ce cd fa l w suf hs hw
  unfold vecRel at hw
  cases hl : fa.bind (·.loopSkipStarts) with
  | none =>
    rw [hl] at hw
    rw [encVec_noloop e l ce fa hl, decVec_noloop fuel d cd fa hl]
    refine ⟨?_, counted_reads hs hw fun a w s h' => (h _ _ _ _ _ _ hs h').2⟩
    obtain ⟨hf, body, hi, rfl⟩ := hw
    exact (pushCount_appends ce fa _ hf.outside).writes.seq (hi.writes fun a w s h' => (h _ _ _ _ _ _ hs h').1)
  | some p =>
    rw [hl] at hw
    obtain ⟨hp, hf, hi⟩ := hw
    unfold encVec decVec
    simp only [hl]
    refine ⟨hi.writes ?_, hi.while (fun a w s h' => (h _ _ _ _ _ _ hs h').2) hp fuel hf⟩
    rintro a _ s ⟨u, rfl, h'⟩
    exact (Appends.push p).writes.seq (h _ _ _ _ _ _ hs h').1

theorem Sends.array {d : Dec α} {e : Enc α} {R : WireRel α} (h : Sends d e R) (n : Nat) :
    Sends (decArray n d) (encArray e) (arrayRel n R) := by
  rintro ce cd fa l w suf hs ⟨rfl, hw⟩
  exact ⟨hw.writes fun a w s h' => (h _ _ _ _ _ _ hs h').1, hw.repeat fun a w s h' => (h _ _ _ _ _ _ hs h').2⟩

theorem Sends.tuple (cs : List (Dec α × Enc α × WireRel α)) (h : ∀ c ∈ cs, Sends c.1 c.2.1 c.2.2) :
    Sends (decTuple (cs.map (·.1))) (encTuple (cs.map (·.2.1))) (tupleRel (cs.map (·.2.2))) := by
  intro ce cd fa l w suf hs hw
  unfold tupleRel at hw
  induction cs generalizing l w with
  | nil =>
    cases hw
    exact ⟨Appends.pure0.writes, Reads.pure _ _⟩
  | cons c cs ih =>
    simp only [List.map_cons] at hw ⊢
    cases hw with
    | cons h1 h2 =>
      obtain ⟨i1, i2⟩ := ih (fun c hc => h c (by simp [hc])) _ _ h2
      obtain ⟨j1, j2⟩ := h c (by simp) _ _ _ _ _ _ hs h1
      exact ⟨j1.seq i1, Reads.bind j2 (i2.map _)⟩

theorem Sends.option {d : Dec α} {e : Enc α} {R : WireRel α} (h : Sends d e R) (hungry : Bool)
    (hh : hungry = true → Hungry d) : Sends (decOption d) (encOption e) (optionRel hungry R) := by
  intro ce cd fa o w suf hs hw
  cases o with
  | some a =>
    obtain ⟨h0, hw⟩ := hw
    obtain ⟨h1, h2⟩ := h _ _ _ _ _ _ hs hw
    refine ⟨h1, fun pre hp => ?_⟩
    rw [decOption, if_neg h0, attempt_apply, h2 pre hp]
  | none =>
    obtain ⟨rfl, hw⟩ := hw
    obtain ⟨h1, h2⟩ := C55_none_partial e d cd fa suf
    refine ⟨Appends.pure0.writes, h2.mpr (hw.imp id ?_)⟩
    rintro ⟨hy, rfl⟩ pre hp
    simpa using hh hy cd fa pre (by simpa using hp)

theorem foldl_mapInsert_self [DecidableEq α] (l : List (α × β)) : ∀ m : List (α × β), ((m ++ l).map Prod.fst).Nodup →
    l.foldl mapInsert m = m ++ l := by
  induction l with
  | nil => intro m _; simp
  | cons x l ih =>
    intro m h
    have hx : x.1 ∉ m.map Prod.fst := by
      intro hm
      rw [List.map_append, List.nodup_append] at h
      exact h.2.2 _ hm _ (by simp) rfl
    rw [List.foldl_cons, mapInsert, if_neg hx, ih (m ++ [x]) (by simpa using h)]
    simp

theorem Sends.map [DecidableEq α] {dk : Dec α} {ek : Enc α} {Rk : WireRel α} {dv : Dec β} {ev : Enc β} {Rv : WireRel β}
    (hk : Sends dk ek Rk) (hv : Sends dv ev Rv) : Sends (decMap dk dv) (encMap ek ev) (mapRel Rk Rv) := by
  rintro ce cd fa l w suf hs ⟨hn, hw⟩
  constructor
  · obtain ⟨hf, body, hi, rfl⟩ := hw
    unfold encMap
    refine (pushCount_appends ce fa _ hf.outside).writes.seq (hi.writes ?_)
    rintro x _ s ⟨wk, wv, rfl, h1, h2⟩
    exact (hk _ _ _ _ _ _ hs h1).1.seq (hv _ _ _ _ _ _ hs h2).1
  · unfold decMap
    rw [decEntries_eq]
    have := (counted_reads (m := fun ca fa => decEntry dk dv ca fa) hs hw ?_).map (fun l => l.foldl mapInsert [])
    · rwa [foldl_mapInsert_self l [] (by simpa using hn), List.nil_append] at this
    · rintro x _ s ⟨wk, wv, rfl, h1, h2⟩
      exact Reads.bind (hk _ _ _ _ _ _ hs h1).2 ((hv _ _ _ _ _ _ hs h2).2.map fun v => (x.1, v))

theorem Sends.inject {d : Dec α} {e : Enc α} {R : WireRel α} (f : α → β) (g : β → Option α) (hg : ∀ a, g (f a) = some a)
    (h : Sends d e R) : Sends (fun ca fa => do
      let a ← d ca fa
      return f a) (fun v ca fa => encOption e (g v) ca fa) (injectRel f R) := by
  rintro ce cd fa v w suf hs ⟨a, rfl, hw⟩
  obtain ⟨h1, h2⟩ := h _ _ _ _ _ _ hs hw
  refine ⟨?_, h2.map f⟩
  simp only [hg]
  exact h1

/-! ## Structs and enums -/

theorem sameOrder_cache {ce cd : Option CAttr} (h : SameOrder ce cd) (a : FieldAttrs V) (env : Env V) :
    SameOrder ce (cacheVars a cd env) := by
  unfold cacheVars SameOrder at *
  cases a.variableName with
  | none => exact h
  | some l =>
    rw [← h]
    cases cd <;> rfl

theorem sameOrder_after {ce : Option CAttr} (fs : List (Field V)) : ∀ (cd : Option CAttr) (env : Env V) (vs : List V),
    SameOrder ce cd → SameOrder ce (cachedAfter fs cd env vs) := by
  induction fs with
  | nil => intro cd env vs h; exact h
  | cons f fs ih =>
    intro cd env vs h
    cases vs with
    | nil => exact h
    | cons v vs => exact ih _ _ _ (sameOrder_cache h _ _)

/-- The members determine the word. -/
theorem GroupWord.unique {ms : List BitMember} {a b : Nat} (ha : GroupWord ms a) (hb : GroupWord ms b) : a = b := by
  apply Nat.eq_of_testBit_eq
  intro i
  by_cases h : ∃ x ∈ ms, x.mask.testBit i = true
  · obtain ⟨x, hx, ht⟩ := h
    have e : (a &&& x.mask).testBit i = (b &&& x.mask).testBit i := by rw [ha.1 x hx, hb.1 x hx]
    simpa [Nat.testBit_and, ht] using e
  · have hz : ∀ x ∈ ms, 2 ^ i &&& x.mask = 0 := by
      intro x hx
      apply Nat.eq_of_testBit_eq
      intro j
      rw [Nat.testBit_and, Nat.testBit_two_pow, Nat.zero_testBit]
      by_cases hj : i = j
      · subst hj
        have : x.mask.testBit i = false := by
          cases ht : x.mask.testBit i with
          | false => rfl
          | true => exact absurd ⟨x, hx, ht⟩ h
        simp [this]
      · simp [hj]
    have e : (a &&& 2 ^ i).testBit i = (b &&& 2 ^ i).testBit i := by rw [ha.2 _ hz, hb.2 _ hz]
    simpa [Nat.testBit_and, Nat.testBit_two_pow] using e

theorem FieldsWire.segments {ce : Option CAttr} {fs : List (Field V × WireRel V)} {cd : Option CAttr}
    {ee ed : Env V} {vs : List V} {w suf : List Byte} (h : FieldsWire ce fs cd ee ed vs w suf)
    (hf : ∀ x ∈ fs, Sends x.1.dec x.1.enc x.2)
    (hn : ∀ x ∈ fs, x.1.attrs.ifExpr ≠ none → ∀ ca fa, Writes (x.1.enc x.1.noneV ca fa) []) (hs : SameOrder ce cd) :
    Segments ce (fs.map Prod.fst) cd ee ed vs w suf := by
  induction h with
  | nil cd ee ed suf => exact .nil _ _ _ _
  | @plain f R fs cd ee ed v vs w1 w2 suf hord hu ha hi hr hv hc _ ih =>
    refine Segments.cons (fs := [f]) (vs := [v]) (C43_field_segment ?_)
      (ih (fun f h => hf f (by simp [h])) (fun f h => hn f (by simp [h])) (sameOrder_after _ _ _ _ hs))
    obtain ⟨x1, x2⟩ := hf (f, R) (by simp) _ _ _ _ _ _ hs hr
    refine C43_field_plain f _ _ _ _ _ _ _ hord hu ha.order ha.order' ha.gap x1 (fun _ => ?_) ?_ hv hc
    · rw [ha.own]
      exact x2
    · intro c h1 h2
      rw [hi c h1] at h2
      cases h2
  | @absent f R fs cd ee ed v vs w2 suf c hord hu ha hi hce hsv hv hc _ ih =>
    refine Segments.cons (fs := [f]) (vs := [v]) (C43_field_segment ?_)
      (ih (fun f h => hf f (by simp [h])) (fun f h => hn f (by simp [h])) (sameOrder_after _ _ _ _ hs))
    have := C43_field_plain f ce cd ee ed v [] (w2 ++ suf) hord hu ha.order ha.order' ha.gap
      (by rw [hsv]; exact hn (f, R) (by simp) (by simp [hi]) _ _)
      (fun h => by have := h c hi; rw [hce] at this; cases this)
      (fun _ _ _ => ⟨hsv, rfl⟩) (by rw [hsv]; exact hv) hc
    rwa [List.append_nil] at this
  | @skip f R fs cd ee ed vs w2 suf ha h1 h2 h3 h4 _ ih =>
    exact Segments.cons (fs := [f]) (vs := [f.dflt]) (w1 := [])
      (C43_field_segment (C43_field_skip f _ _ _ _ _ ha.order ha.order' h1 h2 h3 h4))
      (ih (fun f h => hf f (by simp [h])) (fun f h => hn f (by simp [h])) (sameOrder_after _ _ _ _ hs))
  | @peek f R fs cd ee ed v x vs u r w2 suf hord hu hb hoff hi ha hw hr hv hc _ ih =>
    refine Segments.cons (fs := [f]) (vs := [v]) (w1 := []) (C43_field_segment ?_)
      (ih (fun f h => hf f (by simp [h])) (fun f h => hn f (by simp [h])) (sameOrder_after _ _ _ _ hs))
    refine C43_field_untake f _ _ _ _ _ _ hord ha.order ha.order' hu hb hoff hi (fun pre hp => ?_) hc
    rw [hw] at hp ⊢
    rw [ha.own]
    exact ⟨x, _, (hf (f, R) (by simp) _ _ _ _ _ _ hs hr).2 pre (by rw [List.length_append] at hp; omega), hv⟩
  | @custom f R fs cd ee ed v vs w1 w2 suf de en ha hoff hd he h1 h2 _ ih =>
    exact Segments.cons (fs := [f]) (vs := [v])
      (C43_field_segment (C43_field_with f _ _ _ _ _ _ _ ha.order ha.order' hoff de en hd he h1 (by rw [ha.own]; exact h2)))
      (ih (fun f h => hf f (by simp [h])) (fun f h => hn f (by simp [h])) (sameOrder_after _ _ _ _ hs))
  | @text f R fs cd ee ed v vs w1 w2 suf parse print t ha ht hu hb hoff hpr hpa hr _ ih =>
    obtain ⟨-, hfit, rfl⟩ := hr
    exact Segments.cons (fs := [f]) (vs := [v])
      (C43_field_segment (C74_roundtrip_partial ht hu hb hoff _ _ _ _ ha.order ha.order' ha.own (hs.effective _) _ t _ hpr hpa hfit))
      (ih (fun f h => hf f (by simp [h])) (fun f h => hn f (by simp [h])) (sameOrder_after _ _ _ _ hs))
  | @group fs gs cd ee ed xs us w1 w2 suf inj k o m ms word hk h8 hu g1 g2 hg hfit hst hre hd hgw hnw _ ih =>
    obtain ⟨x, hx, y1, y2, hseg⟩ := C43_group_segment inj k hk h8 hu ce cd o ee ed _ m ms xs g1 g2 hg hfit hst hre hd (w2 ++ suf)
    obtain ⟨rfl, -⟩ := hnw.eq
    rw [GroupWord.unique hgw ⟨y1, y2⟩, List.map_append]
    exact Segments.cons hseg
      (ih (fun f h => hf f (by simp [h])) (fun f h => hn f (by simp [h])) (sameOrder_after _ _ _ _ hs))

theorem Sends.struct (S : StructDef V) (fs : List (Field V × WireRel V)) (hfs : S.fields = fs.map Prod.fst)
    (hwd : S.withDecode = none) (hwe : S.withEncode = none)
    (ht : S.tuple = true → ∀ f ∈ S.fields, f.attrs.isUse = true)
    (hn : ∀ x ∈ fs, x.1.attrs.ifExpr ≠ none → ∀ ca fa, Writes (x.1.enc x.1.noneV ca fa) [])
    (hf : ∀ x ∈ fs, Sends x.1.dec x.1.enc x.2) : Sends (decStruct S) (encStruct S) (structRel S fs) := by
  intro ce cd fa vs w suf _ hw
  exact C43_struct_roundtrip S hwd hwe ht ce cd fa fa vs w suf (by rw [hfs]; exact hw.segments hf hn rfl)

theorem Sends.enum (E : EnumDef V) (fs : Nat → List (Field V × WireRel V))
    (hfs : ∀ i v, E.variants[i]? = some v → v.fields = (fs i).map Prod.fst) (hw : E.withDecode = none)
    (hn : ∀ i, ∀ x ∈ fs i, x.1.attrs.ifExpr ≠ none → ∀ ca fa, Writes (x.1.enc x.1.noneV ca fa) [])
    (hf : ∀ i, ∀ x ∈ fs i, Sends x.1.dec x.1.enc x.2) : Sends (decEnum E) (encEnum E) (enumRel E fs) := by
  rintro ce cd fa ⟨i, vs⟩ _ suf hs ⟨v, num, tw, _, hv, rfl, ⟨ha, hl, u, rfl, hfw⟩, hm⟩
  have hb : BodyRT E v { vars := localVars E.getVars ce } { vars := localVars E.getVars cd } vs u suf :=
    ⟨ha.order, ha.order', hl, by rw [ha.own]; exact hl, ha.gap, by
      rw [hfs i v hv.1]; exact hfw.segments (hf i) (hn i) rfl⟩
  cases hmode : E.mode with
  | startsWith untake =>
    rw [hmode] at hm
    obtain ⟨rfl, hd, hsel⟩ := hm
    obtain ⟨_, rfl, r⟩ := C45_words_roundtrip_partial E hw ce cd fa i v num vs u suf untake hmode hv hd hsel hb
    exact r
  | _ =>
    rw [hmode] at hm
    obtain ⟨t, ht, hsel⟩ := hm
    obtain ⟨_, rfl, r⟩ := C45_enum_roundtrip_partial E hw ce cd fa i v num t vs tw u suf (by rw [hmode]; intro u h; cases h)
      hv ht hsel (hs.effective fa) hb
    exact r

/-! ## C70 -/

/-- C70: for every type - integers, floats, strings, addresses, lists, arrays, tuples, options, maps, derived structs and
enums, nested without bound - a value that has an image in the format of its type is encoded as exactly that image, and
decoding the image, whatever precedes it and with the bytes `suf` of the format after it, gives the value back and
consumes exactly the image. -/
theorem C70_format {d : Dec α} {e : Enc α} {R : WireRel α} (h : Format α d e R) : ∀ (ce cd : Option CAttr)
    (fa : Option FAttr) (v : α) (w suf : List Byte), SameOrder ce cd → R ce cd fa v w suf →
    Writes (e v ce fa) w ∧ Reads (d cd fa) v w suf := by
  have key : Sends d e R := by
    induction h with
    | stop => intro _ _ _ _ _ _ _ h; cases h
    | int k hk => exact .int k hk
    | f32 => exact .f32
    | f64 => exact .f64
    | bool => exact .bool
    | char => exact .char
    | bytes => exact .bytes
    | str => exact .str
    | ipv4 => exact .ipv4
    | ipv6 => exact .ipv6
    | mac => exact .mac
    | ip => exact .ip
    | net => exact .net
    | unit => exact .unit
    | vec fuel _ ih => exact ih.vec fuel
    | array n _ ih => exact ih.array n
    | tuple cs _ ih => exact .tuple cs ih
    | option hungry hh _ ih => exact ih.option hungry hh
    | map _ _ ihk ihv => exact ihk.map ihv
    | inject f g hg _ ih => exact .inject f g hg ih
    | struct S fs h0 h1 h2 h3 h4 _ ih => exact .struct S fs h0 h1 h2 h3 h4 ih
    | enum E fs h0 h1 h2 _ ih => exact .enum E fs h0 h1 h2 ih
  exact key

/-- C70 at the functions of the crate: `encode` returns the image of the value, `decode` the value of the image. -/
theorem C70_top {d : Dec α} {e : Enc α} {R : WireRel α} (h : Format α d e R) (v : α) (w suf : List Byte)
    (hw : R none none none v w suf) (hs : w.length + suf.length ≤ isizeMax) :
    ∃ b, encodeTop e v = .ok b ∧ b.data = w ∧ decodeTop d (w ++ suf) = .ok v := by
  obtain ⟨h1, h2⟩ := C70_format h none none none v w suf rfl hw
  obtain ⟨b, x1, x2, x3, -⟩ := C53_top_roundtrip e d v w suf h1 h2 hs
  exact ⟨b, x1, x2, by rw [← x2]; exact x3⟩

/-- C70: a format gives a value one image, whatever follows it. -/
theorem C70_one_image {d : Dec α} {e : Enc α} {R : WireRel α} (h : Format α d e R) (ce cd cd' : Option CAttr)
    (fa : Option FAttr) (v : α) (w w' suf suf' : List Byte) (hs : SameOrder ce cd) (hs' : SameOrder ce cd')
    (hw : R ce cd fa v w suf) (hw' : R ce cd' fa v w' suf') (hl : w.length ≤ isizeMax) (hl' : w'.length ≤ isizeMax) :
    w = w' := by
  obtain ⟨n, e1⟩ := (C70_format h ce cd fa v w suf hs hw).1 [] (by simpa using hl)
  obtain ⟨m, e2⟩ := (C70_format h ce cd' fa v w' suf' hs' hw').1 [] (by simpa using hl')
  rw [e1] at e2
  simp only [List.nil_append, Prod.mk.injEq, Buf.mk.injEq] at e2
  exact e2.2.1

/-- C70: a format is not ambiguous: no bytes begin with the images of two values. -/
theorem C70_one_value {d : Dec α} {e : Enc α} {R : WireRel α} (h : Format α d e R) (ce ce' cd : Option CAttr)
    (fa : Option FAttr) (v v' : α) (w w' suf suf' : List Byte) (hs : SameOrder ce cd) (hs' : SameOrder ce' cd)
    (hw : R ce cd fa v w suf) (hw' : R ce' cd fa v' w' suf') (he : w ++ suf = w' ++ suf')
    (hl : (w ++ suf).length ≤ isizeMax) : v = v' ∧ w = w' ∧ suf = suf' := by
  have e1 := (C70_format h ce cd fa v w suf hs hw).2 [] (by simpa using hl)
  have e2 := (C70_format h ce' cd fa v' w' suf' hs' hw').2 [] (by rw [he] at hl; simpa using hl)
  simp only [List.nil_append, List.length_nil, Nat.zero_add] at e1 e2
  rw [← he, e1] at e2
  simp only [Prod.mk.injEq, Out.ok.injEq, Buf.mk.injEq, true_and] at e2
  exact ⟨e2.1, List.append_inj he e2.2⟩

/-- The formats of a recursive family of types, for values nested at most `k` deep. -/
def wireRec {ι : Type} {T : ι → Type} (K : ((i : ι) → WireRel (T i)) → (i : ι) → WireRel (T i)) : Nat → (i : ι) → WireRel (T i)
  | 0 => fun _ _ _ _ _ _ _ => False
  | k + 1 => K (wireRec K k)

/-- C70 for recursive types: if the bodies turn formats into formats, then values nested at most `depth` deep are
written as their image and read back, with a stack that deep. -/
theorem C70_recursive {ι : Type} {T : ι → Type} {F : ((i : ι) → Nat → Dec (T i)) → (i : ι) → Nat → Dec (T i)}
    {G : ((i : ι) → Enc (T i)) → (i : ι) → Enc (T i)} {K : ((i : ι) → WireRel (T i)) → (i : ι) → WireRel (T i)} (fuel : Nat)
    (hF : ∀ d e R, (∀ i, Format (T i) (d i fuel) (e i) (R i)) → ∀ i, Format (T i) (F d i fuel) (G e i) (K R i))
    (depth : Nat) (i : ι) (ce cd : Option CAttr) (fa : Option FAttr) (v : T i) (w suf : List Byte) (hs : SameOrder ce cd)
    (hw : wireRec K depth i ce cd fa v w suf) :
    Writes (encRec G depth i v ce fa) w ∧ Reads (decRec F depth i fuel cd fa) v w suf := by
  have key : ∀ depth i, Format (T i) (decRec F depth i fuel) (encRec G depth i) (wireRec K depth i) := by
    intro depth
    induction depth with
    | zero => intro i; exact .stop
    | succ k ih => exact hF _ _ _ ih
  exact C70_format (key depth i) ce cd fa v w suf hs hw

/-! ## A letter -/

inductive MVal where
  | num (n : Nat)
  | text (l : List Byte)
  | items (l : List (List MVal))
  | extra (o : Option Bool)

/-- A field of type `u8` or `u16`. -/
def numField (k : IntKind) (a : FieldAttrs MVal) : Field MVal := ⟨a, fun ca fa => do
    let x ← decInt k ca fa
    return .num x,
  fun v ca fa => encOption (encInt k) (match v with | .num n => some n | _ => none) ca fa, .num 0, .num 0⟩

/-- A field of type `String`. -/
def textField (a : FieldAttrs MVal) : Field MVal := ⟨a, fun ca fa => do
    let x ← decStr ca fa
    return .text x,
  fun v ca fa => encOption encBytes (match v with | .text l => some l | _ => none) ca fa, .text [], .text []⟩

/-- `struct Item { #[byteorder = "LE"] id: u16, name: String }` -/
def item : StructDef MVal :=
  { fields := [numField ⟨2, false⟩ { isUse := true, byteorder := some (.lit .le) }, textField {}] }

/-- A field of type `Vec<Item>`. -/
def itemsField (a : FieldAttrs MVal) : Field MVal := ⟨a, fun ca fa => do
    let x ← decVec 1 (decStruct item) ca fa
    return .items x,
  fun v ca fa => encOption (encVec (encStruct item)) (match v with | .items l => some l | _ => none) ca fa, .items [], .items []⟩

/-- A field of type `Option<bool>`. -/
def extraField (a : FieldAttrs MVal) : Field MVal := ⟨a, fun ca fa => do
    let x ← decOption decBool ca fa
    return .extra x,
  fun v ca fa => encOption (encOption encBool) (match v with | .extra o => some o | _ => none) ca fa, .extra none, .extra none⟩

/-- `struct Letter { n: u8, #[count = "n"] items: Vec<Item>, #[if_expr = "n > 3"] extra: Option<bool>, #[offset = 1] end: u8 }` -/
def letter : StructDef MVal :=
  { fields := [numField ⟨1, false⟩ {},
      itemsField { isUse := true, count := some fun env => match env.fields with | .num n :: _ => n | _ => 0 },
      extraField { isUse := true, ifExpr := some fun env => match env.fields with | .num n :: _ => decide (3 < n) | _ => false },
      numField ⟨1, false⟩ { isUse := true, offset := some fun _ => 1 }] }

def itemWire : List (Field MVal × WireRel MVal) :=
  [(numField ⟨2, false⟩ { isUse := true, byteorder := some (.lit .le) }, injectRel .num (intRel ⟨2, false⟩)),
   (textField {}, injectRel .text strRel)]

def letterWire : List (Field MVal × WireRel MVal) :=
  [(numField ⟨1, false⟩ {}, injectRel .num (intRel ⟨1, false⟩)),
   (itemsField { isUse := true, count := some fun env => match env.fields with | .num n :: _ => n | _ => 0 },
     injectRel .items (vecRel 1 (structRel item itemWire))),
   (extraField { isUse := true, ifExpr := some fun env => match env.fields with | .num n :: _ => decide (3 < n) | _ => false },
     injectRel .extra (optionRel false boolRel)),
   (numField ⟨1, false⟩ { isUse := true, offset := some fun _ => 1 }, injectRel .num (intRel ⟨1, false⟩))]

theorem numField_format (k : IntKind) (hk : k.Valid) (a : FieldAttrs MVal) :
    Format MVal (numField k a).dec (numField k a).enc (injectRel .num (intRel k)) :=
  .inject MVal.num (fun v => match v with | .num n => some n | _ => none) (fun _ => rfl) (.int k hk)

theorem item_format : Format (List MVal) (decStruct item) (encStruct item) (structRel item itemWire) := by
  refine .struct item itemWire rfl rfl rfl (by intro h; cases h) ?_ ?_
  · intro x hx
    simp only [itemWire, List.mem_cons, List.not_mem_nil, or_false] at hx
    rcases hx with rfl | rfl <;> intro h <;> exact absurd rfl h
  · intro x hx
    simp only [itemWire, List.mem_cons, List.not_mem_nil, or_false] at hx
    rcases hx with rfl | rfl
    · exact numField_format _ (.mk _ _ (by decide)) _
    · exact .inject MVal.text (fun v => match v with | .text n => some n | _ => none) (fun _ => rfl) .str

theorem letter_format : Format (List MVal) (decStruct letter) (encStruct letter) (structRel letter letterWire) := by
  refine .struct letter letterWire rfl rfl rfl (by intro h; cases h) ?_ ?_
  · intro x hx
    simp only [letterWire, List.mem_cons, List.not_mem_nil, or_false] at hx
    rcases hx with rfl | rfl | rfl | rfl <;> intro h
    · exact absurd rfl h
    · exact absurd rfl h
    · intro ca fa
      exact Appends.pure0.writes
    · exact absurd rfl h
  · intro x hx
    simp only [letterWire, List.mem_cons, List.not_mem_nil, or_false] at hx
    rcases hx with rfl | rfl | rfl | rfl
    · exact numField_format _ (.mk _ _ (by decide)) _
    · exact .inject MVal.items (fun v => match v with | .items n => some n | _ => none) (fun _ => rfl) (.vec 1 item_format)
    · exact .inject MVal.extra (fun v => match v with | .extra n => some n | _ => none) (fun _ => rfl)
        (.option false (by intro h; cases h) .bool)
    · exact numField_format _ (.mk _ _ (by decide)) _

theorem agree_same {a : FieldAttrs V} {env : Env V} (h : OrderOk a env) : Agree a env env := ⟨h, h, rfl, rfl⟩

theorem byte_image (o : ByteOrder) {n : Nat} (h : n < 256) : NumWire o 1 n [UInt8.ofNat n] := by
  refine ⟨rfl, by simpa using h, fun i hlt => ?_⟩
  have hi : i = 0 := by simpa using hlt
  subst hi
  cases o <;> simp

theorem le_image {n : Nat} (h : n < 65536) : NumWire .le 2 n [UInt8.ofNat n, UInt8.ofNat (n / 256)] := by
  refine ⟨rfl, by simpa using h, fun i hlt => ?_⟩
  have hi : i = 0 ∨ i = 1 := by simp at hlt; omega
  rcases hi with rfl | rfl <;> simp

/-- The image of an item: the number, the length of the name, the name. -/
theorem item_image (id : Nat) (hi : id < 65536) (name : List Char) (hn : (utf8Of name).length < 256) (ca : Option CAttr)
    (fa : Option FAttr) (suf : List Byte) : structRel item itemWire ca ca fa [.num id, .text (utf8Of name)]
      (UInt8.ofNat id :: UInt8.ofNat (id / 256) :: UInt8.ofNat (utf8Of name).length :: utf8Of name) suf := by
  have h2 : FieldsWire none [(textField {}, injectRel .text strRel)] none
      ⟨localVars [] ca, [.num id]⟩ ⟨localVars [] ca, [.num id]⟩ [.text (utf8Of name)]
      (([] ++ (UInt8.ofNat (utf8Of name).length :: utf8Of name)) ++ []) suf :=
    .plain ⟨rfl, rfl, rfl, rfl, rfl, rfl⟩ rfl (agree_same (by intro e h; cases h)) (by intro c h; cases h)
      ⟨_, rfl, ⟨name, rfl⟩, hn, rfl⟩ rfl (by intro c h; cases h) (.nil _ _ _ _)
  have h1 : FieldsWire none itemWire none ⟨localVars [] ca, []⟩ ⟨localVars [] ca, []⟩ [.num id, .text (utf8Of name)]
      (([] ++ [UInt8.ofNat id, UInt8.ofNat (id / 256)]) ++ (([] ++ (UInt8.ofNat (utf8Of name).length :: utf8Of name)) ++ [])) suf := by
    refine .plain ⟨rfl, rfl, rfl, rfl, rfl, rfl⟩ rfl (agree_same (by intro e h; cases h)) (by intro c h; cases h)
      ⟨_, rfl, rfl, le_image hi⟩ rfl (by intro c h; cases h) h2
  simp only [List.nil_append, List.append_nil] at h1
  exact h1

/-- The image of some items. -/
def itemsImage (l : List (Nat × List Char)) : List Byte := l.flatMap fun x =>
  UInt8.ofNat x.1 :: UInt8.ofNat (x.1 / 256) :: UInt8.ofNat (utf8Of x.2).length :: utf8Of x.2

/-- Every letter whose numbers and names are in range is sent as the number of items, the items, the flag if there are
more than three of them, a filler byte and the last number; and it is received as it was sent, whatever follows. -/
example (l : List (Nat × List Char)) (hl : l.length < 256) (hr : ∀ x ∈ l, x.1 < 65536 ∧ (utf8Of x.2).length < 256)
    (flag : Bool) (n : Nat) (hn : n < 256) (suf : List Byte) (hs : (itemsImage l).length + suf.length + 4 ≤ isizeMax) :
    let v := [MVal.num l.length, .items (l.map fun x => [.num x.1, .text (utf8Of x.2)]),
      .extra (if 3 < l.length then some flag else none), .num n]
    let w := UInt8.ofNat l.length :: itemsImage l ++ ((if 3 < l.length then [if flag then 1 else 0] else []) ++ [0, UInt8.ofNat n])
    ∃ b, encodeTop (encStruct letter) v = .ok b ∧ b.data = w ∧ decodeTop (decStruct letter) (w ++ suf) = .ok v := by
  intro v w
  refine C70_top letter_format v w suf ?_ (by
    simp only [w, List.length_append, List.length_cons, List.length_nil]
    split <;> simp <;> omega)
  have h4 : ∀ fs, FieldsWire none [letterWire[3]] none ⟨localVars [] none, fs⟩ ⟨localVars [] none, fs⟩ [.num n]
      ((List.replicate 1 0 ++ [UInt8.ofNat n]) ++ []) suf := fun fs =>
    .plain ⟨rfl, rfl, rfl, rfl, rfl, rfl⟩ rfl (agree_same (by intro e h; cases h)) (by intro c h; cases h)
      ⟨_, rfl, rfl, byte_image _ hn⟩ rfl (by intro c h; cases h) (.nil _ _ _ _)
  have h3 : FieldsWire none [letterWire[2], letterWire[3]] none
      ⟨localVars [] none, [.num l.length, .items (l.map fun x => [.num x.1, .text (utf8Of x.2)])]⟩
      ⟨localVars [] none, [.num l.length, .items (l.map fun x => [.num x.1, .text (utf8Of x.2)])]⟩
      [.extra (if 3 < l.length then some flag else none), .num n]
      ((if 3 < l.length then [if flag then 1 else 0] else []) ++ [0, UInt8.ofNat n]) suf := by
    by_cases h : 3 < l.length
    · simp only [if_pos h]
      exact .plain (w1 := [if flag then 1 else 0]) ⟨rfl, rfl, rfl, rfl, rfl, rfl⟩ rfl (agree_same (by intro e h; cases h))
        (by intro c hc; cases hc; simpa using h) ⟨_, rfl, And.intro (fun h => by cases h) rfl⟩ rfl (by intro c h; cases h) (h4 _)
    · simp only [if_neg h]
      exact .absent ⟨rfl, rfl, rfl, rfl, rfl, rfl⟩ rfl (agree_same (by intro e h; cases h)) rfl (by simpa using h) rfl rfl
        (by intro c h; cases h) (h4 _)
  have h2 : FieldsWire none [letterWire[1], letterWire[2], letterWire[3]] none ⟨localVars [] none, [.num l.length]⟩
      ⟨localVars [] none, [.num l.length]⟩ v.tail (([] ++ itemsImage l) ++
        ((if 3 < l.length then [if flag then 1 else 0] else []) ++ [0, UInt8.ofNat n])) suf := by
    refine .plain ⟨rfl, rfl, rfl, rfl, rfl, rfl⟩ rfl (agree_same (by intro e h; cases h)) (by intro c h; cases h)
      ⟨_, rfl, ?_⟩ rfl (by intro c h; cases h) h3
    refine ⟨?_, itemsImage l, ?_, ?_⟩
    · show CountFits (some { count := some l.length }) (l.map _).length
      simp [CountFits, statedCount, outsideWidth]
    · generalize ((if 3 < l.length then [if flag then (1 : Byte) else 0] else []) ++ [0, UInt8.ofNat n]) ++ suf = rest
      clear h3 h4 hs hl
      generalize ownModifiers _ _ = fa
      induction l with
      | nil => exact .nil _
      | cons x l ih =>
        exact .cons (item_image x.1 (hr x (by simp)).1 x.2 (hr x (by simp)).2 none fa _)
          (ih (fun x hx => hr x (by simp [hx])))
    · rfl
  have h1 : FieldsWire none letterWire none ⟨localVars [] none, []⟩ ⟨localVars [] none, []⟩ v
      (([] ++ [UInt8.ofNat l.length]) ++ (([] ++ itemsImage l) ++
        ((if 3 < l.length then [if flag then 1 else 0] else []) ++ [0, UInt8.ofNat n]))) suf :=
    .plain ⟨rfl, rfl, rfl, rfl, rfl, rfl⟩ rfl (agree_same (by intro e h; cases h)) (by intro c h; cases h)
      ⟨_, rfl, rfl, byte_image _ hl⟩ rfl (by intro c h; cases h) h2
  exact h1

end JBytes
