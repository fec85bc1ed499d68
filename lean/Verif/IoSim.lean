import Verif.IoCodecs
import Verif.DeriveLemmas
import Verif.Storable
/-!
# Two implementations that do the same make every codec do the same

`Io.Lawful` says what an implementation of the buffer traits has to do, method by method, in comparison with `Bytes` and
`Buffer`; `Twin` and `EncTwin` are the type definitions, each with its decoder or encoder at both.  (Helper for C89 and
C93.)
-/

namespace JBytes

/-- How an implementation is compared with `Bytes` and `Buffer`. -/
structure Cmp (σ : Type) where
  /-- Its states, each with the buffer it stands for. -/
  R : σ → Buf → Prop
  /-- It may panic where `Bytes` and `Buffer` do not. -/
  P : Prop
  /-- The positions it can be at. -/
  Q : Nat → Prop
  /-- The widths of lengths, counts and tags it can cast to its `usize`. -/
  W : Nat → Prop
  /-- It may be moved past the end (`offset`). -/
  free : Prop
  /-- It may be moved back over the word before (`bits`). -/
  back : Prop

variable {σ α β V : Type} {T : Cmp σ}

/-- From the states `s` and `b`, `m'` panics or does what `m` does. -/
def SimAt (T : Cmp σ) (s : σ) (b : Buf) (m' : MS σ α) (m : M α) : Prop :=
  (T.P ∧ (m' s).1 = .panic) ∨ ((m' s).1 = (m b).1 ∧ T.R (m' s).2 (m b).2)

/-- From states that stand for one another, likewise. -/
def Simul (T : Cmp σ) (m' : MS σ α) (m : M α) : Prop := ∀ s b, T.R s b → SimAt T s b m' m

theorem MS.bind_apply (m : MS σ α) (f : α → MS σ β) (s : σ) : (m >>= f) s = match m s with
    | (.ok a, s') => f a s'
    | (.err e, s') => (.err e, s')
    | (.panic, s') => (.panic, s')
    | (.timeout, s') => (.timeout, s') := rfl

theorem SimAt.bind {s : σ} {b : Buf} {m' : MS σ α} {m : M α} {f' : α → MS σ β} {f : α → M β}
    (hm : SimAt T s b m' m) (hf : ∀ a s' b', m b = (.ok a, b') → T.R s' b' → SimAt T s' b' (f' a) (f a)) :
    SimAt T s b (m' >>= f') (m >>= f) := by
  rcases hm with ⟨hP, hp⟩ | ⟨h1, h2⟩
  · refine .inl ⟨hP, ?_⟩
    rcases hx : m' s with ⟨o, s'⟩
    rw [hx] at hp
    subst hp
    rw [MS.bind_apply, hx]
  · rcases hx : m' s with ⟨o, s'⟩
    rcases hy : m b with ⟨o', b'⟩
    rw [hx, hy] at h1 h2
    simp only at h1 h2
    subst h1
    unfold SimAt
    rw [MS.bind_apply, JBytes.bind_apply, hx, hy]
    cases o with
    | ok a => exact hf a s' b' hy h2
    | err e => exact .inr ⟨rfl, h2⟩
    | panic => exact .inr ⟨rfl, h2⟩
    | timeout => exact .inr ⟨rfl, h2⟩

theorem Simul.bind {m' : MS σ α} {m : M α} {f' : α → MS σ β} {f : α → M β} (hm : Simul T m' m)
    (hf : ∀ a, Simul T (f' a) (f a)) : Simul T (m' >>= f') (m >>= f) :=
  fun s b h => (hm s b h).bind fun a s' b' _ h' => hf a s' b' h'

theorem Simul.pure (a : α) : Simul T (Pure.pure a : MS σ α) (Pure.pure a : M α) := fun _ _ h => .inr ⟨rfl, h⟩
theorem Simul.panic : Simul T (MS.panic : MS σ α) (M.panic : M α) := fun _ _ h => .inr ⟨rfl, h⟩
theorem Simul.timeout : Simul T (MS.timeout : MS σ α) (M.timeout : M α) := fun _ _ h => .inr ⟨rfl, h⟩

theorem Simul.attempt {m' : MS σ α} {m : M α} (h : Simul T m' m) : Simul T (MS.attempt m') (M.attempt m) := by
  intro s b hr
  rcases h s b hr with ⟨hP, hp⟩ | ⟨h1, h2⟩
  · refine .inl ⟨hP, ?_⟩
    rcases hx : m' s with ⟨o, s'⟩
    rw [hx] at hp
    simp only at hp
    subst hp
    unfold MS.attempt
    rw [hx]
  · rcases hx : m' s with ⟨o, s'⟩
    rcases hy : m b with ⟨o', b'⟩
    rw [hx, hy] at h1 h2
    simp only at h1 h2
    subst h1
    unfold SimAt MS.attempt M.attempt
    rw [hx, hy]
    cases o <;> exact .inr ⟨rfl, h2⟩

/-- `get_position` gives the position. -/
def Io.Posed (I : Io σ) (T : Cmp σ) : Prop := ∀ s b, T.R s b → ∃ s', I.pos s = (.ok b.pos, s') ∧ T.R s' b ∧ T.Q b.pos

theorem Io.Posed.bindPos {I : Io σ} (hI : I.Posed T) {f' : Nat → MS σ α} {f : Nat → M α}
    (hf : ∀ p, T.Q p → Simul T (f' p) (f p)) : Simul T (I.pos >>= f') (M.getPos >>= f) := by
  intro s b h
  obtain ⟨s', e, h', hq⟩ := hI s b h
  unfold SimAt
  rw [MS.bind_apply, JBytes.bind_apply, getPos_apply, e]
  exact hf _ hq s' b h'

theorem Io.Posed.fail {I : Io σ} (hI : I.Posed T) (c : ErrCode) : Simul T (I.fail c : MS σ α) (M.fail c : M α) := by
  intro s b h
  obtain ⟨s', e, h', _⟩ := hI s b h
  unfold SimAt Io.fail
  rw [MS.bind_apply, e]
  exact .inr ⟨rfl, h'⟩

/-- What the methods of a reader have to do. -/
structure Io.Lawful (I : Io σ) (T : Cmp σ) : Prop where
  pos : I.Posed T
  setPos : ∀ p, T.Q p → Simul T (I.setPos p) (M.setPos p)
  step : ∀ n s b, T.R s b → n ≤ b.data.length - b.pos → SimAt T s b (I.advance n) (M.advance n)
  advance : T.free → ∀ n, Simul T (I.advance n) (M.advance n)
  remaining : Simul T I.remaining M.remaining
  takeBytes : ∀ n, Simul T (I.takeBytes n) (JBytes.takeBytes n)
  starts : ∀ p, Simul T (I.takeBytesStarts p) (JBytes.takeBytesStarts p)
  takeU8 : Simul T I.takeU8 JBytes.takeU8
  takeBool : Simul T I.takeBool JBytes.takeBool
  takeChar : Simul T I.takeChar JBytes.takeChar
  scalar : ∀ s o, s ≠ .usize ∧ s ≠ .isize ∨ I.word = 8 → Simul T (I.takeScalar s o) (JBytes.takeScalar s o)
  uint : ∀ n o, Simul T (I.takeUint n o) (JBytes.takeUint n o)
  find : ∀ x, Simul T (I.findSubsequence x) (JBytes.findSubsequence x)
  findNeedle : ∀ x i, Simul T (I.findSubsequenceNeedle x i) (JBytes.findSubsequenceNeedle x i)
  finds : ∀ x, Simul T (I.findSubsequences x) (JBytes.findSubsequences x)
  cast : ∀ k o b v b', T.W k → JBytes.takeUint k o b = (.ok v, b') → I.asUsize v = v

/-- What the methods of a writer have to do, for byte strings of at most `N` bytes. -/
structure Io.LawfulW (I : Io σ) (T : Cmp σ) (N : Nat) : Prop where
  pos : I.Posed T
  push : ∀ d, d.length ≤ N → Simul T (I.push d) (JBytes.push d)
  array : ∀ d o, d.length ≤ N → Simul T (I.pushByteorderArray d o) (JBytes.pushByteorderArray d o)
  pushU8 : ∀ x, Simul T (I.pushU8 x) (JBytes.pushU8 x)
  pushBool : ∀ x, Simul T (I.pushBool x) (JBytes.pushBool x)
  pushChar : ∀ x, Simul T (I.pushChar x) (JBytes.pushChar x)
  pushScalar : ∀ s v o, s ≠ .usize ∧ s ≠ .isize ∨ I.word = 8 → Simul T (I.pushScalar s v o) (JBytes.pushScalar s v o)
  pushUint : ∀ v n o, Simul T (I.pushUint v n o) (JBytes.pushUint v n o)
  back : T.back → (∀ p, T.Q p → Simul T (I.setPos p) (M.setPos p)) ∧
    (∀ n o, Simul T (I.takeUint n o) (JBytes.takeUint n o)) ∧
    ∀ p n, T.Q p → T.Q (wsub p n) ∧ Simul T (I.sub p n) (Pure.pure (wsub p n))

theorem Io.Lawful.fail {I : Io σ} (hI : I.Lawful T) (c : ErrCode) : Simul T (I.fail c : MS σ α) (M.fail c : M α) :=
  hI.pos.fail c

theorem Io.Lawful.bindPos {I : Io σ} (hI : I.Lawful T) {f' : Nat → MS σ α} {f : Nat → M α}
    (hf : ∀ p, T.Q p → Simul T (f' p) (f p)) : Simul T (I.pos >>= f') (M.getPos >>= f) := hI.pos.bindPos hf

/-- Follow the two programs step by step. -/
macro "sims" : tactic => `(tactic| repeat' first
  | assumption
  | exact Simul.pure _
  | exact Simul.panic
  | exact Simul.timeout
  | exact Io.Lawful.fail (by assumption) _
  | exact Io.Lawful.takeBytes (by assumption) _
  | exact Io.Lawful.takeU8 (by assumption)
  | exact Io.Lawful.uint (by assumption) _ _
  | exact Io.Lawful.remaining (by assumption)
  | exact Io.Lawful.find (by assumption) _
  | exact Io.Lawful.findNeedle (by assumption) _ _
  | exact Io.Lawful.finds (by assumption) _
  | refine Simul.bind ?_ fun _ => ?_
  | split)

theorem Simul.repeatM {m' : MS σ α} {m : M α} (h : Simul T m' m) (n : Nat) : Simul T (MS.repeatM m' n) (repeatM m n) := by
  induction n with
  | zero => exact Simul.pure _
  | succ n ih => exact h.bind fun _ => ih.bind fun _ => Simul.pure _

theorem Simul.tryRepeatM {m' : MS σ α} {m : M α} (h : Simul T m' m) (n : Nat) :
    Simul T (MS.tryRepeatM m' n) (tryRepeatM m n) := by
  induction n with
  | zero => exact Simul.pure _
  | succ n ih =>
    refine h.attempt.bind fun o => ?_
    cases o with
    | none => exact Simul.pure _
    | some a => exact ih.bind fun _ => Simul.pure _

theorem Simul.encAll {e' : α → MS σ Nat} {e : α → M Nat} : ∀ (l : List α), (∀ a ∈ l, Simul T (e' a) (e a)) →
    Simul T (MS.encAll e' l) (encAll e l) := by
  intro l
  induction l with
  | nil => intro _; exact Simul.pure _
  | cons a l ih => exact fun h => (h a (by simp)).bind fun _ => (ih fun x hx => h x (by simp [hx])).bind fun _ => Simul.pure _

/-- The widths the modifiers ask for can be cast. -/
def FaIn (T : Cmp σ) (fa : Option FAttr) : Prop := ∀ fr, fa = some fr →
  (∀ k, fr.byteCount = some k → T.W k) ∧ ∀ k, fr.byteCountOutside = some k → T.W k

theorem FaIn.none : FaIn T none := fun _ h => by cases h

theorem FaIn.key {fa : Option FAttr} (h : FaIn T fa) : FaIn T (keyFattr fa) := by
  intro fr e
  cases fa with
  | none => cases e
  | some fr' =>
    unfold keyFattr at e
    simp only at e
    split at e
    · cases e
      exact ⟨fun _ h => (by cases h), fun _ h => (by cases h)⟩
    · exact h fr e

theorem FaIn.val {fa : Option FAttr} (h : FaIn T fa) : FaIn T (valFattr fa) := by
  intro fr e
  cases fa with
  | none => cases e
  | some fr' =>
    unfold valFattr at e
    simp only at e
    split at e
    · cases e
      exact ⟨fun _ h => (by cases h), fun _ h => (by cases h)⟩
    · split at e
      · cases e
        exact ⟨fun _ h => (by cases h), fun _ h => (by cases h)⟩
      · exact h fr e

theorem IntKind.scalar_fixed (k : IntKind) : k.scalar ≠ .usize ∧ k.scalar ≠ .isize := by
  unfold IntKind.scalar
  split <;> exact ⟨by simp, by simp⟩

namespace Io.Lawful
variable {I : Io σ} (hI : I.Lawful T)
include hI

theorem castBind {k : Nat} {o : ByteOrder} (hk : T.W k) {f' f : Nat → MS σ α} {g : Nat → M α}
    (hf : ∀ n, f' n = f (I.asUsize n)) (h : ∀ n, Simul T (f n) (g n)) :
    Simul T (I.takeUint k o >>= f') (JBytes.takeUint k o >>= g) := by
  intro s b hr
  refine (hI.uint k o s b hr).bind fun a s' b' e h' => ?_
  rw [hf, hI.cast k o b a b' hk e]
  exact h a s' b' h'

theorem castUint {k : Nat} {o : ByteOrder} (hk : T.W k) :
    Simul T (I.takeUint k o >>= fun n => Pure.pure (I.asUsize n)) (JBytes.takeUint k o) := by
  intro s b hr
  have key := hI.uint k o s b hr
  unfold SimAt at key ⊢
  rw [MS.bind_apply]
  rcases hx : I.takeUint k o s with ⟨r, s'⟩
  rcases hy : JBytes.takeUint k o b with ⟨r', b'⟩
  rw [hx, hy] at key
  cases r with
  | ok a =>
    rcases key with ⟨_, e⟩ | ⟨e, hr'⟩
    · cases e
    · simp only at e
      subst e
      exact .inr ⟨by show Out.ok (I.asUsize a) = _; rw [hI.cast k o b a b' hk hy], hr'⟩
  | err e => exact key
  | panic => exact key
  | timeout => exact key

theorem decIntAs (k : IntKind) (sc : Scalar) (hs : sc ≠ .usize ∧ sc ≠ .isize ∨ I.word = 8)
    (he : ∀ o, JBytes.takeScalar sc o = JBytes.takeScalar k.scalar o) (ca : Option CAttr) (fa : Option FAttr) :
    Simul T (I.decIntAs k sc ca fa) (JBytes.decInt k ca fa) := by
  refine Simul.bind ?_ fun v => ?_
  · unfold Io.decWord JBytes.decWord
    cases fa.bind (·.length) with
    | some n =>
      simp only
      split
      · exact hI.fail _
      · exact (hI.uint _ _).bind fun _ => Simul.pure _
    | none =>
      simp only
      rw [← he]
      exact hI.scalar _ _ hs
  · cases fa.bind (·.bits) <;> exact Simul.pure _

theorem decInt (k : IntKind) (ca : Option CAttr) (fa : Option FAttr) : Simul T (I.decInt k ca fa) (JBytes.decInt k ca fa) :=
  hI.decIntAs k _ (.inl k.scalar_fixed) (fun _ => rfl) ca fa

theorem decUsize (hw : I.word = 8) (signed : Bool) (ca : Option CAttr) (fa : Option FAttr) :
    Simul T (I.decUsize signed ca fa) (JBytes.decInt ⟨8, signed⟩ ca fa) := by
  unfold Io.decUsize
  rw [hw]
  refine hI.decIntAs _ _ (.inr hw) (fun o => ?_) ca fa
  cases signed <;> rfl

theorem skipNeedle (o : Option (List Byte)) : Simul T (I.skipNeedle o) (JBytes.skipNeedle o) := by
  cases o with
  | none => exact Simul.pure _
  | some x => exact (hI.findNeedle x true).bind fun _ => Simul.pure _

theorem takePrefixed : Simul T I.takePrefixed JBytes.takePrefixed := hI.takeU8.bind fun _ => hI.takeBytes _

theorem decBytes (ca : Option CAttr) (fa : Option FAttr) (hfa : FaIn T fa) :
    Simul T (I.decBytes ca fa) (JBytes.decBytes ca fa) := by
  unfold Io.decBytes JBytes.decBytes
  cases fa with
  | none => exact hI.takePrefixed
  | some fr =>
    refine (hI.skipNeedle _).bind fun _ => (hI.skipNeedle _).bind fun _ => ?_
    cases fr.length with
    | some n => exact hI.takeBytes n
    | none =>
      cases hk : fr.byteCount with
      | some k => exact hI.castBind ((hfa fr rfl).1 k hk) (fun _ => rfl) fun n => hI.takeBytes n
      | none =>
        simp only
        split
        · exact hI.finds _
        · cases fr.linendValue with
          | some x => exact hI.find _
          | none =>
            simp only
            split
            · intro s b h
              rw [show (JBytes.remainingLen >>= fun n => JBytes.takeBytes n) =
                (M.remaining >>= fun r => JBytes.takeBytes r.length) from rfl]
              exact (hI.remaining s b h).bind fun r s' b' _ h' => hI.takeBytes r.length s' b' h'
            · exact hI.takePrefixed

theorem decStr (ca : Option CAttr) (fa : Option FAttr) (hfa : FaIn T fa) :
    Simul T (I.decStr ca fa) (JBytes.decStr ca fa) := by
  refine (hI.decBytes ca fa hfa).bind fun v => ?_
  sims

theorem decIpv4 (ca : Option CAttr) (fa : Option FAttr) : Simul T (I.decIpv4 ca fa) (JBytes.decIpv4 ca fa) :=
  (hI.scalar _ _ (.inl ⟨by simp, by simp⟩)).bind fun _ => Simul.pure _

theorem decIpv6 (ca : Option CAttr) (fa : Option FAttr) : Simul T (I.decIpv6 ca fa) (JBytes.decIpv6 ca fa) :=
  (hI.scalar _ _ (.inl ⟨by simp, by simp⟩)).bind fun _ => Simul.pure _

theorem decMac (ca : Option CAttr) (fa : Option FAttr) : Simul T (I.decMac ca fa) (JBytes.decMac ca fa) :=
  (hI.uint _ _).bind fun _ => Simul.pure _

theorem decIpAddr (ca : Option CAttr) (fa : Option FAttr) : Simul T (I.decIpAddr ca fa) (JBytes.decIpAddr ca fa) := by
  have h4 := hI.decIpv4 ca fa
  have h6 := hI.decIpv6 ca fa
  unfold Io.decIpAddr JBytes.decIpAddr
  cases fa.bind (·.length) <;> simp only <;> sims

theorem decNet (hw : I.word = 8) (ca : Option CAttr) (fa : Option FAttr) :
    Simul T (I.decNet ca fa) (JBytes.decNet ca fa) := by
  have h4 := hI.decIpv4 ca fa
  have h6 := hI.decIpv6 ca fa
  have hm := hI.decMac ca fa
  have hu := hI.decUsize hw false ca fa
  unfold Io.decNet JBytes.decNet
  cases fa.bind (·.length) <;> simp only <;> sims

theorem whileStarts (p : List Byte) {m' : MS σ α} {m : M α} (h : Simul T m' m) (n : Nat) :
    Simul T (I.whileStarts p m' n) (JBytes.whileStarts p m n) := by
  induction n with
  | zero => exact Simul.timeout
  | succ n ih =>
    refine (hI.starts p).attempt.bind fun o => ?_
    cases o with
    | none => exact Simul.pure _
    | some _ => exact h.bind fun _ => ih.bind fun _ => Simul.pure _

theorem getCount (ca : Option CAttr) (fa : Option FAttr) (hfa : FaIn T fa) :
    Simul T (I.getCount ca fa) (JBytes.getCount ca fa) := by
  unfold Io.getCount JBytes.getCount
  cases fa with
  | none => exact hI.takeU8.bind fun _ => Simul.pure _
  | some fr =>
    simp only
    cases fr.count with
    | some n => exact Simul.pure _
    | none =>
      cases fr.tryCount with
      | some n => exact Simul.pure _
      | none =>
        cases hk : fr.byteCountOutside with
        | some k =>
          exact hI.castBind (f := fun n => Pure.pure (n, none)) ((hfa fr rfl).2 k hk) (fun _ => rfl) fun n => Simul.pure _
        | none => exact hI.takeU8.bind fun _ => Simul.pure _

theorem counted {m' : MS σ α} {m : M α} (h : Simul T m' m) (ca : Option CAttr) (fa : Option FAttr) (hfa : FaIn T fa) :
    Simul T (I.counted m' ca fa) (do
      let (n, t) ← JBytes.getCount ca fa
      match t with
      | some t => JBytes.tryRepeatM m t
      | none => JBytes.repeatM m n) := by
  refine (hI.getCount ca fa hfa).bind fun x => ?_
  obtain ⟨n, t⟩ := x
  cases t with
  | none => exact h.repeatM n
  | some t => exact h.tryRepeatM t

omit hI in
theorem decTuple : ∀ (ds : List (DecS σ α × Dec α)) {ca : Option CAttr} {fa : Option FAttr},
    (∀ d ∈ ds, Simul T (d.1 ca fa) (d.2 ca fa)) →
    Simul T (I.decTuple (ds.map (·.1)) ca fa) (JBytes.decTuple (ds.map (·.2)) ca fa) := by
  intro ds ca fa
  induction ds with
  | nil => intro _; exact Simul.pure _
  | cons d ds ih =>
    intro h
    exact (h d (by simp)).bind fun _ => (ih fun e he => h e (by simp [he])).bind fun _ => Simul.pure _

omit hI in
theorem toCode (a : FieldAttrs V) (env : Env V) : Simul T (I.toCode a env) (a.toCode env) := by
  unfold Io.toCode FieldAttrs.toCode
  split
  · refine Simul.bind ?_ fun _ => Simul.pure _
    unfold Io.orderCode JBytes.orderCode
    cases a.byteorder with
    | none => exact Simul.pure _
    | some x =>
      cases x with
      | lit o => exact Simul.pure _
      | expr e =>
        simp only
        sims
  · exact Simul.pure _

theorem finishValue (a : FieldAttrs V) (env : Env V) (v : V) :
    Simul T (I.finishValue a env v) (JBytes.finishValue a env v) := by
  unfold Io.finishValue JBytes.finishValue
  cases a.valueDecode <;> cases a.checkValue <;> simp only <;> sims

theorem skipOffset (a : FieldAttrs V) (env : Env V) (h : a.offset = none ∨ T.free) :
    Simul T (I.skipOffset a env) (JBytes.skipOffset a env) := by
  unfold Io.skipOffset JBytes.skipOffset
  cases he : a.offset with
  | some e =>
    rcases h with h | h
    · rw [h] at he
      cases he
    · exact hI.advance h _
  | none => exact Simul.pure _

end Io.Lawful

/-- The same modifiers, at both: no user-written codec, `offset` only if allowed, widths that can be cast. -/
structure AttrsIn (T : Cmp σ) (a : FieldAttrs V) : Prop where
  dec : a.withDecode = none
  offset : a.offset = none ∨ T.free
  passed : ∀ o env, FaIn T (some (a.modifiers o env))

/-- The same field, at both, up to its codec. -/
structure FieldIn (T : Cmp σ) (f' : FieldS σ V) (f : Field V) : Prop where
  attrs : f'.attrs = f.attrs
  dflt : f'.dflt = f.dflt
  noneV : f'.noneV = f.noneV
  ok : AttrsIn T f.attrs

theorem toCode_in {a : FieldAttrs V} (h : AttrsIn T a) {env : Env V} {b b' : Buf} {fa : Option FAttr}
    (e : a.toCode env b = (.ok fa, b')) : FaIn T fa := by
  unfold FieldAttrs.toCode at e
  split at e
  · rw [bind_apply] at e
    rcases hx : orderCode a.byteorder env b with ⟨o, b1⟩
    rw [hx] at e
    cases o with
    | ok o =>
      cases e
      exact h.passed _ _
    | err _ => cases e
    | panic => cases e
    | timeout => cases e
  · cases e
    exact FaIn.none

namespace Io.Lawful
variable {I : Io σ} (hI : I.Lawful T)
include hI

theorem decField {f' : FieldS σ V} {f : Field V} (h : FieldIn T f' f) (env : Env V) (ca : Option CAttr)
    (fa : Option FAttr) (hfa : FaIn T fa) (hd : Simul T (f'.dec ca fa) (f.dec ca fa)) :
    Simul T (I.decField f' env ca fa) (JBytes.decField f env ca fa) := by
  obtain ⟨a', d', e', w', z'⟩ := f'
  obtain ⟨a, d, e, w, z⟩ := f
  obtain ⟨ha, hdf, hn, hok⟩ := h
  simp only at ha hdf hn hok hd
  subst ha hdf hn
  refine (hI.skipOffset _ _ hok.offset).bind fun _ => ?_
  simp only [hok.dec]
  split
  · exact Simul.pure _
  · cases a'.fromStr with
    | some ps =>
      refine (hI.decStr ca fa hfa).bind fun s => ?_
      cases ps.1 s with
      | some v => exact Simul.pure _
      | none => exact hI.fail _
    | none =>
      refine hI.bindPos fun p hp => Simul.bind ?_ fun v => ?_
      · unfold Io.decCond JBytes.decCond
        simp only
        cases a'.ifExpr with
        | none => exact hd
        | some c =>
          simp only
          sims
      · simp only
        split
        · exact (hI.setPos p hp).bind fun _ => hI.finishValue _ _ _
        · exact hI.finishValue _ _ _

theorem decFields (keep : Bool) : ∀ (fs : List (FieldS σ V × Field V)) (ca : Option CAttr) (old : Option FAttr)
    (env : Env V), FaIn T old → (∀ x ∈ fs, FieldIn T x.1 x.2 ∧ ∀ ca fa, FaIn T fa → Simul T (x.1.dec ca fa) (x.2.dec ca fa)) →
    Simul T (I.decFields keep (fs.map (·.1)) ca old env) (JBytes.decFields keep (fs.map (·.2)) ca old env) := by
  intro fs
  induction fs with
  | nil => intro ca old env _ _; exact Simul.pure _
  | cons x fs ih =>
    obtain ⟨f', f⟩ := x
    intro ca old env ho hf
    obtain ⟨hin, hd⟩ := hf (f', f) (by simp)
    simp only at hin hd
    have rest : ∀ fa, FaIn T fa → Simul T (do
        let v ← I.decField f' env ca fa
        let vs ← I.decFields keep (fs.map (·.1)) (cacheVars f'.attrs ca (env.push v)) fa (env.push v)
        return v :: vs) (do
        let v ← JBytes.decField f env ca fa
        let vs ← JBytes.decFields keep (fs.map (·.2)) (cacheVars f.attrs ca (env.push v)) fa (env.push v)
        return v :: vs) := by
      intro fa hfa
      refine (hI.decField hin env ca fa hfa (hd ca fa hfa)).bind fun v => ?_
      rw [hin.attrs]
      exact (ih _ _ _ hfa fun y hy => hf y (by simp [hy])).bind fun _ => Simul.pure _
    intro s b hr
    simp only [List.map_cons, Io.decFields, JBytes.decFields]
    rw [hin.attrs]
    split
    · have h2 := rest old ho
      rw [hin.attrs] at h2
      refine (Simul.pure old s b hr).bind fun fa s' b' e h' => ?_
      cases e
      exact h2 _ _ h'
    · refine (toCode (I := I) f.attrs env s b hr).bind fun fa s' b' e h' => ?_
      have h2 := rest fa (toCode_in hin.ok e)
      rw [hin.attrs] at h2
      exact h2 s' b' h'

theorem decTag (own ca : Option CAttr) (fa : Option FAttr) (hfa : FaIn T fa)
    (hown : ∀ c k, own = some c → c.byteCount = some k → T.W k) :
    Simul T (I.decTag own ca fa) (JBytes.decTag own ca fa) := by
  have tail : Simul T (match own.bind (·.byteCount) with
      | some k => do
        let n ← I.takeUint k (getByteorder ca fa)
        return I.asUsize n
      | none => do
        let x ← I.takeU8
        return x.toNat) (match own.bind (·.byteCount) with
      | some k => JBytes.takeUint k (getByteorder ca fa)
      | none => do
        let x ← JBytes.takeU8
        return x.toNat) := by
    cases hk : own.bind (·.byteCount) with
    | none => exact hI.takeU8.bind fun _ => Simul.pure _
    | some k =>
      cases own with
      | none => cases hk
      | some c => exact hI.castUint (hown c k rfl hk)
  unfold Io.decTag JBytes.decTag
  cases fa with
  | none => exact tail
  | some fr =>
    simp only
    cases fr.branch with
    | some n => exact Simul.pure _
    | none =>
      cases hk : fr.byteCount with
      | some k => exact hI.castUint ((hfa fr rfl).1 k hk)
      | none => exact tail

end Io.Lawful

theorem findArm_at {V : Type} (t : Tag) : ∀ (l : List (Variant V × Nat)) (k i : Nat) (v : Variant V),
    findArm t k l = some (i, v) → k ≤ i ∧ ∃ n, l[i - k]? = some (v, n) := by
  intro l
  induction l with
  | nil => intro k i v h; cases h
  | cons x l ih =>
    intro k i v h
    obtain ⟨w, n⟩ := x
    unfold findArm at h
    split at h
    · cases h
      exact ⟨Nat.le_refl _, n, by simp⟩
    · obtain ⟨h1, m, h2⟩ := ih (k + 1) i v h
      refine ⟨by omega, m, ?_⟩
      have e : i - k = (i - (k + 1)) + 1 := by omega
      rw [e]
      simpa using h2

theorem findWord_at {V : Type} (data : List Byte) : ∀ (l : List (Variant V)) (k i : Nat) (v : Variant V),
    findWord data k l = some (i, v) → k ≤ i ∧ l[i - k]? = some v ∧
      (v.branchDefault = true ∨ v.word.isPrefixOf data = true) := by
  intro l
  induction l with
  | nil => intro k i v h; cases h
  | cons w l ih =>
    intro k i v h
    unfold findWord at h
    split at h
    · rename_i hc
      cases h
      exact ⟨Nat.le_refl _, by simp, by simpa using hc⟩
    · obtain ⟨h1, h2, h3⟩ := ih (k + 1) i v h
      refine ⟨by omega, ?_, h3⟩
      have e : i - k = (i - (k + 1)) + 1 := by omega
      rw [e]
      simpa using h2

theorem zip_at {V : Type} {l : List (Variant V)} {ns : List Nat} {i : Nat} {v : Variant V} {n : Nat}
    (h : (l.zip ns)[i]? = some (v, n)) : l[i]? = some v := by
  rw [List.getElem?_zip_eq_some] at h
  exact h.1

/-- The same enum, at both: `fs i` are the fields of variant `i`, twice. -/
structure EnumIn (T : Cmp σ) (E' : EnumS σ V) (E : EnumDef V) (fs : Nat → List (FieldS σ V × Field V)) : Prop where
  base : E'.base = E
  custom : E.withDecode = none
  container : ∀ c k, E.container = some c → c.byteCount = some k → T.W k
  attrs : ∀ v ∈ E.variants, AttrsIn T v.attrs
  arms : ∀ i, E'.arms i = (fs i).map (·.1)
  fields : ∀ i v, E.variants[i]? = some v → v.fields = (fs i).map (·.2)
  ok : ∀ i v, E.variants[i]? = some v → ∀ x ∈ fs i, FieldIn T x.1 x.2

namespace Io.Lawful
variable {I : Io σ} (hI : I.Lawful T)
include hI

theorem decEnum {E' : EnumS σ V} {E : EnumDef V} {fs : Nat → List (FieldS σ V × Field V)} (h : EnumIn T E' E fs)
    (hd : ∀ i v, E.variants[i]? = some v → ∀ x ∈ fs i, ∀ ca fa, FaIn T fa → Simul T (x.1.dec ca fa) (x.2.dec ca fa))
    (ca : Option CAttr) (fa : Option FAttr) (hfa : FaIn T fa) : Simul T (I.decEnum E' ca fa) (JBytes.decEnum E ca fa) := by
  have hv : ∀ (env : Env V) i v, E.variants[i]? = some v → Simul T (I.decVariant E.container env i v (E'.arms i))
      (JBytes.decVariant E.container env i v) := by
    intro env i v e s b hr
    have hm : v ∈ E.variants := List.mem_of_getElem? e
    refine (toCode (I := I) v.attrs env s b hr).bind fun fa' s' b' e' h' => ?_
    refine (hI.skipOffset _ _ (h.attrs v hm).offset s' b' h').bind fun _ s2 b2 _ h2 => ?_
    rw [h.arms, h.fields i v e]
    exact ((hI.decFields v.tuple (fs i) E.container fa' env (toCode_in (h.attrs v hm) e')
      fun x hx => ⟨h.ok i v e x hx, hd i v e x hx⟩).bind fun _ => Simul.pure _) s2 b2 h2
  have ha : ∀ (env : Env V) t, Simul T (I.decArm E' env t) (JBytes.decArm E env t) := by
    intro env t
    unfold Io.decArm JBytes.decArm
    rw [h.base]
    cases hf : findArm t 0 (E.variants.zip E.numbers) with
    | none => exact hI.fail _
    | some x =>
      obtain ⟨i, v⟩ := x
      obtain ⟨_, n, e⟩ := findArm_at t _ 0 i v hf
      exact hv env i v (zip_at (by simpa using e))
  unfold Io.decEnum JBytes.decEnum
  simp only [h.base, h.custom]
  cases E.mode with
  | uint => exact (hI.decTag _ ca fa hfa h.container).bind fun _ => ha _ _
  | takeBytes n => exact (hI.takeBytes n).bind fun _ => ha _ _
  | startsWith u =>
    intro s b hr
    refine (hI.remaining s b hr).bind fun data s' b' e h' => ?_
    cases hf : findWord data 0 E.variants with
    | none => exact hI.fail _ s' b' h'
    | some x =>
      obtain ⟨i, v⟩ := x
      obtain ⟨_, ev, hp⟩ := findWord_at data _ 0 i v hf
      simp only
      split
      · exact hv _ i v (by simpa using ev) s' b' h'
      · rename_i hu
        have hlen : v.word.length ≤ b'.data.length - b'.pos := by
          have hp' : v.word.isPrefixOf data = true := by
            rcases hp with hp | hp
            · simp [hp] at hu
            · exact hp
          have := (List.isPrefixOf_iff_prefix.mp hp').length_le
          unfold M.remaining at e
          cases e
          split at this
          · rwa [List.length_drop] at this
          · rw [List.length_nil] at this
            omega
        exact (hI.step v.word.length s' b' h' hlen).bind fun _ s2 b2 _ h2 => hv _ i v (by simpa using ev) s2 b2 h2

end Io.Lawful

/-- The type definitions, each with its decoder at the implementation and at `Bytes`/`Buffer`; built from those of `Γ`
(hand-written codecs, and the types being defined when they are recursive). -/
inductive Twin (I : Io σ) (T : Cmp σ) (Γ : (α : Type) → (Nat → DecS σ α) → (Nat → Dec α) → Prop) :
    (α : Type) → (Nat → DecS σ α) → (Nat → Dec α) → Prop where
  | var {α : Type} {d' : Nat → DecS σ α} {d : Nat → Dec α} : Γ α d' d → Twin I T Γ α d' d
  | int (k : IntKind) : Twin I T Γ Nat (fun _ => I.decInt k) (fun _ => decInt k)
  | usize (signed : Bool) : I.word = 8 → Twin I T Γ Nat (fun _ => I.decUsize signed) (fun _ => decInt ⟨8, signed⟩)
  | f32 : Twin I T Γ Nat (fun _ => I.decF32) (fun _ => decF32)
  | f64 : Twin I T Γ Nat (fun _ => I.decF64) (fun _ => decF64)
  | bool : Twin I T Γ Bool (fun _ => I.decBool) (fun _ => decBool)
  | char : Twin I T Γ Nat (fun _ => I.decChar) (fun _ => decChar)
  | bytes : Twin I T Γ (List Byte) (fun _ => I.decBytes) (fun _ => decBytes)
  | str : Twin I T Γ (List Byte) (fun _ => I.decStr) (fun _ => decStr)
  | ipv4 : Twin I T Γ (List Byte) (fun _ => I.decIpv4) (fun _ => decIpv4)
  | ipv6 : Twin I T Γ (List Byte) (fun _ => I.decIpv6) (fun _ => decIpv6)
  | ip : Twin I T Γ IpAddr (fun _ => I.decIpAddr) (fun _ => decIpAddr)
  | mac : Twin I T Γ (List Byte) (fun _ => I.decMac) (fun _ => decMac)
  | net : I.word = 8 → Twin I T Γ NetAddr (fun _ => I.decNet) (fun _ => decNet)
  | unit : Twin I T Γ Unit (fun _ => I.decUnit) (fun _ => decUnit)
  | vec {α : Type} {d' : Nat → DecS σ α} {d : Nat → Dec α} : Twin I T Γ α d' d →
      Twin I T Γ (List α) (fun n => I.decVec n (d' n)) (fun n => decVec n (d n))
  | array {α : Type} {d' : Nat → DecS σ α} {d : Nat → Dec α} (k : Nat) : Twin I T Γ α d' d →
      Twin I T Γ (List α) (fun n => I.decArray k (d' n)) (fun n => decArray k (d n))
  | tuple {α : Type} (ds : List ((Nat → DecS σ α) × (Nat → Dec α))) : (∀ d ∈ ds, Twin I T Γ α d.1 d.2) →
      Twin I T Γ (List α) (fun n => I.decTuple (ds.map (·.1 n))) (fun n => decTuple (ds.map (·.2 n)))
  | option {α : Type} {d' : Nat → DecS σ α} {d : Nat → Dec α} : Twin I T Γ α d' d →
      Twin I T Γ (Option α) (fun n => I.decOption (d' n)) (fun n => decOption (d n))
  | set {α : Type} [DecidableEq α] {d' : Nat → DecS σ α} {d : Nat → Dec α} : Twin I T Γ α d' d →
      Twin I T Γ (List α) (fun n => I.decSet (d' n)) (fun n => decSet (d n))
  | map {α β : Type} [DecidableEq α] {dk' : Nat → DecS σ α} {dk : Nat → Dec α} {dv' : Nat → DecS σ β}
      {dv : Nat → Dec β} : Twin I T Γ α dk' dk → Twin I T Γ β dv' dv →
      Twin I T Γ (List (α × β)) (fun n => I.decMap (dk' n) (dv' n)) (fun n => decMap (dk n) (dv n))
  | inject {α β : Type} {d' : Nat → DecS σ α} {d : Nat → Dec α} (f : α → β) : Twin I T Γ α d' d →
      Twin I T Γ β (fun n ca fa => do
        let a ← d' n ca fa
        return f a) (fun n ca fa => do
        let a ← d n ca fa
        return f a)
  | struct {V : Type} (S' : Nat → StructS σ V) (S : Nat → StructDef V) (fs : Nat → List (FieldS σ V × Field V))
      (ds : List ((Nat → DecS σ V) × (Nat → Dec V))) : (∀ d ∈ ds, Twin I T Γ V d.1 d.2) →
      (∀ n, (S n).withDecode = none ∧ (S' n).base = S n ∧ (S' n).fields = (fs n).map (·.1) ∧
        (S n).fields = (fs n).map (·.2)) →
      (∀ n, ∀ x ∈ fs n, FieldIn T x.1 x.2 ∧ ∃ d ∈ ds, x.1.dec = d.1 n ∧ x.2.dec = d.2 n) →
      Twin I T Γ (List V) (fun n => I.decStruct (S' n)) (fun n => decStruct (S n))
  | enum {V : Type} (E' : Nat → EnumS σ V) (E : Nat → EnumDef V) (fs : Nat → Nat → List (FieldS σ V × Field V))
      (ds : List ((Nat → DecS σ V) × (Nat → Dec V))) : (∀ d ∈ ds, Twin I T Γ V d.1 d.2) →
      (∀ n, EnumIn T (E' n) (E n) (fs n)) →
      (∀ n i v, (E n).variants[i]? = some v → ∀ x ∈ fs n i, ∃ d ∈ ds, x.1.dec = d.1 n ∧ x.2.dec = d.2 n) →
      Twin I T Γ (Nat × List V) (fun n => I.decEnum (E' n)) (fun n => decEnum (E n))

theorem Twin.sim {I : Io σ} (hI : I.Lawful T) {Γ : (α : Type) → (Nat → DecS σ α) → (Nat → Dec α) → Prop}
    (hΓ : ∀ α d' d, Γ α d' d → ∀ n ca fa, FaIn T fa → Simul T (d' n ca fa) (d n ca fa))
    {d' : Nat → DecS σ α} {d : Nat → Dec α} (h : Twin I T Γ α d' d) :
    ∀ n ca fa, FaIn T fa → Simul T (d' n ca fa) (d n ca fa) := by
  induction h with
  | var h => exact hΓ _ _ _ h
  | int k => exact fun _ ca fa _ => hI.decInt k ca fa
  | usize s hw => exact fun _ ca fa _ => hI.decUsize hw s ca fa
  | f32 => exact fun _ ca fa _ => hI.scalar _ _ (.inl ⟨by simp, by simp⟩)
  | f64 => exact fun _ ca fa _ => hI.scalar _ _ (.inl ⟨by simp, by simp⟩)
  | bool => exact fun _ ca fa _ => hI.takeBool
  | char => exact fun _ ca fa _ => hI.takeChar
  | bytes => exact fun _ ca fa hfa => hI.decBytes ca fa hfa
  | str => exact fun _ ca fa hfa => hI.decStr ca fa hfa
  | ipv4 => exact fun _ ca fa _ => hI.decIpv4 ca fa
  | ipv6 => exact fun _ ca fa _ => hI.decIpv6 ca fa
  | ip => exact fun _ ca fa _ => hI.decIpAddr ca fa
  | mac => exact fun _ ca fa _ => hI.decMac ca fa
  | net hw => exact fun _ ca fa _ => hI.decNet hw ca fa
  | unit => exact fun _ _ _ _ => Simul.pure _
  | vec _ ih =>
    intro n ca fa hfa
    unfold Io.decVec JBytes.decVec
    dsimp only
    cases fa.bind (·.loopSkipStarts) with
    | some p => exact hI.whileStarts p (ih n ca fa hfa) n
    | none => exact hI.counted (ih n ca fa hfa) ca fa hfa
  | array k _ ih => exact fun n ca fa hfa => (ih n ca fa hfa).repeatM k
  | tuple ds _ ih =>
    intro n ca fa hfa
    have key := Io.Lawful.decTuple (I := I) (T := T) (ds.map fun d => (d.1 n, d.2 n)) (ca := ca) (fa := fa) (by
      intro d hd
      obtain ⟨x, hx, rfl⟩ := List.mem_map.mp hd
      exact ih x hx n ca fa hfa)
    simp only [List.map_map] at key
    exact key
  | option _ ih =>
    intro n ca fa hfa
    unfold Io.decOption JBytes.decOption
    dsimp only
    split
    · exact Simul.pure _
    · exact (ih n ca fa hfa).attempt
  | set _ ih => exact fun n ca fa hfa => (hI.counted (ih n ca fa hfa) ca fa hfa).bind fun _ => Simul.pure _
  | map _ _ ih1 ih2 =>
    intro n ca fa hfa
    refine (hI.counted (Simul.bind (ih1 n ca _ hfa.key) fun _ => Simul.bind (ih2 n ca _ hfa.val) fun _ => Simul.pure _)
      ca fa hfa).bind fun _ => Simul.pure _
  | inject f _ ih => exact fun n ca fa hfa => (ih n ca fa hfa).bind fun _ => Simul.pure _
  | struct S' S fs ds _ hS hfs ih =>
    intro n ca fa hfa
    obtain ⟨h1, h2, h3, h4⟩ := hS n
    unfold Io.decStruct JBytes.decStruct
    dsimp only
    rw [h1, h2, h3, h4]
    refine hI.decFields _ (fs n) _ _ _ FaIn.none fun x hx => ?_
    obtain ⟨hf, d, hd, e1, e2⟩ := hfs n x hx
    rw [e1, e2]
    exact ⟨hf, fun ca fa hfa => ih d hd n ca fa hfa⟩
  | enum E' E fs ds _ hE hfs ih =>
    intro n ca fa hfa
    refine hI.decEnum (hE n) (fun i v e x hx ca fa hfa => ?_) ca fa hfa
    obtain ⟨d, hd, e1, e2⟩ := hfs n i v e x hx
    rw [e1, e2]
    exact ih d hd n ca fa hfa

/-! ### Encoders -/

/-- The modifiers passed to an encoder: at most `N` bytes each, `bits` only on the first member of a word unless the
implementation can be moved back. -/
structure FaOut (T : Cmp σ) (N : Nat) (fr : FAttr) : Prop where
  key : ∀ x, fr.key = some x → x.length ≤ N
  split : ∀ x, fr.split = some x → x.length ≤ N
  linend : ∀ x, fr.linendValue = some x → x.length ≤ N
  loops : ∀ x, fr.loopSkipStarts = some x → x.length ≤ N
  bits : fr.bits = none ∨ fr.bitsStart = true ∨ T.back

/-- The modifiers passed to an encoder, if any. -/
def FaOut? (T : Cmp σ) (N : Nat) (fa : Option FAttr) : Prop := ∀ fr, fa = some fr → FaOut T N fr

/-- The modifiers of an encoded field or variant. -/
structure AttrsOut (T : Cmp σ) (N : Nat) (a : FieldAttrs V) : Prop where
  enc : a.withEncode = none
  passed : ∀ o env, FaOut T N (a.modifiers o env)

variable {N : Nat}

theorem FaOut?.none : FaOut? T N none := fun _ h => by cases h

theorem FaOut?.keyed {fa : Option FAttr} (h : FaOut? T N fa) : FaOut? T N (keyFattr fa) := by
  intro fr e
  cases fa with
  | none => cases e
  | some fr' =>
    have h' := h fr' rfl
    unfold keyFattr at e
    simp only at e
    split at e
    · cases e
      exact ⟨fun _ h => (by cases h), fun _ h => (by cases h), h'.split, fun _ h => (by cases h), .inl rfl⟩
    · exact h fr e

theorem FaOut?.valued {fa : Option FAttr} (h : FaOut? T N fa) : FaOut? T N (valFattr fa) := by
  intro fr e
  cases fa with
  | none => cases e
  | some fr' =>
    have h' := h fr' rfl
    unfold valFattr at e
    simp only at e
    split at e
    · cases e
      exact ⟨fun _ h => (by cases h), fun _ h => (by cases h), h'.linend, fun _ h => (by cases h), .inl rfl⟩
    · split at e
      · cases e
        exact ⟨fun _ h => (by cases h), fun _ h => (by cases h), fun _ h => (by cases h), fun _ h => (by cases h), .inl rfl⟩
      · exact h fr e

theorem toCode_out {a : FieldAttrs V} (h : AttrsOut T N a) {env : Env V} {b b' : Buf} {fa : Option FAttr}
    (e : a.toCode env b = (.ok fa, b')) : FaOut? T N fa := by
  unfold FieldAttrs.toCode at e
  split at e
  · rw [bind_apply] at e
    rcases hx : orderCode a.byteorder env b with ⟨o, b1⟩
    rw [hx] at e
    cases o with
    | ok o =>
      cases e
      intro fr he
      cases he
      exact h.passed _ _
    | err _ => cases e
    | panic => cases e
    | timeout => cases e
  · cases e
    exact FaOut?.none

namespace Io.LawfulW
variable {I : Io σ} (hI : I.LawfulW T N)
include hI

theorem encBits (k : IntKind) (v : Nat) (o : ByteOrder) (fa : Option FAttr) (hfa : FaOut? T N fa) :
    Simul T (I.encBits k v o fa) (JBytes.encBits k v o fa) := by
  unfold Io.encBits JBytes.encBits
  cases fa with
  | none => exact Simul.pure _
  | some fr =>
    have hf := hfa fr rfl
    simp only
    cases hb : fr.bits with
    | none => exact Simul.pure _
    | some m =>
      simp only
      split
      · exact Simul.pure _
      · rename_i hs
        have hback : T.back := by
          rcases hf.bits with h | h | h
          · rw [h] at hb
            cases hb
          · exact absurd h hs
          · exact h
        obtain ⟨h1, h2, h3⟩ := hI.back hback
        have move : ∀ {α : Type} (g' : MS σ α) (g : M α), Simul T g' g → Simul T (I.pos >>= fun p => I.sub p k.size >>= fun q =>
            I.setPos q >>= fun _ => g') (M.getPos >>= fun p => M.setPos (wsub p k.size) >>= fun _ => g) := by
          intro α g' g hg
          refine hI.pos.bindPos fun p hp => ?_
          obtain ⟨hq, hs⟩ := h3 p k.size hp
          intro s b hr
          have key := (hs s b hr).bind (f' := fun q => I.setPos q >>= fun _ => g')
            (f := fun q => M.setPos q >>= fun _ => g) (fun a s' b' e h' => by
              cases e
              exact ((h1 _ hq).bind fun _ => hg) s' b h')
          exact key
        exact move _ _ ((h2 _ _).bind fun prev => move _ _ (Simul.pure _))

theorem encIntAs (k : IntKind) (sc : Scalar) (hs : sc ≠ .usize ∧ sc ≠ .isize ∨ I.word = 8)
    (he : ∀ v o, JBytes.pushScalar sc v o = JBytes.pushScalar k.scalar v o) (v : Nat) (ca : Option CAttr)
    (fa : Option FAttr) (hfa : FaOut? T N fa) : Simul T (I.encIntAs k sc v ca fa) (JBytes.encInt k v ca fa) := by
  refine (hI.encBits k v _ fa hfa).bind fun w => ?_
  cases fa.bind (·.length) with
  | some n =>
    simp only
    split
    · exact hI.pos.fail _
    · exact hI.pushUint _ _ _
  | none =>
    simp only
    rw [← he]
    exact hI.pushScalar _ _ _ hs

theorem encInt (k : IntKind) (v : Nat) (ca : Option CAttr) (fa : Option FAttr) (hfa : FaOut? T N fa) :
    Simul T (I.encInt k v ca fa) (JBytes.encInt k v ca fa) :=
  hI.encIntAs k _ (.inl k.scalar_fixed) (fun _ _ => rfl) v ca fa hfa

theorem encUsize (hw : I.word = 8) (signed : Bool) (v : Nat) (ca : Option CAttr) (fa : Option FAttr)
    (hfa : FaOut? T N fa) : Simul T (I.encUsize signed v ca fa) (JBytes.encInt ⟨8, signed⟩ v ca fa) := by
  unfold Io.encUsize
  rw [hw]
  refine hI.encIntAs _ _ (.inr hw) (fun v o => ?_) v ca fa hfa
  cases signed <;> rfl

theorem pushOpt (o : Option (List Byte)) (h : ∀ x, o = some x → x.length ≤ N) :
    Simul T (I.pushOpt o) (JBytes.pushOpt o) := by
  cases o with
  | none => exact Simul.pure _
  | some x => exact hI.push x (h x rfl)

theorem encBytes (hN : 2 ≤ N) (d : List Byte) (hd : d.length ≤ N) (ca : Option CAttr) (fa : Option FAttr)
    (hfa : FaOut? T N fa) : Simul T (I.encBytes d ca fa) (JBytes.encBytes d ca fa) := by
  refine (hI.pushOpt _ fun x h => ?_).bind fun _ => (hI.pushOpt _ fun x h => ?_).bind fun _ => Simul.bind ?_ fun _ =>
    (hI.push d hd).bind fun _ => (hI.pushOpt _ fun x h => ?_).bind fun _ => Simul.pure _
  · cases fa with
    | none => cases h
    | some fr => exact (hfa fr rfl).key x h
  · cases fa with
    | none => cases h
    | some fr => exact (hfa fr rfl).split x h
  · unfold Io.encBytesPrefix JBytes.encBytesPrefix
    cases fa with
    | none => exact hI.pushU8 _
    | some fr =>
      simp only
      cases fr.length with
      | some n => exact Simul.pure _
      | none =>
        cases fr.byteCount with
        | some k => exact hI.pushUint _ _ _
        | none =>
          have := hI.pushU8
          simp only
          split
          · exact Simul.pure _
          · split
            · exact Simul.pure _
            · split
              · exact Simul.pure _
              · exact hI.pushU8 _
  · unfold encBytesEnd at h
    cases fa with
    | none => cases h
    | some fr =>
      simp only at h
      split at h
      · cases h
      · split at h
        · cases h
        · split at h
          · cases h
            exact hN
          · exact (hfa fr rfl).linend x h

theorem encIp (d : List Byte) (hd : d.length ≤ N) (ca : Option CAttr) (fa : Option FAttr) :
    Simul T (I.encIp d ca fa) (JBytes.encIp d ca fa) := hI.array d _ hd

theorem pushCount (ca : Option CAttr) (fa : Option FAttr) (n : Nat) :
    Simul T (I.pushCount ca fa n) (JBytes.pushCount ca fa n) := by
  unfold Io.pushCount JBytes.pushCount
  cases fa with
  | none => exact hI.pushU8 _
  | some fr =>
    simp only
    cases fr.byteCountOutside with
    | some k => exact hI.pushUint _ _ _
    | none =>
      simp only
      split
      · exact Simul.pure _
      · split
        · exact Simul.pure _
        · exact hI.pushU8 _

theorem padLoop (x : Byte) (n : Nat) : Simul T (I.padLoop x n) (JBytes.padLoop x n) := by
  induction n with
  | zero => exact Simul.pure _
  | succ n ih => exact (hI.pushU8 x).bind fun _ => ih

theorem padOffset (a : FieldAttrs V) (env : Env V) : Simul T (I.padOffset a env) (JBytes.padOffset a env) := by
  unfold Io.padOffset JBytes.padOffset
  cases a.offset with
  | some e => exact hI.padLoop _ _
  | none => exact Simul.pure _

/-- One field, for a value whose pieces fit. -/
theorem encField (hN : 2 ≤ N) {f' : FieldS σ V} {f : Field V} (ha : f'.attrs = f.attrs) (hok : AttrsOut T N f.attrs)
    {P : V → Prop} (env : Env V) (v : V) (hv : FieldFits N P f.attrs v) (ca : Option CAttr) (fa : Option FAttr)
    (hfa : FaOut? T N fa) (he : ∀ v, P v → Simul T (f'.enc v ca fa) (f.enc v ca fa)) :
    Simul T (I.encField f' env v ca fa) (JBytes.encField f env v ca fa) := by
  unfold Io.encField JBytes.encField
  rw [ha, hok.enc]
  simp only
  split
  · exact Simul.pure _
  · refine Simul.bind ?_ fun n => ?_
    · unfold Io.encText JBytes.encText
      cases hs : f.attrs.fromStr with
      | some ps => exact hI.encBytes hN _ (hv.text ps hs) ca fa hfa
      | none => exact Simul.pure _
    · split
      · refine Simul.bind ?_ fun _ => Simul.pure _
        unfold Io.encPlain JBytes.encPlain
        rw [ha]
        refine (hI.padOffset _ _).bind fun _ => ?_
        cases hg : f.attrs.valueEncode with
        | some g => exact he _ (hv.sent g env hg)
        | none => exact he _ hv.plain
      · exact Simul.pure _

theorem encFields (hN : 2 ≤ N) (keep : Bool) (P : FieldS σ V × Field V → V → Prop) :
    ∀ (fs : List (FieldS σ V × Field V)) (ca : Option CAttr) (old : Option FAttr) (env : Env V) (vs : List V),
    FaOut? T N old →
    (∀ x ∈ fs, x.1.attrs = x.2.attrs ∧ AttrsOut T N x.2.attrs ∧
      ∀ v, P x v → ∀ ca fa, FaOut? T N fa → Simul T (x.1.enc v ca fa) (x.2.enc v ca fa)) →
    (∀ y ∈ fs.zip vs, FieldFits N (P y.1) y.1.2.attrs y.2) →
    Simul T (I.encFields keep (fs.map (·.1)) ca old env vs) (JBytes.encFields keep (fs.map (·.2)) ca old env vs) := by
  intro fs
  induction fs with
  | nil => intro ca old env vs _ _ _; exact Simul.pure _
  | cons x fs ih =>
    obtain ⟨f', f⟩ := x
    intro ca old env vs ho hf hv
    cases vs with
    | nil => exact Simul.pure _
    | cons v vs =>
      obtain ⟨ha, hok, he⟩ := hf (f', f) (by simp)
      simp only at ha hok he
      have rest : ∀ fa, FaOut? T N fa → Simul T (do
          let n ← I.encField f' env v ca fa
          let m ← I.encFields keep (fs.map (·.1)) ca fa (env.push v) vs
          return n + m) (do
          let n ← JBytes.encField f env v ca fa
          let m ← JBytes.encFields keep (fs.map (·.2)) ca fa (env.push v) vs
          return n + m) := fun fa hfa =>
        (hI.encField hN ha hok env v (hv ((f', f), v) (by simp)) ca fa hfa fun w hw => he w hw ca fa hfa).bind fun _ =>
          (ih ca fa (env.push v) vs hfa (fun y hy => hf y (by simp [hy])) fun y hy => hv y (by simp [hy])).bind fun _ =>
            Simul.pure _
      intro s b hr
      simp only [List.map_cons, Io.encFields, JBytes.encFields]
      rw [ha]
      split
      · refine (Simul.pure old s b hr).bind fun fa s' b' e h' => ?_
        cases e
        exact rest old ho _ _ h'
      · refine (Io.Lawful.toCode (I := I) f.attrs env s b hr).bind fun fa s' b' e h' => ?_
        exact rest fa (toCode_out hok e) s' b' h'

theorem encTag (own ca : Option CAttr) (fa : Option FAttr) (disable : Bool) (num : Nat) :
    Simul T (I.encTag own ca fa disable num) (JBytes.encTag own ca fa disable num) := by
  have hb : Simul T (I.encTagByte disable num) (JBytes.encTagByte disable num) := by
    unfold Io.encTagByte JBytes.encTagByte
    split
    · exact Simul.pure _
    · exact hI.pushU8 _
  unfold Io.encTag JBytes.encTag
  cases fa with
  | none =>
    simp only
    cases own.bind (·.byteCount) with
    | some k => exact hI.pushUint _ _ _
    | none => exact hb
  | some fr =>
    simp only
    cases fr.branch with
    | some n => exact Simul.pure _
    | none =>
      cases own.bind (·.byteCount) with
      | some k => exact hI.pushUint _ _ _
      | none =>
        cases fr.byteCount with
        | some k => exact hI.pushUint _ _ _
        | none => exact hb

omit hI in
theorem encTuple (es : List (EncS σ α × Enc α)) (P : EncS σ α × Enc α → α → Prop) : ∀ (l : List α)
    {ca : Option CAttr} {fa : Option FAttr}, (∀ e ∈ es, ∀ a, P e a → Simul T (e.1 a ca fa) (e.2 a ca fa)) →
    (∀ x ∈ es.zip l, P x.1 x.2) →
    Simul T (I.encTuple (es.map (·.1)) l ca fa) (JBytes.encTuple (es.map (·.2)) l ca fa) := by
  induction es with
  | nil => intro l ca fa _ _; exact Simul.pure _
  | cons e es ih =>
    intro l ca fa h hl
    cases l with
    | nil => exact Simul.pure _
    | cons a l =>
      exact (h e (by simp) a (hl (e, a) (by simp))).bind fun _ =>
        (ih l (fun e' he => h e' (by simp [he])) fun x hx => hl x (by simp [hx])).bind fun _ => Simul.pure _

end Io.LawfulW

/-- The same enum, at both, for encoding. -/
structure EnumOut (T : Cmp σ) (N : Nat) (E' : EnumS σ V) (E : EnumDef V) (fs : Nat → List (FieldS σ V × Field V)) :
    Prop where
  base : E'.base = E
  attrs : ∀ v ∈ E.variants, AttrsOut T N v.attrs ∧ v.word.length ≤ N
  arms : ∀ i, E'.arms i = (fs i).map (·.1)
  fields : ∀ i v, E.variants[i]? = some v → v.fields = (fs i).map (·.2)
  ok : ∀ i v, E.variants[i]? = some v → ∀ x ∈ fs i, x.1.attrs = x.2.attrs ∧ AttrsOut T N x.2.attrs

theorem Io.LawfulW.encEnum {I : Io σ} (hI : I.LawfulW T N) (hN : 2 ≤ N) {E' : EnumS σ V} {E : EnumDef V}
    {fs : Nat → List (FieldS σ V × Field V)} (h : EnumOut T N E' E fs) (P : FieldS σ V × Field V → V → Prop)
    (he : ∀ i v, E.variants[i]? = some v → ∀ x ∈ fs i, ∀ v, P x v → ∀ ca fa, FaOut? T N fa →
      Simul T (x.1.enc v ca fa) (x.2.enc v ca fa)) (x : Nat × List V)
    (hx : ∀ y ∈ (fs x.1).zip x.2, FieldFits N (P y.1) y.1.2.attrs y.2) (ca : Option CAttr) (fa : Option FAttr) :
    Simul T (I.encEnum E' x ca fa) (JBytes.encEnum E x ca fa) := by
  unfold Io.encEnum JBytes.encEnum
  rw [h.base]
  cases hv : (E.variants.zip E.numbers)[x.1]? with
  | none => exact Simul.pure _
  | some y =>
    obtain ⟨v, num⟩ := y
    have hv' := zip_at hv
    obtain ⟨ha, hw⟩ := h.attrs v (List.mem_of_getElem? hv')
    intro s b hr
    refine (Io.Lawful.toCode (I := I) v.attrs _ s b hr).bind fun old s' b' e h' => ?_
    refine SimAt.bind (m := JBytes.encTagMode E v num ca fa) ?_ fun n s2 b2 _ h2 => ?_
    · unfold Io.encTagMode JBytes.encTagMode
      cases E.mode with
      | uint => exact hI.encTag _ _ _ _ _ s' b' h'
      | takeBytes _ => exact hI.push _ hw s' b' h'
      | startsWith u =>
        cases u
        · exact hI.push _ hw s' b' h'
        · exact Simul.pure _ s' b' h'
    · refine ((hI.padOffset _ _).bind fun _ => ?_) s2 b2 h2
      rw [h.arms, h.fields _ v hv']
      exact (hI.encFields hN true P (fs x.1) _ _ _ _ (toCode_out ha e)
        (fun z hz => ⟨(h.ok _ v hv' z hz).1, (h.ok _ v hv' z hz).2, he _ v hv' z hz⟩) hx).bind fun _ => Simul.pure _

/-- The type definitions, each with its encoder at the implementation and at `Buffer`, and the values whose byte strings
have at most `N` bytes; built from those of `Γ`. -/
inductive EncTwin (I : Io σ) (T : Cmp σ) (N : Nat) (Γ : (α : Type) → (α → Prop) → EncS σ α → Enc α → Prop) :
    (α : Type) → (α → Prop) → EncS σ α → Enc α → Prop where
  | var {α : Type} {P : α → Prop} {e' : EncS σ α} {e : Enc α} : Γ α P e' e → EncTwin I T N Γ α P e' e
  /-- Fewer values. -/
  | fewer {α : Type} {P P' : α → Prop} {e' : EncS σ α} {e : Enc α} : (∀ v, P' v → P v) → EncTwin I T N Γ α P e' e →
      EncTwin I T N Γ α P' e' e
  | int (k : IntKind) : EncTwin I T N Γ Nat (fun _ => True) (I.encInt k) (encInt k)
  | usize (signed : Bool) : I.word = 8 → EncTwin I T N Γ Nat (fun _ => True) (I.encUsize signed) (encInt ⟨8, signed⟩)
  | f32 : EncTwin I T N Γ Nat (fun _ => True) I.encF32 encF32
  | f64 : EncTwin I T N Γ Nat (fun _ => True) I.encF64 encF64
  | bool : EncTwin I T N Γ Bool (fun _ => True) I.encBool encBool
  | char : EncTwin I T N Γ Nat (fun _ => True) I.encChar encChar
  | bytes : EncTwin I T N Γ (List Byte) (fun d => d.length ≤ N) I.encBytes encBytes
  | ip : EncTwin I T N Γ (List Byte) (fun d => d.length ≤ N) I.encIp encIp
  | ipAddr : EncTwin I T N Γ IpAddr (fun a => a.octets.length ≤ N) I.encIpAddr encIpAddr
  | mac : EncTwin I T N Γ (List Byte) (fun _ => True) I.encMac encMac
  | net : I.word = 8 → EncTwin I T N Γ NetAddr (fun a => a.octets.length ≤ N) I.encNet encNet
  | unit : EncTwin I T N Γ Unit (fun _ => True) I.encUnit encUnit
  | vec {α : Type} {P : α → Prop} {e' : EncS σ α} {e : Enc α} : EncTwin I T N Γ α P e' e →
      EncTwin I T N Γ (List α) (fun l => ∀ a ∈ l, P a) (I.encVec e') (encVec e)
  | array {α : Type} {P : α → Prop} {e' : EncS σ α} {e : Enc α} : EncTwin I T N Γ α P e' e →
      EncTwin I T N Γ (List α) (fun l => ∀ a ∈ l, P a) (I.encArray e') (encArray e)
  | tuple {α : Type} (es : List (EncS σ α × Enc α)) (P : EncS σ α × Enc α → α → Prop) :
      (∀ e ∈ es, EncTwin I T N Γ α (P e) e.1 e.2) →
      EncTwin I T N Γ (List α) (fun l => ∀ x ∈ es.zip l, P x.1 x.2) (I.encTuple (es.map (·.1))) (encTuple (es.map (·.2)))
  | option {α : Type} {P : α → Prop} {e' : EncS σ α} {e : Enc α} : EncTwin I T N Γ α P e' e →
      EncTwin I T N Γ (Option α) (fun o => ∀ a, o = some a → P a) (I.encOption e') (encOption e)
  | map {α β : Type} {P : α → Prop} {Q : β → Prop} {ek' : EncS σ α} {ek : Enc α} {ev' : EncS σ β} {ev : Enc β} :
      EncTwin I T N Γ α P ek' ek → EncTwin I T N Γ β Q ev' ev →
      EncTwin I T N Γ (List (α × β)) (fun l => ∀ x ∈ l, P x.1 ∧ Q x.2) (I.encMap ek' ev') (encMap ek ev)
  | project {α β : Type} {P : α → Prop} {e' : EncS σ α} {e : Enc α} (g : β → Option α) : EncTwin I T N Γ α P e' e →
      EncTwin I T N Γ β (fun v => ∀ a, g v = some a → P a) (fun v ca fa => I.encOption e' (g v) ca fa)
        (fun v ca fa => encOption e (g v) ca fa)
  | struct {V : Type} (S' : StructS σ V) (S : StructDef V) (fs : List (FieldS σ V × Field V))
      (P : FieldS σ V × Field V → V → Prop) : S.withEncode = none → S'.base = S → S'.fields = fs.map (·.1) →
      S.fields = fs.map (·.2) → (∀ x ∈ fs, x.1.attrs = x.2.attrs ∧ AttrsOut T N x.2.attrs) →
      (∀ x ∈ fs, EncTwin I T N Γ V (P x) x.1.enc x.2.enc) →
      EncTwin I T N Γ (List V) (fun vs => ∀ y ∈ fs.zip vs, FieldFits N (P y.1) y.1.2.attrs y.2) (I.encStruct S')
        (encStruct S)
  | enum {V : Type} (E' : EnumS σ V) (E : EnumDef V) (fs : Nat → List (FieldS σ V × Field V))
      (P : FieldS σ V × Field V → V → Prop) : EnumOut T N E' E fs →
      (∀ i v, E.variants[i]? = some v → ∀ x ∈ fs i, EncTwin I T N Γ V (P x) x.1.enc x.2.enc) →
      EncTwin I T N Γ (Nat × List V) (fun x => ∀ y ∈ (fs x.1).zip x.2, FieldFits N (P y.1) y.1.2.attrs y.2)
        (I.encEnum E') (encEnum E)

theorem EncTwin.sim {I : Io σ} (hI : I.LawfulW T N) (hN : 2 ≤ N)
    {Γ : (α : Type) → (α → Prop) → EncS σ α → Enc α → Prop}
    (hΓ : ∀ α P e' e, Γ α P e' e → ∀ v, P v → ∀ ca fa, FaOut? T N fa → Simul T (e' v ca fa) (e v ca fa))
    {P : α → Prop} {e' : EncS σ α} {e : Enc α} (h : EncTwin I T N Γ α P e' e) :
    ∀ v, P v → ∀ ca fa, FaOut? T N fa → Simul T (e' v ca fa) (e v ca fa) := by
  induction h with
  | var h => exact hΓ _ _ _ _ h
  | fewer hP _ ih => exact fun v hv => ih v (hP v hv)
  | int k => exact fun v _ ca fa hfa => hI.encInt k v ca fa hfa
  | usize s hw => exact fun v _ ca fa hfa => hI.encUsize hw s v ca fa hfa
  | f32 => exact fun v _ ca fa _ => hI.pushScalar _ _ _ (.inl ⟨by simp, by simp⟩)
  | f64 => exact fun v _ ca fa _ => hI.pushScalar _ _ _ (.inl ⟨by simp, by simp⟩)
  | bool => exact fun v _ ca fa _ => hI.pushBool v
  | char => exact fun v _ ca fa _ => hI.pushChar v
  | bytes => exact fun v hv ca fa hfa => hI.encBytes hN v hv ca fa hfa
  | ip => exact fun v hv ca fa _ => hI.encIp v hv ca fa
  | ipAddr =>
    intro v hv ca fa _
    cases v with
    | v4 o => exact hI.encIp o hv ca fa
    | v6 o => exact hI.encIp o hv ca fa
  | mac => exact fun v _ ca fa _ => hI.pushUint _ _ _
  | net hw =>
    intro v hv ca fa hfa
    cases v with
    | v4 o => exact hI.encIp o hv ca fa
    | v6 o => exact hI.encIp o hv ca fa
    | mac o => exact hI.pushUint _ _ _
    | usize n => exact hI.encUsize hw false n ca fa hfa
  | unit => exact fun _ _ _ _ _ => Simul.pure _
  | vec _ ih =>
    intro l hl ca fa hfa
    unfold Io.encVec JBytes.encVec
    cases hp : fa.bind (·.loopSkipStarts) with
    | some p =>
      have hlen : p.length ≤ N := by
        cases fa with
        | none => cases hp
        | some fr => exact (hfa fr rfl).loops p hp
      exact Simul.encAll l fun a ha => (hI.push p hlen).bind fun _ => (ih a (hl a ha) ca fa hfa).bind fun _ => Simul.pure _
    | none =>
      exact (hI.pushCount ca fa _).bind fun _ => (Simul.encAll l fun a ha => ih a (hl a ha) ca fa hfa).bind fun _ => Simul.pure _
  | array _ ih => exact fun l hl ca fa hfa => Simul.encAll l fun a ha => ih a (hl a ha) ca fa hfa
  | tuple es P _ ih =>
    exact fun l hl ca fa hfa => Io.LawfulW.encTuple es P l (fun e he a ha => ih e he a ha ca fa hfa) hl
  | option _ ih =>
    intro o ho ca fa hfa
    cases o with
    | none => exact Simul.pure _
    | some a => exact ih a (ho a rfl) ca fa hfa
  | map _ _ ih1 ih2 =>
    intro l hl ca fa hfa
    exact (hI.pushCount ca fa _).bind fun _ => (Simul.encAll l fun x hx => (ih1 x.1 (hl x hx).1 ca _ hfa.keyed).bind fun _ =>
      (ih2 x.2 (hl x hx).2 ca _ hfa.valued).bind fun _ => Simul.pure _).bind fun _ => Simul.pure _
  | project g _ ih =>
    intro v hv ca fa hfa
    dsimp only
    cases hg : g v with
    | none => exact Simul.pure _
    | some a => exact ih a (hv a hg) ca fa hfa
  | struct S' S fs P h1 h2 h3 h4 hfs _ ih =>
    intro vs hvs ca fa hfa
    unfold Io.encStruct JBytes.encStruct
    rw [h1, h2, h3, h4]
    exact hI.encFields hN false P fs _ _ _ _ FaOut?.none
      (fun x hx => ⟨(hfs x hx).1, (hfs x hx).2, ih x hx⟩) hvs
  | enum E' E fs P hE _ ih => exact fun x hx ca fa _ => hI.encEnum hN hE P (fun i v e y hy => ih i v e y hy) x hx ca fa

end JBytes
