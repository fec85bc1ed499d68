import Verif.Local
import Verif.Extend
/-!
# Recursive types

The decoder that the derive macros generate for `struct Tree { kids: Vec<Tree> }` calls itself, through the decoder of
the field.  `decRec` is such a family of decoders (several, for mutually recursive types) with a bound on how deeply
the calls may nest: the stack.  As the crate has no codec for `Box`, `Rc` or `Cow`, the recursion of a type passes
through `Vec`, a set or a map.
-/

namespace JBytes
open M

variable {α β V : Type} {p t : Bool} {N : Nat}

/-- Decoders of the types `T i`, each defined by `F` from all of them, with at most `k` calls inside one another:
the generated `impl`s, derive/src/jbytes/derive_struct.rs:80-195 and derive/src/jbytes/derive_enum.rs:123-355, call the
`impl`s of the types of the fields, derive/src/jbytes/decode.rs:51-66.  Without stack left the model says `timeout`
(the program would be aborted). -/
def decRec {ι : Type} {T : ι → Type} (F : ((i : ι) → Nat → Dec (T i)) → (i : ι) → Nat → Dec (T i)) :
    Nat → (i : ι) → Nat → Dec (T i)
  | 0 => fun _ _ _ _ => timeout
  | k + 1 => F (decRec F k)

/-- Encoders of the types `T i`, likewise: derive/src/jbytes/derive_struct.rs:207-261 and
derive/src/jbytes/derive_enum.rs:367-575 call the encoders of the fields, derive/src/jbytes/encode.rs:46-57. -/
def encRec {ι : Type} {T : ι → Type} (G : ((i : ι) → Enc (T i)) → (i : ι) → Enc (T i)) : Nat → (i : ι) → Enc (T i)
  | 0 => fun _ _ _ _ => timeout
  | k + 1 => G (encRec G k)

/-- The decoders of a family, as what other decoders can be built from. -/
inductive Among {ι : Type} {T : ι → Type} (d : (i : ι) → Nat → Dec (T i)) : (β : Type) → (Nat → Dec β) → Prop
  | mk (i : ι) : Among d (T i) (d i)

/-- The same limits, with all counts and tags on the wire. -/
def Limits.onWire (L : Limits) : Limits := { L with wired := true }

/-- Consumes at least one byte when it succeeds. -/
def Eats (m : M α) : Prop := ∀ b, b.Ok → ∀ v b', m b = (.ok v, b') → b.pos < b'.pos

/-- The modifiers field `f` is decoded with when it does not take over those of an earlier field. -/
def Passed (f : Field V) (fa : Option FAttr) : Prop :=
  ((f.attrs.isUse && f.attrs.anySet) = false ∧ fa = none) ∨
    ((f.attrs.isUse && f.attrs.anySet) = true ∧ ∃ o env, fa = some (f.attrs.modifiers o env))

/-- A field that consumes at least one byte: it is always decoded, nothing is put back, and its own modifiers do not
keep its type from consuming. -/
structure Consuming (keep : Bool) (f : Field V) : Prop where
  own : keep = true → f.attrs.isUse = true
  always : f.attrs.skip = false ∧ f.attrs.skipDecode = false ∧ f.attrs.ifExpr = none ∧ f.attrs.untake = false ∧
    f.attrs.fromStr = none
  eats : ∀ ca fa, Passed f fa → Eats (f.dec ca fa)

/-- Decoders of closed types, and of collections of `Γ`, which start with a count or a prefix. -/
inductive Later (L : Limits) (Γ : (α : Type) → (Nat → Dec α) → Prop) : (α : Type) → (Nat → Dec α) → Prop
  | closed {α : Type} {d : Nat → Dec α} : Derivable L α d → Later L Γ α d
  | vec {α : Type} {d : Nat → Dec α} : DerivableIn L Γ α d → Later L Γ (List α) (fun n => decVec n (d n))
  | set {α : Type} [DecidableEq α] {d : Nat → Dec α} : DerivableIn L Γ α d →
      Later L Γ (List α) (fun n => decSet (d n))
  | map {α β : Type} [DecidableEq α] {dk : Nat → Dec α} {dv : Nat → Dec β} : DerivableIn L Γ α dk →
      DerivableIn L Γ β dv → Later L Γ (List (α × β)) (fun n => decMap (dk n) (dv n))

/-- Fields that use `Γ` only after at least one byte: inside collections whose count is on the wire, or after a field
that consumes a byte (such as the one that holds the count). -/
inductive GuardedFields (L : Limits) (Γ : (α : Type) → (Nat → Dec α) → Prop) (V : Type) (keep : Bool) :
    (Nat → List (Field V)) → Prop
  | wired (fs : Nat → List (Field V)) (ds : List (Nat → Dec V)) : (∀ d ∈ ds, DerivableIn L.onWire (Later L Γ) V d) →
      (∀ n, ∀ f ∈ fs n, AttrsOk L.onWire f.attrs ∧ ∃ d ∈ ds, f.dec = d n) → GuardedFields L Γ V keep fs
  | headed (pre : Nat → List (Field V)) (f : Nat → Field V) (post : Nat → List (Field V))
      (ds ds' : List (Nat → Dec V)) : (∀ d ∈ ds, Derivable L V d) → (∀ d ∈ ds', DerivableIn L Γ V d) →
      (∀ n, ∀ g ∈ pre n, AttrsOk L g.attrs ∧ ∃ d ∈ ds, g.dec = d n) →
      (∀ n, AttrsOk L (f n).attrs ∧ ∃ d ∈ ds, (f n).dec = d n) → (∀ n, Consuming keep (f n)) →
      (∀ n, ∀ g ∈ post n, AttrsOk L g.attrs ∧ ∃ d ∈ ds', g.dec = d n) →
      GuardedFields L Γ V keep fun n => pre n ++ f n :: post n

/-- Derived types that use `Γ` only after at least one byte. -/
inductive Guarded (L : Limits) (Γ : (α : Type) → (Nat → Dec α) → Prop) : (α : Type) → (Nat → Dec α) → Prop
  | struct {V : Type} (S : Nat → StructDef V) (keep : Bool) : (∀ n, (S n).withDecode = none) →
      (∀ n, (S n).tuple = keep) → GuardedFields L Γ V keep (fun n => (S n).fields) →
      Guarded L Γ (List V) (fun n => decStruct (S n))
  | enum {V : Type} (E : Nat → EnumDef V) : (∀ n, (E n).withDecode = none) →
      (L.narrow = true → ∀ n c k, (E n).container = some c → c.byteCount = some k → k ≤ 8) →
      (L.standalone = true → ∀ n u, (E n).mode ≠ .startsWith u) →
      (∀ n, ∀ v ∈ (E n).variants, AttrsOk L.onWire v.attrs) →
      (∀ n, ∀ v ∈ (E n).variants, ∃ fs, GuardedFields L Γ V v.tuple fs ∧ v.fields = fs n) →
      Guarded L Γ (Nat × List V) (fun n => decEnum (E n))

/-! ## Consuming -/

theorem Eats.bind_left {m : M α} {f : α → M β} (hi : Inside m) (h : Eats m) (hf : ∀ a, Inside (f a)) :
    Eats (m >>= f) := by
  intro b hb v b' he
  have h2 := hi.ok hb
  rw [bind_apply] at he
  rcases hm : m b with ⟨o, b1⟩
  rw [hm] at he h2
  cases o with
  | ok a =>
    simp only at he h2
    have h3 := h b hb a b1 hm
    have h4 := hf a b1 h2
    rw [he] at h4
    simp only at h4
    omega
  | _ => cases he

theorem Eats.bind_right {m : M α} {f : α → M β} (hi : Inside m) (hf : ∀ a, Eats (f a)) : Eats (m >>= f) := by
  intro b hb v b' he
  have h2 := hi.ok hb
  have h3 := hi b hb
  rw [bind_apply] at he
  rcases hm : m b with ⟨o, b1⟩
  rw [hm] at he h2 h3
  cases o with
  | ok a =>
    simp only at he h2 h3
    have h4 := hf a b1 h2 v b' he
    omega
  | _ => cases he

/-- After an action that consumes, fewer bytes are left. -/
theorem Good.bind_eats {m : M α} {f : α → M β} (hm : Good p t N m) (he : Eats m)
    (hf0 : ∀ a, Good p false 0 (f a)) (hf : t = true → ∀ N' < N, ∀ a, Good p true N' (f a)) :
    Good p t N (m >>= f) := by
  refine ⟨hm.1.bind fun a => (hf0 a).1, fun h => NoPanic.bind hm.1 (hm.2.1 h) fun a => (hf0 a).2.1 h, ?_⟩
  intro ht b hb hn
  have h1 := hm.2.2 ht b hb hn
  have h2 := hm.1.ok hb
  have h3 := hm.1 b hb
  rw [bind_apply]
  rcases hmb : m b with ⟨o, b'⟩
  rw [hmb] at h1 h2 h3
  cases o with
  | ok a =>
    simp only at h3 h2 ⊢
    have h4 := he b hb a b' hmb
    have h5 : b'.data.length - b'.pos < N := by rw [h3.1]; omega
    exact (hf ht _ h5 a).2.2 rfl b' h2 (Nat.le_refl _)
  | timeout => exact absurd rfl h1
  | _ => intro h; cases h

theorem Good.weaken {m : M α} (h : Good p t N m) : Good p false 0 m := ⟨h.1, h.2.1, fun h => nomatch h⟩

theorem Good.any {m : M α} (h : Good p false 0 m) (N : Nat) : Good p false N m := ⟨h.1, h.2.1, fun h => nomatch h⟩

theorem eats_takeBytes {n : Nat} (hn : n ≠ 0) : Eats (takeBytes n) := by
  intro b hb v b' h
  rw [takeBytes_apply n b hb] at h
  split at h
  · cases h
  · cases h
    show b.pos < b.pos + n
    omega

theorem Eats.map {m : M α} (hi : Inside m) (h : Eats m) {g : α → β} : Eats (do
    let a ← m
    return g a) := h.bind_left hi fun _ => Inside.pure _

theorem eats_takeU8 : Eats takeU8 :=
  (eats_takeBytes (by omega)).bind_left (tame_takeBytes 1).inside fun _ => (Loc.index0 _).1

theorem eats_takeUint {n : Nat} (hn : n ≠ 0) (o : ByteOrder) : Eats (takeUint n o) := by
  unfold takeUint takeN takeBeN takeLeN
  split <;> split <;> first
    | exact (eats_takeBytes hn).bind_left (tame_takeBytes _).inside fun _ => Inside.pure _
    | (intro b _ v b' h; cases h)

theorem Inside.decWord (k : IntKind) (o : ByteOrder) (l : Option Nat) : Inside (decWord k o l) := by
  unfold JBytes.decWord
  split
  · split
    · exact Inside.fail _
    · exact (Inside.takeUint _ _).bind fun _ => Inside.pure _
  · exact (tame_takeScalar _ _).inside

theorem eats_decInt {k : IntKind} (hk : k.Valid) (ca : Option CAttr) {fa : Option FAttr}
    (h : ∀ fr, fa = some fr → fr.length ≠ some 0) : Eats (decInt k ca fa) := by
  unfold decInt
  refine Eats.bind_left ?_ ?_ fun v => ?_
  · exact Inside.decWord _ _ _
  · unfold decWord
    split
    · rename_i n hn
      split
      · intro b _ v b' h; cases h
      · refine Eats.map (Inside.takeUint _ _) (eats_takeUint ?_ _)
        rintro rfl
        cases fa with
        | none => cases hn
        | some fr => exact h fr rfl hn
    · obtain ⟨size, signed, h⟩ := hk
      rcases h with rfl | rfl | rfl | rfl | rfl <;> cases signed <;> first
        | exact eats_takeU8.map tame_takeU8.inside
        | exact (eats_takeBytes (by decide)).map (tame_takeBytes _).inside
  · split <;> exact Inside.pure _

theorem FaOk.fromWire {L : Limits} {fr : FAttr} (h : FaOk L.onWire fr) : FaOk L fr :=
  ⟨h.byteCount, h.outside, h.length, h.starts, h.remaining, h.tryCount, h.loops, fun _ => h.wire rfl, h.searches⟩

theorem FaOk?.fromWire {L : Limits} {fa : Option FAttr} (h : FaOk? L.onWire fa) : FaOk? L fa :=
  fun fr hfr => (h fr hfr).fromWire

theorem AttrsOk.fromWire {L : Limits} {a : FieldAttrs V} (h : AttrsOk L.onWire a) : AttrsOk L a :=
  ⟨h.custom, h.offset, h.order, h.untake, fun o env => (h.passed o env).fromWire⟩

theorem eats_getCount {L : Limits} {ca : Option CAttr} {fa : Option FAttr} (h : FaOk? L.onWire fa) :
    Eats (getCount ca fa) := by
  unfold getCount
  split
  · exact eats_takeU8.map tame_takeU8.inside
  · rename_i fr
    obtain ⟨h1, h2, _, _, h3⟩ := (h fr rfl).wire rfl
    rw [h1, h2]
    simp only
    split
    · rename_i k hk
      refine (eats_takeUint ?_ _).map (Inside.takeUint _ _)
      rintro rfl
      exact h3 hk
    · exact eats_takeU8.map tame_takeU8.inside

/-! ## Guarded definitions terminate -/

section
variable {L : Limits} {Γ : (α : Type) → (Nat → Dec α) → Prop} {R n : Nat}

/-- What is known of the decoders in `Γ`: they stay inside the data without panic, and terminate with fewer than `R`
bytes left. -/
def Below (L : Limits) (Γ : (α : Type) → (Nat → Dec α) → Prop) (t : Bool) (R n : Nat) : Prop :=
  ∀ β e, Γ β e → ∀ ca fa, FaOk? L fa →
    Good L.narrow false 0 (e n ca fa) ∧ (t = true → ∀ R' < R, Good L.narrow true R' (e n ca fa))

theorem Below.elem {d : Nat → Dec α} (hL : L.noOffset = true) (hΓ : Below L Γ t R n)
    (ht : t = true → L.prefixes = true ∧ R < n) (h : DerivableIn L Γ α d) (ca : Option CAttr) (fa : Option FAttr)
    (hfa : FaOk? L fa) :
    Good L.narrow false 0 (d n ca fa) ∧ (t = true → ∀ R' < R, Good L.narrow true R' (d n ca fa)) :=
  ⟨h.good hL n (fun β e he ca fa hfa => (hΓ β e he ca fa hfa).1) (fun h => nomatch h) ca fa hfa,
    fun h1 R' h2 => h.good hL n (fun β e he ca fa hfa => (hΓ β e he ca fa hfa).2 h1 R' h2)
      (fun _ => ⟨(ht h1).1, by have := (ht h1).2; omega⟩) ca fa hfa⟩

theorem Good.countedEats {m : M α} {ca : Option CAttr} {fa : Option FAttr} (hfa : FaOk? L.onWire fa)
    (h : Good L.narrow false 0 m ∧ (t = true → ∀ R' < R, Good L.narrow true R' m)) :
    Good L.narrow t R (do
      let (n, t) ← JBytes.getCount ca fa
      match t with
      | some t => JBytes.tryRepeatM m t
      | none => JBytes.repeatM m n) := by
  refine Good.bind_eats (Good.getCount ca fa fun hp fr hfr => (hfa fr hfr).outside hp) (eats_getCount hfa) ?_ ?_
  · rintro ⟨k, _ | j⟩
    · exact h.1.repeatM k
    · exact h.1.tryRepeatM j
  · rintro h1 R' h2 ⟨k, _ | j⟩
    · exact (h.2 h1 R' h2).repeatM k
    · exact (h.2 h1 R' h2).tryRepeatM j

theorem Later.good {d : Nat → Dec α} (hL : L.noOffset = true) (hΓ : Below L Γ t R n)
    (ht : t = true → L.prefixes = true ∧ R < n) (h : Later L Γ α d) :
    ∀ (ca : Option CAttr) (fa : Option FAttr), FaOk? L.onWire fa → Good L.narrow t R (d n ca fa) := by
  intro ca fa hfa
  cases h with
  | closed h => exact Derivable.good hL h n ht ca fa hfa.fromWire
  | vec h =>
    have he := hΓ.elem hL ht h ca fa hfa.fromWire
    show Good L.narrow t R (decVec n _ ca fa)
    unfold decVec
    split
    · rename_i x hx
      refine ⟨he.1.1.whileStarts x n, fun hp => NoPanic.whileStarts he.1.1 (he.1.2.1 hp) x n, ?_⟩
      intro h1 b hb hn
      refine whileStarts_halts he.1.1 x ?_ n b hb ?_ (by have := (ht h1).2; omega)
      · rintro rfl
        cases fa with
        | none => cases hx
        | some fr => exact (hfa fr rfl).starts (ht h1).1 hx
      · intro b' h2 h3 h4
        have h5 := h2.1
        rw [h3] at h5
        exact (he.2 h1 (b'.data.length - b'.pos) (by rw [h3]; omega)).2.2 rfl b' h2 (Nat.le_refl _)
    · exact Good.countedEats hfa he
  | set h =>
    exact (Good.countedEats hfa (hΓ.elem hL ht h ca fa hfa.fromWire)).bind fun _ => Good.pure _
  | map hk hv =>
    have h1 := hΓ.elem hL ht hk ca (keyFattr fa) hfa.fromWire.key
    have h2 := hΓ.elem hL ht hv ca (valFattr fa) hfa.fromWire.val
    refine Good.bind (Good.countedEats hfa ⟨?_, ?_⟩) fun _ => Good.pure _
    · exact h1.1.bind fun _ => h2.1.bind fun _ => Good.pure _
    · intro ht R' hR
      exact (h1.2 ht R' hR).bind fun _ => (h2.2 ht R' hR).bind fun _ => Good.pure _

theorem Eats.decField {f : Field V} {env : Env V} {ca : Option CAttr} {fa : Option FAttr} {keep : Bool}
    (hL : L.noOffset = true) (ha : AttrsOk L f.attrs) (hc : Consuming keep f) (hi : Inside (f.dec ca fa))
    (hp : Passed f fa) : Eats (decField f env ca fa) := by
  obtain ⟨h1, h2, h3, h4, h5⟩ := hc.always
  unfold JBytes.decField
  rw [skipOffset, ha.offset hL, ha.custom, h1, h2, h5]
  refine Eats.bind_right (Inside.pure _) fun _ => ?_
  simp only [Bool.or_self, Bool.false_eq_true, if_false]
  unfold decPlain decCond
  rw [h3, h4]
  simp only [Bool.false_eq_true, if_false]
  exact Eats.bind_right (Good.getPos (p := false) (t := false) (N := 0)).1 fun _ =>
    (hc.eats ca fa hp).bind_left hi fun _ => (Good.finishValue (p := false) (t := false) (N := 0) _ _ _).1

/-- Computing the modifiers of a field gives those it is `Passed`. -/
theorem Good.toCodePassed {f : Field V} (ha : AttrsOk L f.attrs) (env : Env V) {g : Option FAttr → M β}
    (hg : ∀ fa, FaOk? L fa → Passed f fa → Good L.narrow t N (g fa)) :
    Good L.narrow t N (f.attrs.toCode env >>= g) := by
  classical
  have key : f.attrs.toCode env >>= g = f.attrs.toCode env >>= fun fa =>
      if Passed f fa then g fa else M.fail .fail := by
    funext b
    rw [bind_apply, bind_apply]
    rcases hc : f.attrs.toCode env b with ⟨o, b'⟩
    cases o with
    | ok fa =>
      have hp : Passed f fa := by
        unfold FieldAttrs.toCode at hc
        split at hc
        · rename_i h
          rw [bind_apply] at hc
          rcases ho : orderCode f.attrs.byteorder env b with ⟨o, b''⟩
          rw [ho] at hc
          cases o with
          | ok o =>
            cases hc
            exact .inr ⟨h, o, env, rfl⟩
          | _ => cases hc
        · rename_i h
          cases hc
          exact .inl ⟨by simpa using h, rfl⟩
      simp only [if_pos hp]
    | _ => rfl
  rw [key]
  refine Good.toCode ha env fun fa hfa => ?_
  split
  · rename_i h
    exact hg fa hfa h
  · exact Good.fail _

theorem Good.decFieldsHeaded {keep : Bool} (hL : L.noOffset = true) : ∀ (pre : List (Field V)) (f : Field V)
    (post : List (Field V)) (ca : Option CAttr) (old : Option FAttr) (env : Env V), FaOk? L old →
    (∀ g ∈ pre, AttrsOk L g.attrs ∧ ∀ ca fa, FaOk? L fa → Good L.narrow t R (g.dec ca fa)) →
    (AttrsOk L f.attrs ∧ ∀ ca fa, FaOk? L fa → Good L.narrow t R (f.dec ca fa)) → Consuming keep f →
    (∀ g ∈ post, AttrsOk L g.attrs ∧ ∀ ca fa, FaOk? L fa →
      Good L.narrow false 0 (g.dec ca fa) ∧ (t = true → ∀ R' < R, Good L.narrow true R' (g.dec ca fa))) →
    Good L.narrow t R (JBytes.decFields keep (pre ++ f :: post) ca old env) := by
  intro pre
  induction pre with
  | nil =>
    intro f post ca old env ho _ hf hc hpost
    have rest : ∀ fa, FaOk? L fa → Passed f fa → Good L.narrow t R (do
        let v ← JBytes.decField f env ca fa
        let vs ← JBytes.decFields keep post (cacheVars f.attrs ca (env.push v)) fa (env.push v)
        Pure.pure (v :: vs)) := by
      intro fa hfa hp
      refine (Good.decField hL hf.1 hfa (hf.2 ca fa hfa)).bind_eats
        (Eats.decField hL hf.1 hc (hf.2 ca fa hfa).1 hp) (fun v => ?_) fun h1 R' h2 v => ?_
      · exact (Good.decFields hL keep post _ fa _ hfa fun g hg =>
          ⟨(hpost g hg).1, fun ca fa hfa => ((hpost g hg).2 ca fa hfa).1⟩).bind fun _ => Good.pure _
      · exact (Good.decFields hL keep post _ fa _ hfa fun g hg =>
          ⟨(hpost g hg).1, fun ca fa hfa => ((hpost g hg).2 ca fa hfa).2 h1 R' h2⟩).bind fun _ => Good.pure _
    rw [List.nil_append]
    unfold JBytes.decFields
    split
    · rename_i h
      rw [Bool.and_eq_true, Bool.not_eq_true'] at h
      rw [hc.own h.1] at h
      cases h.2
    · exact Good.toCodePassed hf.1 env rest
  | cons g pre ih =>
    intro f post ca old env ho hpre hf hc hpost
    have rest : ∀ fa, FaOk? L fa → Good L.narrow t R (do
        let v ← JBytes.decField g env ca fa
        let vs ← JBytes.decFields keep (pre ++ f :: post) (cacheVars g.attrs ca (env.push v)) fa (env.push v)
        Pure.pure (v :: vs)) := by
      intro fa hfa
      refine (Good.decField hL (hpre g (by simp)).1 hfa ((hpre g (by simp)).2 ca fa hfa)).bind fun v => ?_
      exact (ih f post _ fa _ hfa (fun x hx => hpre x (List.mem_cons_of_mem _ hx)) hf hc hpost).bind
        fun _ => Good.pure _
    rw [List.cons_append]
    unfold JBytes.decFields
    split
    · exact rest old ho
    · exact Good.toCode (hpre g (by simp)).1 env rest

theorem GuardedFields.good {keep : Bool} {fs : Nat → List (Field V)} (hL : L.noOffset = true) (hΓ : Below L Γ t R n)
    (ht : t = true → L.prefixes = true ∧ R < n) (h : GuardedFields L Γ V keep fs) (ca : Option CAttr)
    (old : Option FAttr) (env : Env V) (ho : FaOk? L.onWire old) :
    Good L.narrow t R (decFields keep (fs n) ca old env) := by
  cases h with
  | wired _ ds hd hf =>
    refine Good.decFields (L := L.onWire) hL keep (fs n) ca old env ho fun f hfm => ?_
    obtain ⟨ha, d, hdm, he⟩ := hf n f hfm
    refine ⟨ha, fun ca fa hfa => ?_⟩
    rw [he]
    exact (hd d hdm).good (L := L.onWire) hL n (fun β e he ca fa hfa => Later.good hL hΓ ht he ca fa hfa) ht ca fa hfa
  | headed pre f post ds ds' hd hd' hpre hf hc hpost =>
    refine Good.decFieldsHeaded hL (pre n) (f n) (post n) ca old env ho.fromWire ?_ ?_ (hc n) ?_
    · intro g hg
      obtain ⟨ha, d, hdm, he⟩ := hpre n g hg
      exact ⟨ha, fun ca fa hfa => by rw [he]; exact Derivable.good hL (hd d hdm) n ht ca fa hfa⟩
    · obtain ⟨ha, d, hdm, he⟩ := hf n
      exact ⟨ha, fun ca fa hfa => by rw [he]; exact Derivable.good hL (hd d hdm) n ht ca fa hfa⟩
    · intro g hg
      obtain ⟨ha, d, hdm, he⟩ := hpost n g hg
      exact ⟨ha, fun ca fa hfa => by rw [he]; exact hΓ.elem hL ht (hd' d hdm) ca fa hfa⟩

theorem Guarded.good {d : Nat → Dec α} (hL : L.noOffset = true) (hΓ : Below L Γ t R n)
    (ht : t = true → L.prefixes = true ∧ R < n) (h : Guarded L Γ α d) (ca : Option CAttr) (fa : Option FAttr)
    (hfa : FaOk? L fa) : Good L.narrow t R (d n ca fa) := by
  cases h with
  | struct S keep hw hk hf =>
    show Good _ _ _ (decStruct (S n) ca fa)
    unfold decStruct
    rw [hw n, hk n]
    exact hf.good hL hΓ ht _ _ _ (FaOk?.none _)
  | enum E hw ho _ hv hf =>
    refine Good.decEnumOf (E n) ca fa (hw n) (fun hp c k => ho hp n c k) hfa fun v hvm own env i => ?_
    obtain ⟨fs, hfs, he⟩ := hf n v hvm
    unfold decVariant
    refine Good.toCode (L := L.onWire) (hv n v hvm) env fun fa hfa => ?_
    rw [skipOffset, (hv n v hvm).offset hL, he]
    exact (Good.pure _).bind fun _ => (hfs.good hL hΓ ht own fa env hfa).bind fun _ => Good.pure _

end

/-! ## Families of recursive types -/

section
variable {ι : Type} {T : ι → Type} {F : ((i : ι) → Nat → Dec (T i)) → (i : ι) → Nat → Dec (T i)} {L : Limits}

theorem decRec_good (hL : L.noOffset = true) (hF : ∀ d i, DerivableIn L (Among d) (T i) (F d i)) (n k : Nat) :
    ∀ i ca fa, FaOk? L fa → Good L.narrow false 0 (decRec F k i n ca fa) := by
  induction k with
  | zero => intro i ca fa _; exact ⟨Inside.timeout, fun _ => NoPanic.timeout, fun h => nomatch h⟩
  | succ k ih =>
    intro i ca fa hfa
    refine (hF (decRec F k) i).good (t := false) hL n ?_ (fun h => nomatch h) ca fa hfa
    rintro _ _ ⟨i⟩
    exact ih i

theorem decRec_loc (hL : L.noOffset = true) (hS : L.standalone = true)
    (hF : ∀ d i, DerivableIn L (Among d) (T i) (F d i)) (n k : Nat) :
    ∀ i ca fa, FaOk? L fa → Loc (decRec F k i n ca fa) := by
  induction k with
  | zero => intro i ca fa _; exact ⟨Inside.timeout, fun b v b' _ h => by cases h⟩
  | succ k ih =>
    intro i ca fa hfa
    refine (hF (decRec F k) i).loc hL hS n ?_ ca fa hfa
    rintro _ _ ⟨i⟩
    exact ih i

theorem decRec_ext (hS : L.standalone = true) (hF : ∀ d i, DerivableIn L (Among d) (T i) (F d i)) (n k : Nat) :
    ∀ i ca fa, FaOk? L fa → Ext (decRec F k i n ca fa) := by
  induction k with
  | zero => intro i ca fa _; exact Ext.never fun b v h => by cases h
  | succ k ih =>
    intro i ca fa hfa
    refine (hF (decRec F k) i).ext hS n ?_ ca fa hfa
    rintro _ _ ⟨i⟩
    exact ih i

theorem decRec_guarded (hL : L.noOffset = true) (hF : ∀ d i, Guarded L (Among d) (T i) (F d i)) (n k : Nat) :
    ∀ i ca fa, FaOk? L fa → Good L.narrow false 0 (decRec F k i n ca fa) ∧
      (L.prefixes = true → ∀ R < k, R < n → Good L.narrow true R (decRec F k i n ca fa)) := by
  induction k with
  | zero =>
    intro i ca fa _
    exact ⟨⟨Inside.timeout, fun _ => NoPanic.timeout, fun h => nomatch h⟩, fun _ R h => absurd h (Nat.not_lt_zero _)⟩
  | succ k ih =>
    intro i ca fa hfa
    refine ⟨?_, fun hx R h1 h2 => ?_⟩
    · refine Guarded.good (t := false) hL (Γ := Among (decRec F k)) ?_ (fun h => nomatch h) (hF (decRec F k) i) ca fa hfa
      rintro _ _ ⟨i⟩ ca fa hfa
      exact ⟨(ih i ca fa hfa).1, fun h => nomatch h⟩
    · refine Guarded.good hL (Γ := Among (decRec F k)) ?_ (fun _ => ⟨hx, h2⟩) (hF (decRec F k) i) ca fa hfa
      rintro _ _ ⟨i⟩ ca fa hfa
      exact ⟨(ih i ca fa hfa).1, fun _ R' h => (ih i ca fa hfa).2 hx R' (by omega) (by omega)⟩

end

end JBytes
