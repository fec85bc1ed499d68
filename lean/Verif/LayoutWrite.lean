import Verif.Layout
import Verif.WriteLemmas
import Verif.PropEnum
/-!
# Encoders of fixed layout

`FixedWrite back size m`: at the end of a buffer that holds at least `back` bytes (of the word being completed) `m`
succeeds and leaves `size` more.
-/

namespace JBytes
open M

variable {α β V : Type}

/-- An encoder that makes the buffer longer by `size`, whatever the value (see the top of the file). -/
def FixedWrite (back size : Nat) (m : M Nat) : Prop := ∀ b : Buf, b.pos = b.data.length → back ≤ b.data.length →
  b.data.length + size ≤ isizeMax →
  ∃ n b', m b = (.ok n, b') ∧ b'.pos = b'.data.length ∧ b'.data.length = b.data.length + size

theorem FixedWrite.pure (n : Nat) : FixedWrite 0 0 (Pure.pure n : M Nat) :=
  fun b h _ _ => ⟨n, b, rfl, h, rfl⟩

theorem FixedWrite.cast {back size back2 size2 : Nat} {m : M Nat} (h : FixedWrite back size m) (hb : back ≤ back2)
    (hs : size = size2) : FixedWrite back2 size2 m := by
  subst hs
  exact fun b hp hk hm => h b hp (by omega) hm

theorem FixedWrite.bind {b1 s1 b2 s2 : Nat} {m : M Nat} {f : Nat → M Nat} (hm : FixedWrite b1 s1 m)
    (hf : ∀ n, FixedWrite b2 s2 (f n)) : FixedWrite (max b1 (b2 - s1)) (s1 + s2) (m >>= f) := by
  intro b hp hb hs
  obtain ⟨n, b', e1, h1, h2⟩ := hm b hp (by omega) (by omega)
  obtain ⟨n2, b2', e2, h3, h4⟩ := hf n b' h1 (by omega) (by omega)
  exact ⟨n2, b2', by rw [bind_apply, e1]; exact e2, h3, by omega⟩

theorem FixedWrite.fmap {back size : Nat} {m : M Nat} (h : FixedWrite back size m) (f : Nat → Nat) :
    FixedWrite back size (do
      let n ← m
      return f n) :=
  (h.bind fun _ => FixedWrite.pure _).cast (by omega) (by omega)

/-- Two encoders in a row, the counts added. -/
theorem FixedWrite.add {b1 s1 b2 s2 : Nat} {m m2 : M Nat} (h1 : FixedWrite b1 s1 m) (h2 : FixedWrite b2 s2 m2) :
    FixedWrite (max b1 (b2 - s1)) (s1 + s2) (do
      let n ← m
      let k ← m2
      return n + k) :=
  h1.bind fun _ => h2.fmap _

theorem FixedWrite.push (d : List Byte) : FixedWrite 0 d.length (push d) := by
  intro b hp _ hs
  obtain ⟨data, pos⟩ := b
  change pos = data.length at hp
  subst hp
  exact ⟨d.length, _, push_end data d hs, by simp, by simp⟩

theorem FixedWrite.pushScalar (s : Scalar) (v : Nat) (o : ByteOrder) : FixedWrite 0 s.size (pushScalar s v o) := by
  rw [pushScalar_eq]
  exact (FixedWrite.push _).cast (Nat.le_refl _) (toBytes_length _ _ _)

theorem FixedWrite.pushUint (v n : Nat) (o : ByteOrder) (h : n ≤ 8) : FixedWrite 0 n (pushUint v n o) := by
  rw [pushUint_eq v n o h]
  exact (FixedWrite.push _).cast (Nat.le_refl _) (toBytes_length _ _ _)

theorem FixedWrite.octets (v : List Byte) (o : ByteOrder) : FixedWrite 0 v.length (pushByteorderArray v o) := by
  cases o
  · exact FixedWrite.push v
  · exact (FixedWrite.push v.reverse).cast (Nat.le_refl _) (by simp)

theorem FixedWrite.pushU8 (x : Byte) : FixedWrite 0 1 (pushU8 x) := FixedWrite.push [x]

theorem FixedWrite.encAll {back size : Nat} {P : α → Prop} {e : α → M Nat} (h : ∀ a, P a → FixedWrite back size (e a))
    (l : List α) (hl : ∀ a ∈ l, P a) : FixedWrite back (l.length * size) (encAll e l) := by
  induction l with
  | nil => exact (FixedWrite.pure 0).cast (by omega) (by simp)
  | cons a l ih =>
    refine ((h a (hl a List.mem_cons_self)).add (ih fun x hx => hl x (List.mem_cons_of_mem _ hx))).cast (by omega) ?_
    rw [List.length_cons, Nat.succ_mul]
    omega

/-! ## The types -/

/-- The place of a field: `off` bytes before it, then `size` bytes, which may complete a word that began `back` bytes
before; for values `vals`, under the modifiers `under`. -/
structure PutPlace (V : Type) where
  off : Nat
  back : Nat
  size : Nat
  vals : V → Prop
  under : Option FAttr → Prop

/-- Whether a field is written at all. -/
def FieldAttrs.isWritten (a : FieldAttrs V) : Bool := !(a.skip || a.skipEncode) && (a.bits.isSome || !a.untake)

/-- The bytes a field adds. -/
def putSize (a : FieldAttrs V) (s : PutPlace V) : Nat := if a.isWritten then s.off + s.size else 0

/-- The bytes that must be there before the field. -/
def putBack (a : FieldAttrs V) (s : PutPlace V) : Nat := if a.isWritten then s.back - s.off else 0

/-- The bytes the fields add. -/
def putSizes : List (Field V × PutPlace V) → Nat
  | [] => 0
  | p :: ps => putSize p.1.attrs p.2 + putSizes ps

/-- The bytes that must be there before the fields. -/
def putBacks : List (Field V × PutPlace V) → Nat
  | [] => 0
  | p :: ps => max (putBack p.1.attrs p.2) (putBacks ps - putSize p.1.attrs p.2)

/-- A field at a fixed place. -/
structure PutAttrs (a : FieldAttrs V) (s : PutPlace V) : Prop where
  custom : a.withEncode = none
  fromStr : a.fromStr = none
  value : ∀ g, a.valueEncode = some g → ∀ env v, s.vals v → s.vals (g env v)
  offset : (a.offset = none ∧ s.off = 0) ∨ ∃ e, a.offset = some e ∧ ∀ env, e env = s.off
  order : ∀ e env, a.byteorder = some (.expr e) → e env = 0 ∨ e env = 1

/-- One value for each field, of the kind the field holds. -/
def Valued : List (Field V × PutPlace V) → List V → Prop
  | [], [] => True
  | p :: ps, v :: vs => p.2.vals v ∧ Valued ps vs
  | _, _ => False

/-- The width of the tag of an enum in encoding (the container's width comes first). -/
def PutTag (E : EnumDef V) (v : Variant V) (fa : Option FAttr) (w : Nat) : Prop :=
  match E.mode with
  | .startsWith false => w = v.word.length
  | .startsWith true => w = 0
  | .takeBytes _ => w = v.word.length
  | .uint =>
    match fa.bind (·.branch), E.container.bind (·.byteCount), fa.bind (·.byteCount) with
    | some _, _, _ => w = 0
    | none, some k, _ => w = k ∧ k ≤ 8
    | none, none, some k => w = k ∧ k ≤ 8
    | none, none, none => w = if E.byteCountDisable then 0 else 1

/-- The fields of a variant, with the bytes written before them. -/
structure PutVariant (V : Type) where
  variant : Variant V
  off : Nat
  places : List (Field V × PutPlace V)

/-- The encoders of fixed layout: `FixedEnc G P back size α e`, under modifiers that meet `G`, for values that meet
`P`. -/
inductive FixedEnc : (Option FAttr → Prop) → {α : Type} → (α → Prop) → Nat → Nat → Enc α → Prop where
  | int (k : IntKind) (hk : k.Valid) : FixedEnc
      (fun fa => fa.bind (·.length) = none ∧ (fa.bind (·.bits) = none ∨ fa.map (·.bitsStart) = some true))
      (fun _ => True) 0 k.size (encInt k)
  | width (k : IntKind) (n : Nat) (h8 : n ≤ 8) (hn : n ≤ k.size) : FixedEnc
      (fun fa => fa.bind (·.length) = some n ∧ (fa.bind (·.bits) = none ∨ fa.map (·.bitsStart) = some true))
      (fun _ => True) 0 n (encInt k)
  /-- A member of a word that is not its first one. -/
  | member (k : IntKind) (hk : k.Valid) (h8 : k.size ≤ 8) : FixedEnc
      (fun fa => fa.bind (·.length) = none ∧ (fa.bind (·.bits)).isSome ∧ fa.map (·.bitsStart) = some false)
      (fun _ => True) k.size 0 (encInt k)
  | f32 : FixedEnc (fun _ => True) (fun _ => True) 0 4 encF32
  | f64 : FixedEnc (fun _ => True) (fun _ => True) 0 8 encF64
  | bool : FixedEnc (fun _ => True) (fun _ => True) 0 1 encBool
  | char : FixedEnc (fun _ => True) (fun _ => True) 0 1 encChar
  | octets (n : Nat) : FixedEnc (fun _ => True) (fun v => v.length = n) 0 n encIp
  | ip (n : Nat) : FixedEnc (fun _ => True)
      (fun v => match v with
        | .v4 o => o.length = n
        | .v6 o => o.length = n) 0 n encIpAddr
  | mac : FixedEnc (fun _ => True) (fun _ => True) 0 6 encMac
  | unit : FixedEnc (fun _ => True) (fun _ => True) 0 0 encUnit
  | bytes (n : Nat) : FixedEnc
      (fun fa => (fa.bind (·.length)).isSome = true ∧ fa.bind (·.key) = none ∧ fa.bind (·.split) = none)
      (fun v => v.length = n) 0 n encBytes
  | array {α : Type} {G : Option FAttr → Prop} {P : α → Prop} {n s : Nat} {e : Enc α} (k : Nat) : FixedEnc G P n s e →
      FixedEnc G (fun l => l.length = k ∧ ∀ a ∈ l, P a) n (k * s) (encArray e)
  | vec {α : Type} {G : Option FAttr → Prop} {P : α → Prop} {n s : Nat} {e : Enc α} (k : Nat) : FixedEnc G P n s e →
      FixedEnc (fun fa => G fa ∧ (fa.bind (·.count)).isSome = true ∧ fa.bind (·.byteCountOutside) = none ∧
          fa.bind (·.loopSkipStarts) = none)
        (fun l => l.length = k ∧ ∀ a ∈ l, P a) n (k * s) (encVec e)
  | map {α β : Type} {G H : Option FAttr → Prop} {P : α → Prop} {R : β → Prop} {n s n2 s2 : Nat} {ek : Enc α} {ev : Enc β}
      (k : Nat) : FixedEnc G P n s ek → FixedEnc H R n2 s2 ev →
      FixedEnc (fun fa => G (keyFattr fa) ∧ H (valFattr fa) ∧ (fa.bind (·.count)).isSome = true ∧
          fa.bind (·.byteCountOutside) = none)
        (fun l => l.length = k ∧ ∀ a ∈ l, P a.1 ∧ R a.2) (max n (n2 - s)) (k * (s + s2)) (encMap ek ev)
  | pair {α : Type} {G : Option FAttr → Prop} {P : α → Prop} {R : List α → Prop} {n s n2 s2 : Nat} {e : Enc α}
      {es : List (Enc α)} : FixedEnc G P n s e → FixedEnc G R n2 s2 (encTuple es) →
      FixedEnc G (fun l => ∃ a as, l = a :: as ∧ P a ∧ R as) (max n (n2 - s)) (s + s2) (encTuple (e :: es))
  | done {α : Type} : FixedEnc (α := List α) (fun _ => True) (fun l => l = []) 0 0 (encTuple [])
  | project {α β : Type} {G : Option FAttr → Prop} {P : α → Prop} {n s : Nat} {e : Enc α} (g : β → Option α) :
      FixedEnc G P n s e →
      FixedEnc G (fun v => ∃ a, g v = some a ∧ P a) n s (fun v ca fa => encOption e (g v) ca fa)
  | weaken {α : Type} {G H : Option FAttr → Prop} {P R : α → Prop} {n s : Nat} {e : Enc α} : FixedEnc G P n s e →
      (∀ fa, H fa → G fa) → (∀ v, R v → P v) → FixedEnc H R n s e
  | struct {V : Type} (S : StructDef V) (ps : List (Field V × PutPlace V)) :
      S.withEncode = none → S.fields = ps.map Prod.fst →
      (∀ p ∈ ps, PutAttrs p.1.attrs p.2) →
      (∀ p ∈ ps, PassesOn false (fun _ => True) p.1.attrs p.2.under) →
      (∀ p ∈ ps, FixedEnc p.2.under p.2.vals p.2.back p.2.size p.1.enc) →
      FixedEnc (fun _ => True) (Valued ps) (putBacks ps) (putSizes ps) (encStruct S)
  | enum {V : Type} (E : EnumDef V) (vs : List (PutVariant V)) (Q : Option FAttr → Prop) (n w s : Nat) :
      E.variants = vs.map (·.variant) →
      (∀ x ∈ vs, x.variant.fields = x.places.map Prod.fst) →
      (∀ x ∈ vs, putBacks x.places - x.off - w ≤ n ∧ x.off + putSizes x.places = s) →
      (∀ x ∈ vs, (x.variant.attrs.offset = none ∧ x.off = 0) ∨
        ∃ e, x.variant.attrs.offset = some e ∧ ∀ env, e env = x.off) →
      (∀ x ∈ vs, ∀ e env, x.variant.attrs.byteorder = some (.expr e) → e env = 0 ∨ e env = 1) →
      (∀ x ∈ vs, PassesOn false Q x.variant.attrs fun _ => True) →
      (∀ x ∈ vs, ∀ p ∈ x.places, PutAttrs p.1.attrs p.2) →
      (∀ x ∈ vs, ∀ p ∈ x.places, PassesOn true Q p.1.attrs p.2.under) →
      (∀ x ∈ vs, ∀ p ∈ x.places, FixedEnc p.2.under p.2.vals p.2.back p.2.size p.1.enc) →
      FixedEnc (fun fa => ∀ x ∈ vs, PutTag E x.variant fa w)
        (fun v => ∃ x, vs[v.1]? = some x ∧ Valued x.places v.2) n (w + s) (encEnum E)

/-! ## They have a fixed layout -/

theorem FixedWrite.encInt {back n : Nat} (k : IntKind) (v : Nat) (ca : Option CAttr) (fa : Option FAttr)
    (hb : fa.bind (·.bits) = none ∨ fa.map (·.bitsStart) = some true)
    (h : ∀ v o, FixedWrite back n (match fa.bind (·.length) with
      | some n => if k.size < n then M.fail .invalidByteLength else JBytes.pushUint (asU64 k v) n o
      | none => JBytes.pushScalar k.scalar v o)) : FixedWrite back n (encInt k v ca fa) := by
  have e : ∃ w, ∀ b, encBits k v (getByteorder ca fa) fa b = (.ok w, b) := by
    unfold encBits
    cases fa with
    | none => exact ⟨v, fun _ => rfl⟩
    | some fr =>
      simp only
      cases hm : fr.bits with
      | none => exact ⟨v, fun _ => rfl⟩
      | some m =>
        rcases hb with hb | hb
        · change fr.bits = none at hb; rw [hm] at hb; cases hb
        · simp only [Option.map_some, Option.some.injEq] at hb
          simp only [hb, if_true]
          exact ⟨_, fun _ => rfl⟩
  obtain ⟨w, hw⟩ := e
  intro b hp hk hs
  obtain ⟨n', b', h1, h2⟩ := h w (getByteorder ca fa) b hp hk hs
  refine ⟨n', b', ?_, h2⟩
  unfold JBytes.encInt
  rw [bind_apply, hw]
  exact h1

theorem member_run (k : IntKind) (hk : k.Valid) (h8 : k.size ≤ 8) (v : Nat) (ca : Option CAttr) (fr : FAttr)
    (hl : fr.length = none) (m : Nat) (hm : fr.bits = some m) (hst : fr.bitsStart = false) (data : List Byte)
    (hb : k.size ≤ data.length) (hs : data.length + 0 ≤ isizeMax) :
    ∃ b', JBytes.encInt k v ca (some fr) ⟨data, data.length⟩ = (.ok k.size, b') ∧ b'.pos = b'.data.length ∧
      b'.data.length = data.length + 0 := by
  have hsz : 1 ≤ k.size := by rw [← scalar_size hk]; exact Scalar.size_pos _
  have hw : wsub data.length k.size = data.length - k.size := by unfold wsub; rw [if_pos hb]
  have ht : FixedRead true k.size k.size (takeUint k.size (getByteorder ca (some fr))) :=
    FixedRead.takeUint k.size hsz h8 _
  have hr : Room k.size k.size ⟨data, data.length - k.size⟩ := by
    have := isizeMax_lt
    exact ⟨by show data.length ≤ _; omega, by show data.length - k.size + k.size < _; omega,
      by show data.length - k.size + k.size < _; omega⟩
  have he : Enough k.size ⟨data, data.length - k.size⟩ := .inr (by show data.length - k.size + k.size ≤ data.length; omega)
  have h1 : ∃ prev, takeUint k.size (getByteorder ca (some fr)) ⟨data, data.length - k.size⟩ =
      (.ok prev, ⟨data, data.length⟩) := by
    rcases ht.enough _ _ hr hr he he rfl with ⟨prev, h1, _⟩ | ⟨h, _⟩
    · refine ⟨prev, ?_⟩
      rw [h1]
      show (_, (⟨data, data.length - k.size + k.size⟩ : Buf)) = _
      rw [Nat.sub_add_cancel hb]
    · cases h
  obtain ⟨prev, h1⟩ := h1
  have h2 : encBits k v (getByteorder ca (some fr)) (some fr) ⟨data, data.length⟩ =
      (.ok (bitsShl k (8 * k.size) v (fromU64 k m) ||| fromU64 k prev), ⟨data, data.length - k.size⟩) := by
    unfold encBits
    simp only [hm, hst, Bool.false_eq_true, if_false, bind_apply, getPos_apply, setPos_apply, hw, h1, pure_apply]
  generalize bitsShl k (8 * k.size) v (fromU64 k m) ||| fromU64 k prev = w at h2
  have hlen : (toBytes (getByteorder ca (some fr)) k.scalar.size w).length = k.size := by
    rw [toBytes_length, scalar_size hk]
  have hwl : (writeAt data (data.length - k.size) (toBytes (getByteorder ca (some fr)) k.scalar.size w)).length =
      data.length := by
    rw [writeAt_length _ _ _ (.inr (by omega)), hlen]
    omega
  refine ⟨⟨writeAt data (data.length - k.size) (toBytes (getByteorder ca (some fr)) k.scalar.size w), data.length⟩,
    ?_, ?_, ?_⟩
  · unfold JBytes.encInt
    rw [bind_apply, h2]
    simp only [Option.bind_some, hl]
    rw [pushScalar_eq, push_apply _ _ (by rw [hlen]; show data.length - k.size + k.size ≤ _; omega)
      (.inr (by show data.length - k.size ≤ data.length; omega)), hlen]
    show (_, (⟨_, data.length - k.size + k.size⟩ : Buf)) = _
    rw [Nat.sub_add_cancel hb]
  · show data.length = (writeAt _ _ _).length
    rw [hwl]
  · show (writeAt _ _ _).length = data.length + 0
    rw [hwl]; rfl

theorem FixedWrite.member (k : IntKind) (hk : k.Valid) (h8 : k.size ≤ 8) (v : Nat) (ca : Option CAttr) (fr : FAttr)
    (hl : fr.length = none) (m : Nat) (hm : fr.bits = some m) (hst : fr.bitsStart = false) :
    FixedWrite k.size 0 (JBytes.encInt k v ca (some fr)) := by
  intro b hp hb hs
  obtain ⟨data, pos⟩ := b
  change pos = data.length at hp
  subst hp
  obtain ⟨b', h1, h2, h3⟩ := member_run k hk h8 v ca fr hl m hm hst data hb hs
  exact ⟨_, b', h1, h2, h3⟩

/-- Filler bytes. -/
theorem FixedWrite.pad {off : Nat} {a : FieldAttrs V} (ha : (a.offset = none ∧ off = 0) ∨
    ∃ e, a.offset = some e ∧ ∀ env, e env = off) (env : Env V) {back size : Nat} {f : Unit → M Nat}
    (hf : FixedWrite back size (f ())) : FixedWrite (back - off) (off + size) (padOffset a env >>= f) := by
  have loop : ∀ (x : Byte) (n : Nat) (b : Buf), b.pos = b.data.length → b.data.length + n ≤ isizeMax →
      ∃ b', padLoop x n b = (.ok (), b') ∧ b'.pos = b'.data.length ∧ b'.data.length = b.data.length + n := by
    intro x n
    induction n with
    | zero => intro b hp _; exact ⟨b, rfl, hp, rfl⟩
    | succ n ih =>
      intro b hp hs
      obtain ⟨k, b1, e1, h1, h2⟩ := FixedWrite.pushU8 x b hp (Nat.zero_le _) (by omega)
      obtain ⟨b2, e2, h3, h4⟩ := ih b1 h1 (by omega)
      exact ⟨b2, by rw [padLoop, bind_apply, e1]; exact e2, h3, by omega⟩
  have h : ∃ x, padOffset a env = padLoop x off := by
    unfold padOffset
    rcases ha with ⟨h1, h2⟩ | ⟨e, h1, h2⟩
    · rw [h1, h2]; exact ⟨0, rfl⟩
    · rw [h1]; exact ⟨a.full, by simp only [h2]⟩
  obtain ⟨x, hx⟩ := h
  intro b hp hb hs
  obtain ⟨b1, e1, h1, h2⟩ := loop x off b hp (by omega)
  obtain ⟨n, b2, e2, h3, h4⟩ := hf b1 h1 (by omega) (by omega)
  exact ⟨n, b2, by rw [bind_apply, hx, e1]; exact e2, h3, by omega⟩

theorem FixedWrite.toCode {back size : Nat} {a : FieldAttrs V} {env : Env V}
    (ho : ∀ e env, a.byteorder = some (.expr e) → e env = 0 ∨ e env = 1) {f : Option FAttr → M Nat}
    (hs : (a.isUse && a.anySet) = true → ∀ o, FixedWrite back size (f (some (a.modifiers o env))))
    (hn : (a.isUse && a.anySet) = false → FixedWrite back size (f none)) :
    FixedWrite back size (a.toCode env >>= f) := by
  have key : ∀ (x : Option FAttr), (∀ b, a.toCode env b = (.ok x, b)) → (a.toCode env >>= f) = f x := by
    intro x hx
    funext b
    rw [bind_apply, hx]
  unfold FieldAttrs.toCode at key ⊢
  by_cases h : (a.isUse && a.anySet) = true
  · rw [if_pos h] at key ⊢
    unfold orderCode at key ⊢
    cases hb : a.byteorder with
    | none =>
      simp only [hb] at key ⊢
      rw [key _ fun b => rfl]
      exact hs h _
    | some o =>
      cases o with
      | lit o =>
        simp only [hb] at key ⊢
        rw [key _ fun b => rfl]
        exact hs h _
      | expr e =>
        simp only [hb] at key ⊢
        rcases ho e env hb with h0 | h0
        · simp only [h0] at key ⊢
          rw [key _ fun b => rfl]
          exact hs h _
        · simp only [h0] at key ⊢
          rw [key _ fun b => rfl]
          exact hs h _
  · rw [if_neg h] at key ⊢
    rw [key _ fun b => rfl]
    exact hn (by simpa using h)

theorem FixedWrite.encField {f : Field V} {s : PutPlace V} (ha : PutAttrs f.attrs s) {env : Env V} {ca : Option CAttr}
    {fa : Option FAttr} (h : ∀ v, s.vals v → FixedWrite s.back s.size (f.enc v ca fa)) (v : V) (hv : s.vals v) :
    FixedWrite (putBack f.attrs s) (putSize f.attrs s) (encField f env v ca fa) := by
  unfold JBytes.encField putBack putSize FieldAttrs.isWritten
  rw [ha.custom]
  by_cases hs : (f.attrs.skip || f.attrs.skipEncode) = true
  · simp only [hs, if_true, Bool.not_true, Bool.false_and, Bool.false_eq_true, if_false]
    exact FixedWrite.pure 0
  · simp only [Bool.not_eq_true] at hs
    simp only [hs, Bool.not_false, Bool.true_and, Bool.false_eq_true, if_false]
    have ht : encText f.attrs v ca fa = Pure.pure 0 := by unfold encText; rw [ha.fromStr]
    rw [ht]
    by_cases hw : (f.attrs.bits.isSome || !f.attrs.untake) = true
    · simp only [hw, if_true]
      have hp : FixedWrite (s.back - s.off) (s.off + s.size) (encPlain f env v ca fa) := by
        unfold encPlain
        refine FixedWrite.pad ha.offset env ?_
        cases hg : f.attrs.valueEncode with
        | none => exact h v hv
        | some g => exact h _ (ha.value g hg env v hv)
      exact ((FixedWrite.pure 0).bind fun _ => hp.fmap _).cast (by omega) (by omega)
    · simp only [hw, if_false, Bool.false_eq_true]
      exact (FixedWrite.pure 0).bind fun _ => FixedWrite.pure _

theorem FixedWrite.encFields (keep : Bool) (Q : Option FAttr → Prop) (ps : List (Field V × PutPlace V)) :
    (∀ p ∈ ps, PutAttrs p.1.attrs p.2) →
    (∀ p ∈ ps, PassesOn keep Q p.1.attrs p.2.under) →
    (∀ p ∈ ps, ∀ v ca fa, p.2.vals v → p.2.under fa → FixedWrite p.2.back p.2.size (p.1.enc v ca fa)) →
    ∀ (ca : Option CAttr) (old : Option FAttr) (env : Env V) (vs : List V), Q old → Valued ps vs →
      FixedWrite (putBacks ps) (putSizes ps) (encFields keep (ps.map Prod.fst) ca old env vs) := by
  induction ps with
  | nil => intro _ _ _ ca old env vs _ _; exact FixedWrite.pure _
  | cons p ps ih =>
    intro ha hp hd ca old env vs hq hvs
    cases vs with
    | nil => exact hvs.elim
    | cons v vs =>
      have hp0 := List.mem_cons_self (a := p) (l := ps)
      have key : ∀ fa, p.2.under fa → Q fa → FixedWrite (putBacks (p :: ps)) (putSizes (p :: ps)) (do
          let n ← JBytes.encField p.1 env v ca fa
          let m ← JBytes.encFields keep (ps.map Prod.fst) ca fa (env.push v) vs
          return n + m) := by
        intro fa hg hqa
        exact (FixedWrite.encField (ha p hp0) (fun v hv => hd p hp0 v ca fa hv hg) v hvs.1).add
          (ih (fun q hm => ha q (List.mem_cons_of_mem _ hm)) (fun q hm => hp q (List.mem_cons_of_mem _ hm))
            (fun q hm => hd q (List.mem_cons_of_mem _ hm)) _ fa _ vs hqa hvs.2)
      rw [List.map_cons, JBytes.encFields]
      by_cases hk : (keep && !p.1.attrs.isUse) = true
      · rw [if_pos hk]
        simp only [Bool.and_eq_true, Bool.not_eq_true'] at hk
        exact key old ((hp p hp0).kept hk.1 hk.2 old hq) hq
      · rw [if_neg hk]
        refine FixedWrite.toCode (ha p hp0).order (fun h o => ?_) fun h => ?_
        · exact key _ ((hp p hp0).set h o env).1 ((hp p hp0).set h o env).2
        · have hk' : keep = false ∨ p.1.attrs.isUse = true := by
            cases keep <;> simp_all
          exact key none ((hp p hp0).unset h hk').1 ((hp p hp0).unset h hk').2

theorem FixedWrite.encTagMode {E : EnumDef V} {v : Variant V} {fa : Option FAttr} {w : Nat} (h : PutTag E v fa w)
    (num : Nat) (ca : Option CAttr) : FixedWrite 0 w (encTagMode E v num ca fa) := by
  unfold JBytes.encTagMode
  unfold PutTag at h
  cases hm : E.mode with
  | startsWith u =>
    rw [hm] at h
    cases u with
    | false => change w = _ at h; subst h; exact FixedWrite.push _
    | true => change w = _ at h; subst h; exact FixedWrite.pure _
  | takeBytes k => rw [hm] at h; change w = _ at h; subst h; exact FixedWrite.push _
  | uint =>
    simp only [hm] at h ⊢
    have hbyte : FixedWrite 0 (if E.byteCountDisable then 0 else 1) (encTagByte E.byteCountDisable num) := by
      unfold encTagByte
      split
      · exact FixedWrite.pure _
      · exact FixedWrite.pushU8 _
    unfold encTag
    cases fa with
    | none =>
      cases ho : E.container.bind (·.byteCount) with
      | none =>
        simp only [ho, Option.bind_none] at h ⊢
        subst h
        exact hbyte
      | some k =>
        simp only [ho, Option.bind_none] at h ⊢
        obtain ⟨rfl, h8⟩ := h
        exact FixedWrite.pushUint _ _ _ h8
    | some fr =>
      simp only [Option.bind_some] at h ⊢
      cases hb : fr.branch with
      | some n =>
        simp only [hb] at h ⊢
        subst h
        exact FixedWrite.pure _
      | none =>
        cases ho : E.container.bind (·.byteCount) with
        | some k =>
          simp only [hb, ho] at h ⊢
          obtain ⟨rfl, h8⟩ := h
          exact FixedWrite.pushUint _ _ _ h8
        | none =>
          cases hc : fr.byteCount with
          | some k =>
            simp only [hb, ho, hc] at h ⊢
            obtain ⟨rfl, h8⟩ := h
            exact FixedWrite.pushUint _ _ _ h8
          | none =>
            simp only [hb, ho, hc] at h ⊢
            subst h
            exact hbyte

theorem FixedEnc.writes {G : Option FAttr → Prop} {P : α → Prop} {n s : Nat} {e : Enc α} (h : FixedEnc G P n s e) :
    ∀ (v : α) (ca : Option CAttr) (fa : Option FAttr), P v → G fa → FixedWrite n s (e v ca fa) := by
  induction h with
  | int k hk =>
    intro v ca fa _ hg
    refine FixedWrite.encInt k v ca fa hg.2 fun v o => ?_
    rw [hg.1]
    exact (FixedWrite.pushScalar _ _ _).cast (Nat.le_refl _) (scalar_size hk)
  | width k n h8 hn =>
    intro v ca fa _ hg
    refine FixedWrite.encInt k v ca fa hg.2 fun v o => ?_
    rw [hg.1]
    simp only
    rw [if_neg (by omega)]
    exact FixedWrite.pushUint _ _ _ h8
  | member k hk h8 =>
    intro v ca fa _ hg
    cases fa with
    | none => exact absurd hg.2.2 (by simp)
    | some fr =>
      obtain ⟨h1, h2, h3⟩ := hg
      obtain ⟨m, hm⟩ := Option.isSome_iff_exists.mp h2
      exact FixedWrite.member k hk h8 v ca fr h1 m hm (by simpa using h3)
  | f32 => intro v ca fa _ _; exact FixedWrite.pushScalar .f32 _ _
  | f64 => intro v ca fa _ _; exact FixedWrite.pushScalar .f64 _ _
  | bool => intro v ca fa _ _; exact FixedWrite.pushU8 _
  | char => intro v ca fa _ _; exact FixedWrite.pushU8 _
  | octets n =>
    intro v ca fa hv _
    change v.length = n at hv
    subst hv
    exact FixedWrite.octets v _
  | ip n =>
    intro v ca fa hv _
    cases v with
    | v4 o => change o.length = n at hv; subst hv; exact FixedWrite.octets o _
    | v6 o => change o.length = n at hv; subst hv; exact FixedWrite.octets o _
  | mac => intro v ca fa _ _; exact FixedWrite.pushUint _ _ _ (by decide)
  | unit => intro v ca fa _ _; exact FixedWrite.pure 0
  | bytes n =>
    intro v ca fa hv hg
    cases fa with
    | none => exact absurd hg.1 (by simp)
    | some fr =>
      obtain ⟨h1, h2, h3⟩ := hg
      obtain ⟨m, hm⟩ := Option.isSome_iff_exists.mp h1
      change fr.length = some m at hm
      change fr.key = none at h2
      change fr.split = none at h3
      change v.length = n at hv
      subst hv
      unfold encBytes encBytesPrefix encBytesEnd
      simp only [Option.bind_some, h2, h3, hm, pushOpt, Option.isSome_some, if_true]
      exact ((FixedWrite.pure 0).bind fun _ => (FixedWrite.pure 0).bind fun _ => (FixedWrite.pure 0).bind fun _ =>
        (FixedWrite.push v).bind fun _ => (FixedWrite.pure 0).fmap _).cast (by omega) (by omega)
  | array k _ ih =>
    intro v ca fa hv hg
    exact (FixedWrite.encAll (fun a ha => ih a ca fa ha hg) v hv.2).cast (Nat.le_refl _) (by rw [hv.1])
  | vec k _ ih =>
    intro v ca fa hv hg
    cases fa with
    | none => exact absurd hg.2.1 (by simp)
    | some fr =>
      obtain ⟨h1, h2, h3, h4⟩ := hg
      change fr.count.isSome = true at h2
      change fr.byteCountOutside = none at h3
      change fr.loopSkipStarts = none at h4
      unfold encVec pushCount
      simp only [Option.bind_some, h2, h3, h4, if_true]
      exact ((FixedWrite.pure 0).add (FixedWrite.encAll (fun a ha => ih a ca _ ha h1) v hv.2)).cast (by omega)
        (by rw [hv.1]; omega)
  | map k _ _ ihk ihv =>
    intro v ca fa hv hg
    cases fa with
    | none => exact absurd hg.2.2.1 (by simp)
    | some fr =>
      obtain ⟨h1, h2, h3, h4⟩ := hg
      change fr.count.isSome = true at h3
      change fr.byteCountOutside = none at h4
      unfold encMap pushCount
      simp only [h3, h4, if_true]
      exact ((FixedWrite.pure 0).add (FixedWrite.encAll
        (fun a ha => (ihk a.1 ca _ ha.1 h1).add (ihv a.2 ca _ ha.2 h2)) v hv.2)).cast (by omega) (by rw [hv.1]; omega)
  | pair _ _ ih1 ih2 =>
    intro v ca fa hv hg
    obtain ⟨a, as, rfl, ha, has⟩ := hv
    exact (ih1 a ca fa ha hg).add (ih2 as ca fa has hg)
  | done => intro v ca fa hv _; subst hv; exact FixedWrite.pure 0
  | project g _ ih =>
    intro v ca fa hv hg
    obtain ⟨a, h1, h2⟩ := hv
    simp only [h1, encOption]
    exact ih a ca fa h2 hg
  | weaken _ hi hp ih => intro v ca fa hv hg; exact ih v ca fa (hp v hv) (hi fa hg)
  | struct S ps hw hf ha hp _ ih =>
    intro v ca fa hv _
    unfold encStruct
    rw [hw, hf]
    exact FixedWrite.encFields false (fun _ => True) ps ha hp (fun p hm v ca fa hv hg => ih p hm v ca fa hv hg) _ none _ v
      trivial hv
  | enum E vs Q n w s hv hf hl ho hor hpv hfa hp _ ih =>
    intro v ca fa hvs hg
    obtain ⟨x, hx, hval⟩ := hvs
    have hmem : x ∈ vs := List.mem_of_getElem? hx
    have hlen : E.numbers.length = E.variants.length := variantNumbers_length _ _
    unfold encEnum
    have hz : ∃ num, (E.variants.zip E.numbers)[v.1]? = some (x.variant, num) := by
      obtain ⟨hlt, hx'⟩ := List.getElem?_eq_some_iff.mp hx
      have hlt' : v.1 < E.variants.length := by rw [hv, List.length_map]; exact hlt
      refine ⟨E.numbers[v.1]'(by omega), List.getElem?_eq_some_iff.mpr ⟨by rw [List.length_zip]; omega, ?_⟩⟩
      rw [List.getElem_zip]
      congr 1
      simp only [hv, List.getElem_map, hx']
    obtain ⟨num, hz⟩ := hz
    rw [hz]
    simp only
    unfold encVariant
    have key : ∀ old, Q old → FixedWrite n (w + s) (do
        let n ← JBytes.encTagMode E x.variant num ca fa
        JBytes.padOffset x.variant.attrs { vars := localVars E.getVars ca }
        let m ← JBytes.encFields true x.variant.fields E.container old { vars := localVars E.getVars ca } v.2
        return n + m) := by
      intro old hq
      have h1 : FixedWrite (putBacks x.places) (putSizes x.places) (JBytes.encFields true x.variant.fields E.container
          old { vars := localVars E.getVars ca } v.2) := by
        rw [hf x hmem]
        exact FixedWrite.encFields true Q _ (hfa x hmem) (hp x hmem) (fun p hm v ca fa hv hg => ih x hmem p hm v ca fa hv hg)
          _ old _ v.2 hq hval
      have h2 := (FixedWrite.encTagMode (hg x hmem) num ca).bind fun k =>
        FixedWrite.pad (ho x hmem) { vars := localVars E.getVars ca } (f := fun _ => do
          let m ← JBytes.encFields true x.variant.fields E.container old { vars := localVars E.getVars ca } v.2
          return k + m) (h1.fmap _)
      exact h2.cast (by have := (hl x hmem).1; omega) (by have := (hl x hmem).2; omega)
    exact FixedWrite.toCode (hor x hmem) (fun h o => key _ ((hpv x hmem).set h o _).2)
      fun h => key none ((hpv x hmem).unset h (.inl rfl)).2

end JBytes
