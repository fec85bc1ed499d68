import Verif.Sorting
import Verif.PropAddr
import Verif.Reencode
import Verif.PropEnum
/-!
# C114: big-endian encodings are ordered like the values
-/

namespace JBytes
open M

variable {α β V : Type}

/-- Modifiers of a field that are for the codec of its type, or `offset`, or `value_encode`. -/
structure Direct (a : FieldAttrs V) : Prop where
  withEncode : a.withEncode = none
  skip : a.skip = false
  skipEncode : a.skipEncode = false
  fromStr : a.fromStr = none
  untake : a.untake = false
  byteorder : ∀ e, a.byteorder ≠ some (.expr e)

/-- The literal byte order of a field. -/
def litOrder : Option (OrderAttr V) → Option ByteOrder
  | some (.lit o) => some o
  | _ => none

/-- The modifiers the codec of a field gets. -/
def modsOf (a : FieldAttrs V) (env : Env V) : Option FAttr :=
  if a.isUse && a.anySet then some (a.modifiers (litOrder a.byteorder) env) else none

/-- What `value_encode` makes of the value. -/
def handedOn (a : FieldAttrs V) (env : Env V) (v : V) : V :=
  match a.valueEncode with
  | some g => g env v
  | none => v

/-- `h` keeps the order and is injective. -/
def Lifts (h : α → β) (P : α → Prop) (c : α → α → Ordering) (P' : β → Prop) (c' : β → β → Ordering) : Prop :=
  ∀ v, P v → P' (h v) ∧ ∀ w, P w → c v w = c' (h v) (h w) ∧ (h v = h w → v = w)

theorem Lifts.same {f : FieldAttrs V} (h : f.valueEncode = none) (env : Env V) (P : V → Prop) (c : V → V → Ordering) :
    Lifts (handedOn f env) P c P c := by
  have e : ∀ v, handedOn f env v = v := fun v => by simp only [handedOn, h]
  intro v hv
  exact ⟨by rw [e]; exact hv, fun w _ => ⟨by rw [e, e], by rw [e, e]; exact id⟩⟩

theorem Sorts.lift {P : α → Prop} {c : α → α → Ordering} {P' : β → Prop} {c' : β → β → Ordering} {m : β → M Nat} {h : α → β}
    (hm : Sorts P' c' m) (hh : Lifts h P c P' c') : Sorts P c (fun v => m (h v)) := by
  intro v w hv hw
  obtain ⟨h0, x, y, h1, h2, h3⟩ := hm (h v) (h w) (hh v hv).1 (hh w hw).1
  obtain ⟨e1, e2⟩ := (hh v hv).2 w hw
  exact ⟨by rw [e1, h0]; exact ⟨e2, fun h => by rw [h]⟩, x, y, h1, h2, by rw [e1]; exact h3⟩

/-- Constant bytes before. -/
theorem Sorts.padded {P : α → Prop} {c : α → α → Ordering} {m : α → M Nat} (hm : Sorts P c m) (a : FieldAttrs V) (env : Env V) :
    Sorts P c (fun v => padOffset a env >>= fun _ => m v) := by
  have hpad : ∃ p, ∀ pre : List Byte, pre.length + p.length ≤ isizeMax →
      padOffset a env ⟨pre, pre.length⟩ = (.ok (), ⟨pre ++ p, pre.length + p.length⟩) := by
    cases ho : a.offset with
    | none => exact ⟨[], fun pre _ => by simp [padOffset, ho, pure_apply]⟩
    | some e =>
      refine ⟨List.replicate (e env) a.full, fun pre hp => ?_⟩
      rw [List.length_replicate] at hp ⊢
      simp only [padOffset, ho]
      exact padLoop_end a.full (e env) pre hp
  obtain ⟨p, hp⟩ := hpad
  have hw : ∀ v x, Writes (m v) x → Writes (padOffset a env >>= fun _ => m v) (p ++ x) := by
    intro v x h pre hl
    rw [List.length_append] at hl
    obtain ⟨n, hn⟩ := h (pre ++ p) (by rw [List.length_append]; omega)
    refine ⟨n, ?_⟩
    rw [bind_apply, hp pre (by omega)]
    simp only
    rw [List.length_append] at hn
    rw [hn]
    simp [List.append_assoc, Nat.add_assoc]
  intro v w hv hw'
  obtain ⟨h0, x, y, h1, h2, h3⟩ := hm v w hv hw'
  refine ⟨h0, p ++ x, p ++ y, hw v x h1, hw w y h2, fun s t => ?_⟩
  rw [List.append_assoc, List.append_assoc, byteCmp_same, h3]

theorem toCode_literal {a : FieldAttrs V} (h : ∀ e, a.byteorder ≠ some (.expr e)) (env : Env V) :
    a.toCode env = Pure.pure (modsOf a env) := by
  unfold FieldAttrs.toCode modsOf
  cases hu : (a.isUse && a.anySet) with
  | false => rfl
  | true =>
    simp only [if_true]
    cases ho : a.byteorder with
    | none => rfl
    | some o =>
      cases o with
      | lit o => rfl
      | expr e => exact absurd ho (h e)

theorem Direct.fieldEnc {f : Field V} (h : Direct f.attrs) (ca : Option CAttr) (env : Env V) (v : V) (b : Buf) :
    fieldEnc f ca env v b = (padOffset f.attrs env >>= fun _ => f.enc (handedOn f.attrs env v) ca (modsOf f.attrs env)) b := by
  have hc : f.attrs.toCode env b = (.ok (modsOf f.attrs env), b) := by rw [toCode_literal h.byteorder]; rfl
  unfold JBytes.fieldEnc
  rw [bind_apply, hc]
  simp only [encField, h.withEncode, h.skip, h.skipEncode, h.fromStr, h.untake, encText, encPlain,
    Bool.or_self, Bool.false_eq_true, if_false, bind_apply, pure_apply, Bool.not_false, Bool.or_true, if_true]
  rcases padOffset f.attrs env b with ⟨o, b1⟩
  cases o with
  | ok _ =>
    simp only [handedOn]
    cases f.attrs.valueEncode with
    | none =>
      simp only
      rcases f.enc v ca (modsOf f.attrs env) b1 with ⟨o, b2⟩
      cases o <;> simp
    | some g =>
      simp only
      rcases f.enc (g env v) ca (modsOf f.attrs env) b1 with ⟨o, b2⟩
      cases o <;> simp
  | _ => rfl

/-- How the length of a list is handedOn: in `k` bytes, the first one first. -/
def Counted (k : Nat) (ca : Option CAttr) (fa : Option FAttr) : Prop :=
  (fa = none ∧ k = 1) ∨ ∃ fr, fa = some fr ∧ fr.loopSkipStarts = none ∧
    ((fr.byteCountOutside = some k ∧ k ≤ 8 ∧ getByteorder ca fa = .be) ∨
      (fr.byteCountOutside = none ∧ fr.count = none ∧ fr.tryCount = none ∧ k = 1))

/-- How the number of a variant is handedOn: in `k` bytes. -/
def TagBytes (k : Nat) (E : EnumDef V) : Prop :=
  E.mode = .uint ∧ ((E.container.bind (·.byteCount) = some k ∧ k ≤ 8) ∨
    (E.container.bind (·.byteCount) = none ∧ E.byteCountDisable = false ∧ k = 1))

/-- In a variant a field without modifiers gets those of the field before it, or of the variant; here no field does, because
fields without modifiers stand before those with modifiers. -/
def Settled (v : Variant V) : Prop :=
  (∀ e, v.attrs.byteorder ≠ some (.expr e)) ∧ (v.attrs.isUse = false ∨ ∀ f ∈ v.fields, f.attrs.isUse = true) ∧
    v.fields.Pairwise fun f g => f.attrs.isUse = true → g.attrs.isUse = true

/-- Order of the values of an enum: by variant, in the order of declaration, then by the fields (`derive(Ord)`). -/
def cmpVariant (E : EnumDef V) (ord : Field V → V → V → Ordering) (x y : Nat × List V) : Ordering :=
  (compare x.1 y.1).then (match E.variants[x.1]? with
    | some v => cmpEach (v.fields.map ord) x.2 y.2
    | none => .eq)

/-- Types whose encodings are ordered like the values: `P` are the values, `cmp` their order, and `G` the modifiers
under which it holds. -/
inductive Sortable : (α : Type) → (α → Prop) → (α → α → Ordering) → (Option CAttr → Option FAttr → Prop) → Enc α → Prop where
  /-- Unsigned numbers in big-endian order. -/
  | int (k : IntKind) : k.Valid → k.signed = false → Sortable Nat (fun v => v < 256 ^ k.size) compare
      (fun ca fa => getByteorder ca fa = .be ∧ fa.bind (·.bits) = none ∧ fa.bind (·.length) = none) (encInt k)
  /-- Numbers of a signed type that are not negative, in big-endian order. -/
  | nonneg (k : IntKind) : k.Valid → Sortable Nat (fun v => 2 * v < 256 ^ k.size) compare
      (fun ca fa => getByteorder ca fa = .be ∧ fa.bind (·.bits) = none ∧ fa.bind (·.length) = none) (encInt k)
  /-- Numbers in `n` bytes. -/
  | narrow (k : IntKind) (n : Nat) : k.signed = false → n ≤ k.size → n ≤ 8 → Sortable Nat (fun v => v < 256 ^ n) compare
      (fun ca fa => getByteorder ca fa = .be ∧ fa.bind (·.bits) = none ∧ fa.bind (·.length) = some n) (encInt k)
  | char : Sortable Nat (fun v => v < 256 ^ 1) compare (fun _ _ => True) encChar
  | bool : Sortable Bool (fun _ => True) (fun a b => compare a.toNat b.toNat) (fun _ _ => True) encBool
  | ip (n : Nat) : Sortable (List Byte) (fun d => d.length = n) byteCmp (fun ca fa => getByteorder ca fa = .be) encIp
  | mac : Sortable (List Byte) (fun d => d.length = 6) byteCmp (fun ca fa => getByteorder ca fa = .be) encMac
  /-- Byte strings of one length, under any framing. -/
  | bytes (n : Nat) : Sortable (List Byte) (fun d => d.length = n) byteCmp
      (fun _ fa => ∀ k, framingOf fa = .lenN k → k ≤ 8) encBytes
  /-- Byte strings behind their length: the shorter one first. -/
  | prefixed (k : Nat) : Sortable (List Byte) (fun d => d.length < 256 ^ k)
      (fun d e => (compare d.length e.length).then (byteCmp d e))
      (fun ca fa => (framingOf fa = .len8 ∧ k = 1) ∨ (framingOf fa = .lenN k ∧ k ≤ 8 ∧ effectiveOrder ca fa = .be)) encBytes
  /-- Lists behind their length: the shorter one first. -/
  | vec (k : Nat) {α : Type} {P : α → Prop} {cmp : α → α → Ordering} {G : Option CAttr → Option FAttr → Prop} {e : Enc α} :
      Sortable α P cmp G e → Sortable (List α) (fun l => l.length < 256 ^ k ∧ ∀ a ∈ l, P a)
        (fun l r => (compare l.length r.length).then (lexCmp cmp l r)) (fun ca fa => G ca fa ∧ Counted k ca fa) (encVec e)
  | array (n : Nat) {α : Type} {P : α → Prop} {cmp : α → α → Ordering} {G : Option CAttr → Option FAttr → Prop} {e : Enc α} :
      Sortable α P cmp G e → Sortable (List α) (fun l => l.length = n ∧ ∀ a ∈ l, P a) (lexCmp cmp) G (encArray e)
  | tuple {α : Type} {G : Option CAttr → Option FAttr → Prop} (ts : List (Enc α × (α → Prop) × (α → α → Ordering))) :
      (∀ t ∈ ts, Sortable α t.2.1 t.2.2 G t.1) →
      Sortable (List α) (Each (ts.map (·.2.1))) (cmpEach (ts.map (·.2.2))) G (encTuple (ts.map (·.1)))
  /-- A type seen as a part of a sum type. -/
  | project {α β : Type} {P : α → Prop} {cmp : α → α → Ordering} {G : Option CAttr → Option FAttr → Prop} {e : Enc α}
      (g : β → Option α) : (∀ v w a, g v = some a → g w = some a → v = w) → Sortable α P cmp G e →
      ∀ c : β → β → Ordering, (∀ v w a b, g v = some a → g w = some b → c v w = cmp a b) →
      Sortable β (fun v => ∃ a, g v = some a ∧ P a) c G (fun v ca fa => encOption e (g v) ca fa)
  | weaken {α : Type} {P P' : α → Prop} {cmp : α → α → Ordering} {G G' : Option CAttr → Option FAttr → Prop} {e : Enc α} :
      Sortable α P cmp G e → (∀ v, P' v → P v) → (∀ ca fa, G' ca fa → G ca fa) → Sortable α P' cmp G' e
  /-- Structs are ordered by their first field, then by the second one, and so on; what a field may be can depend on
  the fields before it. -/
  | struct {V : Type} (S : StructDef V) (dom dom' : Field V → Env V → V → Prop) (ord ord' : Field V → V → V → Ordering)
      (G : Field V → Env V → Option CAttr → Option FAttr → Prop) : S.withEncode = none →
      (∀ f ∈ S.fields, Direct f.attrs) →
      (∀ f ∈ S.fields, ∀ env, Lifts (handedOn f.attrs env) (dom f env) (ord f) (dom' f env) (ord' f)) →
      (∀ f ∈ S.fields, ∀ env, Sortable V (dom' f env) (ord' f) (G f env) f.enc) →
      (∀ f ∈ S.fields, ∀ env, G f env S.container (modsOf f.attrs env)) → S.getVars = [] →
      Sortable (List V) (InFields dom S.fields {}) (cmpEach (S.fields.map ord)) (fun _ _ => True) (encStruct S)
  /-- Enums whose variants have ascending numbers, and in which no field takes over the modifiers of another one. -/
  | enum {V : Type} (E : EnumDef V) (k : Nat) (dom dom' : Field V → Env V → V → Prop) (ord ord' : Field V → V → V → Ordering)
      (G : Field V → Env V → Option CAttr → Option FAttr → Prop) : E.getVars = [] → TagBytes k E →
      (∀ i j x y : Nat, i < j → E.numbers[i]? = some x → E.numbers[j]? = some y → x < y) → (∀ n ∈ E.numbers, n < 256 ^ k) →
      (∀ v ∈ E.variants, Settled v) → (∀ v ∈ E.variants, ∀ f ∈ v.fields, Direct f.attrs) →
      (∀ v ∈ E.variants, ∀ f ∈ v.fields, ∀ env, Lifts (handedOn f.attrs env) (dom f env) (ord f) (dom' f env) (ord' f)) →
      (∀ v ∈ E.variants, ∀ f ∈ v.fields, ∀ env, Sortable V (dom' f env) (ord' f) (G f env) f.enc) →
      (∀ v ∈ E.variants, ∀ f ∈ v.fields, ∀ env, G f env E.container (modsOf f.attrs env)) →
      Sortable (Nat × List V) (fun x => ∃ v, E.variants[x.1]? = some v ∧ InFields dom v.fields {} x.2) (cmpVariant E ord)
        (fun ca fa => getByteorder ca fa = .be ∧ fa.bind (·.branch) = none ∧ fa.bind (·.byteCount) = none) (encEnum E)

theorem toBytes_be {o : ByteOrder} (h : o = .be) (k v : Nat) : toBytes o k v = toBE k v := by subst h; rfl

theorem toBE_single (v : Nat) : toBE 1 v = [UInt8.ofNat v] := by simp [toBE]

theorem pushCount_writes {k : Nat} {ca : Option CAttr} {fa : Option FAttr} (h : Counted k ca fa) (n : Nat) :
    Writes (pushCount ca fa n) (toBE k n) := by
  rcases h with ⟨rfl, rfl⟩ | ⟨fr, rfl, _, ⟨h1, h2, h3⟩ | ⟨h1, h2, h3, rfl⟩⟩
  · rw [toBE_single]
    exact (Appends.push _).writes
  · have := (Appends.uint n k (getByteorder ca (some fr)) h2).writes
    rw [toBytes_be h3] at this
    simpa only [pushCount, h1] using this
  · rw [toBE_single]
    have := (Appends.push [UInt8.ofNat n]).writes
    refine this.congr fun b => ?_
    simp only [pushCount, h1, h2, h3, Option.isSome_none, Bool.false_eq_true, if_false]
    rfl

theorem encTag_writes {k : Nat} {E : EnumDef V} (h : TagBytes k E) (v : Variant V) (num : Nat) {ca : Option CAttr}
    {fa : Option FAttr} (ho : getByteorder ca fa = .be) (hb : fa.bind (·.branch) = none)
    (hc : fa.bind (·.byteCount) = none) : Writes (encTagMode E v num ca fa) (toBE k num) := by
  obtain ⟨hm, ⟨h1, h2⟩ | ⟨h1, h2, rfl⟩⟩ := h
  · have := (Appends.uint num k (getByteorder ca fa) h2).writes
    rw [toBytes_be ho] at this
    refine this.congr fun b => ?_
    cases fa with
    | none => simp only [encTagMode, hm, encTag, h1]
    | some fr =>
      have hb' : fr.branch = none := hb
      simp only [encTagMode, hm, encTag, h1, hb']
  · rw [toBE_single]
    refine ((Appends.push [UInt8.ofNat num]).writes).congr fun b => ?_
    cases fa with
    | none =>
      simp only [encTagMode, hm, encTag, h1, encTagByte, h2]
      rfl
    | some fr =>
      have hb' : fr.branch = none := hb
      have hc' : fr.byteCount = none := hc
      simp only [encTagMode, hm, encTag, h1, hb', hc', encTagByte, h2]
      rfl

theorem encFields_anyOld (fs : List (Field V)) (ca : Option CAttr) (old : Option FAttr) (env : Env V) (vs : List V) :
    encFields false fs ca old env vs = encFields false fs ca none env vs := by
  cases fs with
  | nil => simp [encFields]
  | cons f fs =>
    cases vs with
    | nil => simp [encFields]
    | cons v vs => simp [encFields]

theorem encFields_settled : ∀ (fs : List (Field V)) (ca : Option CAttr) (old : Option FAttr) (env : Env V) (vs : List V),
    (old = none ∨ ∀ f ∈ fs, f.attrs.isUse = true) → fs.Pairwise (fun f g => f.attrs.isUse = true → g.attrs.isUse = true) →
    encFields true fs ca old env vs = encFields false fs ca none env vs := by
  intro fs
  induction fs with
  | nil => intro ca old env vs _ _; simp [encFields]
  | cons f fs ih =>
    intro ca old env vs ho hp
    cases vs with
    | nil => simp [encFields]
    | cons v vs =>
      obtain ⟨h1, h2⟩ := List.pairwise_cons.1 hp
      cases hu : f.attrs.isUse with
      | true =>
        have ih' := fun fa env => ih ca fa env vs (.inr fun g hg => h1 g hg hu) h2
        have e := fun fa env => encFields_anyOld fs ca fa env vs
        simp only [encFields, hu, Bool.not_true, Bool.and_false, Bool.false_eq_true, if_false, ih', e]
      | false =>
        have ho' : old = none := ho.resolve_right fun h => by rw [h f (by simp)] at hu; cases hu
        have ih' := fun env => ih ca none env vs (.inl rfl) h2
        funext b
        simp only [encFields, hu, ho', Bool.not_false, Bool.and_self, if_true, FieldAttrs.toCode, Bool.false_and,
          Bool.false_eq_true, if_false, bind_apply, pure_apply, ih']

theorem encEnum_writes {k : Nat} {E : EnumDef V} (hvars : E.getVars = []) (h : TagBytes k E) {i num : Nat} {v : Variant V}
    (hi : (E.variants.zip E.numbers)[i]? = some (v, num)) (hv : Settled v) {ca : Option CAttr} {fa : Option FAttr}
    (ho : getByteorder ca fa = .be)
    (hb : fa.bind (·.branch) = none) (hc : fa.bind (·.byteCount) = none) {vs : List V} {x : List Byte}
    (hx : Writes (padOffset v.attrs {} >>= fun _ => encFields false v.fields E.container none {} vs) x) :
    Writes (encEnum E (i, vs) ca fa) (toBE k num ++ x) := by
  refine ((encTag_writes h v num ho hb hc).seq hx).congr fun b => ?_
  have hs := encFields_settled v.fields E.container (modsOf v.attrs {}) {} vs
    (hv.2.1.imp_left fun h => by simp [modsOf, h]) hv.2.2
  unfold encEnum
  simp only [hi, encVariant, hvars, localVars, List.map_nil, toCode_literal hv.1, bind_apply, pure_apply, hs]
  rcases encTagMode E v num ca fa b with ⟨o, b1⟩
  cases o with
  | ok n =>
    simp only
    rcases padOffset v.attrs {} b1 with ⟨o, b2⟩
    cases o <;> rfl
  | _ => rfl

theorem encInt_writes {k : IntKind} (hk : k.Valid) {v : Nat} {ca : Option CAttr} {fa : Option FAttr} (h1 : getByteorder ca fa = .be)
    (h2 : fa.bind (·.bits) = none) (h3 : fa.bind (·.length) = none) : Writes (encInt k v ca fa) (toBE k.size v) := by
  have h4 : encBits k v (getByteorder ca fa) fa = Pure.pure v := by
    cases fa with
    | none => rfl
    | some fr =>
      have h2' : fr.bits = none := h2
      simp only [encBits, h2']
  have h5 : ∀ b, encInt k v ca fa b = pushScalar k.scalar v (getByteorder ca fa) b := by
    intro b
    unfold encInt
    simp only [h3]
    rw [bind_apply, h4]
    rfl
  have := (Appends.scalar k.scalar v (getByteorder ca fa)).writes
  rw [toBytes_be h1, scalar_size hk] at this
  exact this.congr h5

/-- C114 (every type of the universe): two values are encoded to byte strings that, also with something behind them,
are ordered like the values. -/
theorem Sortable.sorts {P : α → Prop} {cmp : α → α → Ordering} {G : Option CAttr → Option FAttr → Prop} {e : Enc α}
    (h : Sortable α P cmp G e) : ∀ ca fa, G ca fa → Sorts P cmp (fun v => e v ca fa) := by
  induction h with
  | int k hk _ =>
    intro ca fa ⟨h1, h2, h3⟩
    exact Sorts.number fun v _ => encInt_writes hk h1 h2 h3
  | nonneg k hk =>
    intro ca fa ⟨h1, h2, h3⟩ v w hv hw
    exact Sorts.number (k := k.size) (m := fun v => encInt k v ca fa) (fun v _ => encInt_writes hk h1 h2 h3) v w (by omega) (by omega)
  | narrow k n hu hn h8 =>
    intro ca fa ⟨h1, h2, h3⟩
    refine Sorts.number fun v hv => ?_
    have h4 : encBits k v (getByteorder ca fa) fa = Pure.pure v := by
      cases fa with
      | none => rfl
      | some fr =>
        have h2' : fr.bits = none := h2
        simp only [encBits, h2']
    have h5 : ∀ b, encInt k v ca fa b = pushUint (asU64 k v) n (getByteorder ca fa) b := by
      intro b
      unfold encInt
      simp only [h3, if_neg (Nat.not_lt.2 hn)]
      rw [bind_apply, h4]
      rfl
    have := (Appends.uint (asU64 k v) n (getByteorder ca fa) h8).writes
    rw [toBytes_be h1, ← toBE_mod, asU64_mod k v n hn h8, toBE_mod] at this
    exact this.congr h5
  | char =>
    intro ca fa _
    refine Sorts.number fun v _ => ?_
    rw [toBE_single]
    exact (Appends.push _).writes
  | bool =>
    intro ca fa _ v w _ _
    refine ⟨?_, [if v then 1 else 0], [if w then 1 else 0], (Appends.push _).writes, (Appends.push _).writes,
      fun s t => ?_⟩
    · cases v <;> cases w <;> decide
    · cases v <;> cases w <;> rfl
  | ip n =>
    intro ca fa ho
    refine Sorts.framed n [] [] fun d _ => ?_
    rw [List.nil_append, List.append_nil]
    refine ((Appends.push d).writes).congr fun b => ?_
    simp only [encIp, ho, pushByteorderArray]
  | mac =>
    intro ca fa ho
    refine Sorts.framed 6 [] [] fun d hd => ?_
    rw [List.nil_append, List.append_nil]
    have := (Appends.uint (macToBits d) 6 (getByteorder ca fa) (by decide)).writes
    rw [toBytes_be ho, macToBits_eq, ← hd, toBE_beVal, hd] at this
    rw [← macToBits_eq] at this
    exact this
  | bytes n =>
    intro ca fa hk
    have hw : ∃ p q, ∀ d : List Byte, d.length = n → bytesWire ca fa d = p ++ (d ++ q) := by
      unfold bytesWire
      cases framingOf fa with
      | len8 => exact ⟨heads fa ++ [UInt8.ofNat n], [], fun d hd => by simp [Framing.wire, hd]⟩
      | lenN k => exact ⟨heads fa ++ toBytes (effectiveOrder ca fa) k n, [], fun d hd => by simp [Framing.wire, hd]⟩
      | fixed _ => exact ⟨heads fa, [], fun d _ => by simp [Framing.wire]⟩
      | line => exact ⟨heads fa, [13, 10], fun d _ => by simp [Framing.wire]⟩
      | endWith x => exact ⟨heads fa, x, fun d _ => by simp [Framing.wire]⟩
      | rest => exact ⟨heads fa, [], fun d _ => by simp [Framing.wire]⟩
    obtain ⟨p, q, hpq⟩ := hw
    exact Sorts.framed n p q fun d hd => by rw [← hpq d hd]; exact (encBytes_appends d ca fa hk).writes
  | prefixed k =>
    intro ca fa hk v w hv hw
    have hwire : (∀ j, framingOf fa = .lenN j → j ≤ 8) ∧
        ∀ d : List Byte, bytesWire ca fa d = heads fa ++ (toBE k d.length ++ d) := by
      rcases hk with ⟨h1, rfl⟩ | ⟨h1, h2, h3⟩
      · exact ⟨(fun j hj => by rw [h1] at hj; cases hj), fun d => by simp [bytesWire, h1, Framing.wire, toBE_single]⟩
      · exact ⟨(fun j hj => by rw [h1] at hj; cases hj; exact h2), fun d => by
          simp [bytesWire, h1, Framing.wire, toBytes_be h3]⟩
    refine ⟨?_, _, _, (encBytes_appends v ca fa hwire.1).writes, (encBytes_appends w ca fa hwire.1).writes,
      fun s t => ?_⟩
    · rw [Ordering.then_eq_eq]
      exact ⟨fun h => byteCmp_eq v w h.2, fun h => by subst h; exact ⟨Nat.compare_eq_eq.2 rfl, byteCmp_self v⟩⟩
    · rw [hwire.2, hwire.2]
      simp only [List.append_assoc]
      rw [byteCmp_same, byteCmp_toBE k _ _ hv hw, Ordering.then_assoc']
      by_cases hl : v.length = w.length
      · rw [byteCmp_append v w s t hl]
      · have : compare v.length w.length ≠ .eq := fun h => hl (Nat.compare_eq_eq.1 h)
        cases hc : compare v.length w.length with
        | eq => exact absurd hc this
        | _ => rfl
  | vec k _ ih =>
    rename_i α P cmp G e _
    intro ca fa ⟨hG, hc⟩ v w hv hw
    have hel := ih ca fa hG
    have hloop : fa.bind (·.loopSkipStarts) = none := by
      rcases hc with ⟨rfl, _⟩ | ⟨fr, rfl, h, _⟩
      · rfl
      · exact h
    have hvec : ∀ l x, Writes (encAll (fun a => e a ca fa) l) x → Writes (encVec e l ca fa) (toBE k l.length ++ x) := by
      intro l x h
      refine ((pushCount_writes hc l.length).seq h).congr fun b => ?_
      simp only [encVec, hloop]
    by_cases hl : v.length = w.length
    · obtain ⟨i0, x, y, i1, i2, i3⟩ := hel.all v w hl hv.2 hw.2
      refine ⟨?_, _, _, hvec v x i1, hvec w y i2, fun s t => ?_⟩
      · rw [Ordering.then_eq_eq, i0]
        exact ⟨fun h => h.2, fun h => ⟨Nat.compare_eq_eq.2 hl, h⟩⟩
      · rw [List.append_assoc, List.append_assoc, byteCmp_toBE k _ _ hv.1 hw.1, i3, Ordering.then_assoc']
    · obtain ⟨_, x, _, i1, _⟩ := hel.all v v rfl hv.2 hv.2
      obtain ⟨_, y, _, i2, _⟩ := hel.all w w rfl hw.2 hw.2
      have hne : compare v.length w.length ≠ .eq := fun h => hl (Nat.compare_eq_eq.1 h)
      refine ⟨?_, _, _, hvec v x i1, hvec w y i2, fun s t => ?_⟩
      · rw [Ordering.then_eq_eq]
        exact ⟨fun h => absurd h.1 hne, fun h => absurd (congrArg List.length h) hl⟩
      · rw [List.append_assoc, List.append_assoc, byteCmp_toBE k _ _ hv.1 hw.1, Ordering.then_assoc']
        cases hc : compare v.length w.length with
        | eq => exact absurd hc hne
        | _ => rfl
  | array n _ ih =>
    intro ca fa hG v w hv hw
    exact (ih ca fa hG).all v w (hv.1.trans hw.1.symm) hv.2 hw.2
  | tuple ts _ ih =>
    intro ca fa hG
    exact Sorts.each ts fun t ht => ih t ht ca fa hG
  | project g hg _ c hc ih =>
    intro ca fa hG v w ⟨a, ha, hPa⟩ ⟨b, hb, hPb⟩
    obtain ⟨h0, x, y, h1, h2, h3⟩ := ih ca fa hG a b hPa hPb
    refine ⟨?_, x, y, by dsimp only; rw [ha]; exact h1, by dsimp only; rw [hb]; exact h2, by rw [hc v w a b ha hb]; exact h3⟩
    rw [hc v w a b ha hb, h0]
    constructor
    · rintro rfl
      exact hg v w a ha hb
    · rintro rfl
      exact Option.some.inj (ha.symm.trans hb)
  | weaken _ hP hG ih =>
    intro ca fa h v w hv hw
    exact ih ca fa (hG ca fa h) v w (hP v hv) (hP w hw)
  | struct S dom dom' ord ord' G hw hd hl _ hG hvars ih =>
    intro ca fa _
    have hf : ∀ f ∈ S.fields, ∀ env, Sorts (dom f env) (ord f) (fieldEnc f S.container env) := fun f hf env =>
      (((ih f hf env S.container (modsOf f.attrs env) (hG f hf env)).lift (hl f hf env)).padded f.attrs env).congr
        fun v b _ => (hd f hf).fieldEnc _ env v b
    refine (Sorts.fields dom ord S.fields {} hf).congr fun vs b _ => ?_
    unfold encStruct
    simp only [hw, hvars, localVars, List.map_nil]
  | enum E k dom dom' ord ord' G hvars htag hasc hlt hva hfa hl _ hG ih =>
    intro ca fa ⟨ho, hb, hc⟩ x y ⟨v, hv, hxv⟩ ⟨w, hw, hyw⟩
    obtain ⟨i, vs⟩ := x
    obtain ⟨j, ws⟩ := y
    have hmem : ∀ {i : Nat} {v : Variant _}, E.variants[i]? = some v → v ∈ E.variants := fun h => List.mem_of_getElem? h
    have hnum : ∀ {i : Nat} {v : Variant _}, E.variants[i]? = some v → ∃ n, E.numbers[i]? = some n ∧
        (E.variants.zip E.numbers)[i]? = some (v, n) ∧ n < 256 ^ k := by
      intro i v h
      have hlen : E.numbers.length = E.variants.length := variantNumbers_length _ _
      obtain ⟨hi, _⟩ := List.getElem?_eq_some_iff.1 h
      have hn : E.numbers[i]? = some (E.numbers[i]'(by omega)) := List.getElem?_eq_getElem (by omega)
      exact ⟨_, hn, by rw [List.getElem?_zip_eq_some]; exact ⟨h, hn⟩, hlt _ (List.mem_of_getElem? hn)⟩
    have hsort : ∀ {i : Nat} {v : Variant _}, E.variants[i]? = some v →
        Sorts (InFields dom v.fields {}) (cmpEach (v.fields.map ord)) fun vs =>
          padOffset v.attrs {} >>= fun _ => encFields false v.fields E.container none {} vs := by
      intro i v h
      refine (Sorts.fields dom ord v.fields {} fun f hf env => ?_).padded v.attrs {}
      refine (((ih v (hmem h) f hf env E.container _ (hG v (hmem h) f hf env)).lift (hl v (hmem h) f hf env)).padded
        f.attrs env).congr fun u b _ => (hfa v (hmem h) f hf).fieldEnc _ env u b
    obtain ⟨n, n1, n2, n3⟩ := hnum hv
    obtain ⟨m, m1, m2, m3⟩ := hnum hw
    have wr := fun {i num : Nat} {v : Variant _} hi (hv : E.variants[i]? = some v) {vs x} hx => encEnum_writes (k := k) (E := E) (i := i) (num := num) (v := v) (vs := vs) (x := x)
      hvars htag hi (hva v (hmem hv)) (ca := ca) (fa := fa) ho hb hc hx
    rcases Nat.lt_trichotomy i j with hij | rfl | hij
    · obtain ⟨x, hx⟩ := (hsort hv).writes hxv
      obtain ⟨y, hy⟩ := (hsort hw).writes hyw
      have hc1 : cmpVariant E ord (i, vs) (j, ws) = .lt := by simp only [cmpVariant, Nat.compare_eq_lt.2 hij]; rfl
      refine ⟨?_, _, _, wr n2 hv hx, wr m2 hw hy, fun s t => ?_⟩
      · rw [hc1, Prod.mk.injEq]
        exact ⟨(fun h => nomatch h), fun h => by omega⟩
      · rw [hc1, List.append_assoc, List.append_assoc, byteCmp_toBE k _ _ n3 m3,
          Nat.compare_eq_lt.2 (hasc i j n m hij n1 m1)]
        rfl
    · obtain rfl : v = w := Option.some.inj (hv.symm.trans hw)
      obtain rfl : n = m := Option.some.inj (n1.symm.trans m1)
      obtain ⟨h0, x, y, h1, h2, h3⟩ := hsort hv vs ws hxv hyw
      have hc1 : cmpVariant E ord (i, vs) (i, ws) = cmpEach (v.fields.map ord) vs ws := by
        have hvv : E.variants[i]? = some v := hv
        simp only [cmpVariant, Nat.compare_eq_eq.2 rfl, hvv]
        rfl
      refine ⟨?_, _, _, wr n2 hv h1, wr n2 hv h2, fun s t => ?_⟩
      · rw [hc1, h0, Prod.mk.injEq]
        simp
      · rw [hc1, List.append_assoc, List.append_assoc, byteCmp_same, h3]
    · obtain ⟨x, hx⟩ := (hsort hv).writes hxv
      obtain ⟨y, hy⟩ := (hsort hw).writes hyw
      have hc1 : cmpVariant E ord (i, vs) (j, ws) = .gt := by simp only [cmpVariant, Nat.compare_eq_gt.2 hij]; rfl
      refine ⟨?_, _, _, wr n2 hv hx, wr m2 hw hy, fun s t => ?_⟩
      · rw [hc1, Prod.mk.injEq]
        exact ⟨(fun h => nomatch h), fun h => by omega⟩
      · rw [hc1, List.append_assoc, List.append_assoc, byteCmp_toBE k _ _ n3 m3,
          Nat.compare_eq_gt.2 (hasc j i m n hij m1 n1)]
        rfl

/-- C114: two values of a type of the universe are encoded, at the end of any buffer, to byte strings that compare like
the values, field by field; and what follows decides only if the values are equal. -/
theorem C114_sorted_partial (P : α → Prop) (cmp : α → α → Ordering) (G : Option CAttr → Option FAttr → Prop) (e : Enc α)
    (h : Sortable α P cmp G e) (ca : Option CAttr) (fa : Option FAttr) (hG : G ca fa) (v w : α) (hv : P v) (hw : P w) :
    ∃ x y : List Byte,
      (∀ pre : List Byte, pre.length + x.length ≤ isizeMax →
        ∃ n, e v ca fa ⟨pre, pre.length⟩ = (.ok n, ⟨pre ++ x, pre.length + x.length⟩)) ∧
      (∀ pre : List Byte, pre.length + y.length ≤ isizeMax →
        ∃ n, e w ca fa ⟨pre, pre.length⟩ = (.ok n, ⟨pre ++ y, pre.length + y.length⟩)) ∧
      byteCmp x y = cmp v w ∧ (cmp v w = .eq ↔ v = w) ∧
      ∀ s t, byteCmp (x ++ s) (y ++ t) = (cmp v w).then (byteCmp s t) := by
  obtain ⟨h0, x, y, h1, h2, h3⟩ := h.sorts ca fa hG v w hv hw
  refine ⟨x, y, h1, h2, ?_, h0, h3⟩
  have := h3 [] []
  rw [List.append_nil, List.append_nil, byteCmp_nil, Ordering.then_eq'] at this
  exact this

/-! ## Instances -/

/-- The order of numbers and byte strings. -/
def valCmp : Val → Val → Ordering
  | .num a, .num b => compare a b
  | .bytes a, .bytes b => (compare a.length b.length).then (byteCmp a b)
  | _, _ => .eq

theorem numEnc_sortable (k : IntKind) (hk : k.Valid) (hu : k.signed = false) : Sortable Val (fun v => ∃ a, numOf v = some a ∧ a < 256 ^ k.size) valCmp
    (fun ca fa => getByteorder ca fa = .be ∧ fa.bind (·.bits) = none ∧ fa.bind (·.length) = none) (numEnc k) := by
  have e : numEnc k = fun v ca fa => encOption (encInt k) (numOf v) ca fa := by
    funext v ca fa
    cases v <;> rfl
  rw [e]
  refine .project numOf (fun v w a hv hw => ?_) (.int k hk hu) valCmp fun v w a b hv hw => ?_
  · cases v <;> cases hv
    cases w <;> cases hw
    rfl
  · cases v <;> cases hv
    cases w <;> cases hw
    rfl

/-- The bytes in a value. -/
def octetsOf : Val → Option (List Byte)
  | .bytes l => some l
  | _ => none

theorem bytesEnc_sortable : Sortable Val (fun v => ∃ a, octetsOf v = some a ∧ a.length < 256 ^ 1) valCmp
    (fun ca fa => (framingOf fa = .len8 ∧ 1 = 1) ∨ (framingOf fa = .lenN 1 ∧ 1 ≤ 8 ∧ effectiveOrder ca fa = .be)) bytesEnc := by
  have e : bytesEnc = fun v ca fa => encOption encBytes (octetsOf v) ca fa := by
    funext v ca fa
    cases v <;> rfl
  rw [e]
  refine .project octetsOf (fun v w a hv hw => ?_) (.prefixed 1) valCmp fun v w a b hv hw => ?_
  · cases v <;> cases hv
    cases w <;> cases hw
    rfl
  · cases v <;> cases hv
    cases w <;> cases hw
    rfl

/-- A time of 32 bits, a sequence number of 16 bits and a name. -/
def stamp : StructDef Val := { fields := [⟨{}, numDec ⟨4, false⟩, numEnc ⟨4, false⟩, .num 0, .absent⟩, u16Field {}, bytesField {}] }

theorem direct_plain : Direct ({} : FieldAttrs V) := ⟨rfl, rfl, rfl, rfl, rfl, (fun _ h => nomatch h)⟩

/-- The values of a field of `stamp`. -/
def stampDom (f : Field Val) (_ : Env Val) (v : Val) : Prop :=
  (f.dflt = .bytes [] ∧ ∃ a, octetsOf v = some a ∧ a.length < 256 ^ 1) ∨ (f.dflt = .num 0 ∧ ∃ a, numOf v = some a ∧ a < 256 ^ 2)

theorem stamp_sortable : Sortable (List Val) (InFields stampDom stamp.fields {}) (cmpEach [valCmp, valCmp, valCmp])
    (fun _ _ => True) (encStruct stamp) := by
  refine .struct stamp stampDom stampDom (fun _ => valCmp) (fun _ => valCmp) (fun _ _ ca fa => ca = none ∧ fa = none) rfl
    ?_ (fun f hf env => Lifts.same ?_ _ _ _) ?_ ?_ rfl
  · intro f hf
    simp only [stamp, List.mem_cons, List.not_mem_nil, or_false] at hf
    rcases hf with rfl | rfl | rfl <;> exact direct_plain
  · simp only [stamp, List.mem_cons, List.not_mem_nil, or_false] at hf
    rcases hf with rfl | rfl | rfl <;> rfl
  · intro f hf env
    simp only [stamp, List.mem_cons, List.not_mem_nil, or_false] at hf
    rcases hf with rfl | rfl | rfl
    · refine .weaken (numEnc_sortable ⟨4, false⟩ (.mk _ _ (by decide)) rfl) (fun v hv => ?_) fun ca fa h => ?_
      · rcases hv with ⟨h, _⟩ | ⟨_, a, h1, h2⟩
        · cases h
        · exact ⟨a, h1, Nat.lt_trans h2 (by decide)⟩
      · obtain ⟨rfl, rfl⟩ := h
        exact ⟨rfl, rfl, rfl⟩
    · refine .weaken (numEnc_sortable ⟨2, false⟩ (.mk _ _ (by decide)) rfl) (fun v hv => ?_) fun ca fa h => ?_
      · rcases hv with ⟨h, _⟩ | ⟨_, a, h1, h2⟩
        · cases h
        · exact ⟨a, h1, h2⟩
      · obtain ⟨rfl, rfl⟩ := h
        exact ⟨rfl, rfl, rfl⟩
    · refine .weaken bytesEnc_sortable (fun v hv => ?_) fun ca fa h => ?_
      · rcases hv with ⟨_, h⟩ | ⟨h, _⟩
        · exact h
        · cases h
      · obtain ⟨rfl, rfl⟩ := h
        exact .inl ⟨rfl, rfl⟩
  · intro f hf env
    simp only [stamp, List.mem_cons, List.not_mem_nil, or_false] at hf
    rcases hf with rfl | rfl | rfl <;> exact ⟨rfl, rfl⟩

/-- C114 on `stamp`: sorted by time, then by sequence number, then by name. -/
example (t i t' i' : Nat) (n n' : List Byte) (ht : t < 256 ^ 2) (hi : i < 256 ^ 2) (ht' : t' < 256 ^ 2) (hi' : i' < 256 ^ 2)
    (hn : n.length < 256) (hn' : n'.length < 256) :=
  C114_sorted_partial _ _ _ _ stamp_sortable none none trivial [.num t, .num i, .bytes n] [.num t', .num i', .bytes n']
    ⟨.inr ⟨rfl, t, rfl, ht⟩, .inr ⟨rfl, i, rfl, hi⟩, .inl ⟨rfl, n, rfl, hn⟩, trivial⟩
    ⟨.inr ⟨rfl, t', rfl, ht'⟩, .inr ⟨rfl, i', rfl, hi'⟩, .inl ⟨rfl, n', rfl, hn'⟩, trivial⟩

example : encStruct stamp [.num 255, .num 2, .bytes [7]] none none ⟨[], 0⟩ = (.ok 8, ⟨[0, 0, 0, 255, 0, 2, 1, 7], 8⟩) ∧
    encStruct stamp [.num 256, .num 1, .bytes []] none none ⟨[], 0⟩ = (.ok 7, ⟨[0, 0, 1, 0, 0, 1, 0], 7⟩) ∧
    byteCmp [0, 0, 0, 255, 0, 2, 1, 7] [0, 0, 1, 0, 0, 1, 0] = .lt := by decide +kernel

theorem narrowEnc_sortable (k : IntKind) (n : Nat) (hu : k.signed = false) (hn : n ≤ k.size) (h8 : n ≤ 8) :
    Sortable Val (fun v => ∃ a, numOf v = some a ∧ a < 256 ^ n) valCmp
      (fun ca fa => getByteorder ca fa = .be ∧ fa.bind (·.bits) = none ∧ fa.bind (·.length) = some n) (numEnc k) := by
  have e : numEnc k = fun v ca fa => encOption (encInt k) (numOf v) ca fa := by
    funext v ca fa
    cases v <;> rfl
  rw [e]
  refine .project numOf (fun v w a hv hw => ?_) (.narrow k n hu hn h8) valCmp fun v w a b hv hw => ?_
  · cases v <;> cases hv
    cases w <;> cases hw
    rfl
  · cases v <;> cases hv
    cases w <;> cases hw
    rfl

/-- One more than the number. -/
def nextVal : Val → Val
  | .num a => .num (a + 1)
  | v => v

/-- A number in three bytes, and behind two bytes of padding a level from 1, handedOn from 0 in the program. -/
def ticket : StructDef Val :=
  { fields := [⟨{ isUse := true, length := some fun _ => 3 }, numDec ⟨4, false⟩, numEnc ⟨4, false⟩, .num 0, .absent⟩,
      u8Field { isUse := true, offset := some fun _ => 2, full := 170, valueEncode := some fun _ => nextVal }] }

/-- The values of a field of `ticket`, below a bound. -/
def ticketDom (k : Nat) (f : Field Val) (_ : Env Val) (v : Val) : Prop :=
  ∃ a, numOf v = some a ∧ a + k < if f.attrs.offset.isSome then 256 ^ 1 else 256 ^ 3

theorem ticket_sortable : Sortable (List Val) (InFields (ticketDom 1) ticket.fields {}) (cmpEach [valCmp, valCmp])
    (fun _ _ => True) (encStruct ticket) := by
  refine .struct ticket (ticketDom 1) (ticketDom 0) (fun _ => valCmp) (fun _ => valCmp)
    (fun f _ ca fa => ca = none ∧ fa = if f.attrs.offset.isSome then none else some { length := some 3 }) rfl ?_ ?_ ?_ ?_ rfl
  · intro f hf
    simp only [ticket, List.mem_cons, List.not_mem_nil, or_false] at hf
    rcases hf with rfl | rfl <;> exact ⟨rfl, rfl, rfl, rfl, rfl, (fun _ h => nomatch h)⟩
  · intro f hf env
    simp only [ticket, List.mem_cons, List.not_mem_nil, or_false] at hf
    rcases hf with rfl | rfl <;> rintro v ⟨a, h1, h2⟩ <;> cases v <;> cases h1
    · exact ⟨⟨a, rfl, Nat.lt_of_succ_lt h2⟩, fun w _ => ⟨rfl, id⟩⟩
    · refine ⟨⟨a + 1, rfl, h2⟩, fun w hw => ?_⟩
      obtain ⟨b, h3, _⟩ := hw
      cases w <;> cases h3
      refine ⟨?_, fun h => ?_⟩
      · show compare a b = compare (a + 1) (b + 1)
        simp only [Nat.compare_eq_ite_lt, Nat.add_lt_add_iff_right]
      · have : a + 1 = b + 1 := Val.num.inj h
        rw [Nat.add_right_cancel this]
  · intro f hf env
    simp only [ticket, List.mem_cons, List.not_mem_nil, or_false] at hf
    rcases hf with rfl | rfl
    · refine .weaken (narrowEnc_sortable ⟨4, false⟩ 3 rfl (by decide) (by decide)) (fun v hv => hv) fun ca fa h => ?_
      obtain ⟨rfl, rfl⟩ := h
      exact ⟨rfl, rfl, rfl⟩
    · refine .weaken (numEnc_sortable ⟨1, false⟩ (.mk _ _ (by decide)) rfl) (fun v hv => hv) fun ca fa h => ?_
      obtain ⟨rfl, rfl⟩ := h
      exact ⟨rfl, rfl, rfl⟩
  · intro f hf env
    simp only [ticket, List.mem_cons, List.not_mem_nil, or_false] at hf
    rcases hf with rfl | rfl <;> exact ⟨rfl, rfl⟩

/-- C114 on `ticket`. -/
example (a b a' b' : Nat) (ha : a + 1 < 256 ^ 3) (hb : b + 1 < 256 ^ 1) (ha' : a' + 1 < 256 ^ 3) (hb' : b' + 1 < 256 ^ 1) :=
  C114_sorted_partial _ _ _ _ ticket_sortable none none trivial [.num a, .num b] [.num a', .num b']
    ⟨⟨a, rfl, ha⟩, ⟨b, rfl, hb⟩, trivial⟩ ⟨⟨a', rfl, ha'⟩, ⟨b', rfl, hb'⟩, trivial⟩

example : (encStruct ticket [.num 65535, .num 2] none none ⟨[], 0⟩).2 = ⟨[0, 255, 255, 170, 170, 3], 6⟩ ∧
    (encStruct ticket [.num 65536, .num 1] none none ⟨[], 0⟩).2 = ⟨[1, 0, 0, 170, 170, 2], 6⟩ := by decide +kernel

/-- Behind one byte of padding. -/
def spaced : FieldAttrs Val := { isUse := true, offset := some fun _ => 1, full := 255 }

/-- Requests and answers. -/
def exchange : EnumDef Val := {
  container := some { byteCount := some 2 }
  variants := [{ name := [97], fields := [u8Field {}] }, { name := [98], disc := some 300, fields := [u16Field {}, u8Field spaced] }] }

theorem exchange_sortable : Sortable (Nat × List Val)
    (fun x => ∃ v, exchange.variants[x.1]? = some v ∧ InFields (fun _ _ v => ∃ a, numOf v = some a ∧ a < 256 ^ 1) v.fields {} x.2)
    (cmpVariant exchange fun _ => valCmp)
    (fun ca fa => getByteorder ca fa = .be ∧ fa.bind (·.branch) = none ∧ fa.bind (·.byteCount) = none) (encEnum exchange) := by
  have hmem : ∀ v ∈ exchange.variants, ∀ f ∈ v.fields, f = u8Field {} ∨ f = u16Field {} ∨ f = u8Field spaced := by
    intro v hv f hf
    simp only [exchange, List.mem_cons, List.not_mem_nil, or_false] at hv
    rcases hv with rfl | rfl <;> simp only [List.mem_cons, List.not_mem_nil, or_false] at hf
    · exact .inl hf
    · exact .inr hf
  refine .enum exchange 2 _ (fun _ _ v => ∃ a, numOf v = some a ∧ a < 256 ^ 1) _ (fun _ => valCmp)
    (fun _ _ ca fa => ca = some { byteCount := some 2 } ∧ fa = none) rfl
    ⟨rfl, .inl ⟨rfl, by decide⟩⟩ ?_ ?_ ?_ ?_ (fun v hv f hf env => Lifts.same ?_ _ _ _) ?_ ?_
  · intro i j x y hij hx hy
    have hn : exchange.numbers = [0, 300] := rfl
    rw [hn] at hx hy
    match i, j, hij, hx, hy with
    | 0, 1, _, hx, hy => cases hx; cases hy; decide
    | 0, j + 2, _, _, hy => simp at hy
    | 1, j + 2, _, _, hy => simp at hy
    | i + 2, _, _, hx, _ => simp at hx
  · have hn : exchange.numbers = [0, 300] := rfl
    rw [hn]
    decide
  · intro v hv
    simp only [exchange, List.mem_cons, List.not_mem_nil, or_false] at hv
    rcases hv with rfl | rfl <;> refine ⟨(fun _ h => nomatch h), .inl rfl, ?_⟩ <;> simp [u8Field, u16Field, spaced]
  · intro v hv f hf
    rcases hmem v hv f hf with rfl | rfl | rfl
    · exact direct_plain
    · exact direct_plain
    · exact ⟨rfl, rfl, rfl, rfl, rfl, (fun _ h => nomatch h)⟩
  · rcases hmem v hv f hf with rfl | rfl | rfl <;> rfl
  · intro v hv f hf env
    rcases hmem v hv f hf with rfl | rfl | rfl
    · refine .weaken (numEnc_sortable ⟨1, false⟩ (.mk _ _ (by decide)) rfl) (fun v hv => hv) fun ca fa h => ?_
      obtain ⟨rfl, rfl⟩ := h
      exact ⟨rfl, rfl, rfl⟩
    · refine .weaken (numEnc_sortable ⟨2, false⟩ (.mk _ _ (by decide)) rfl) (fun v hv => ?_) fun ca fa h => ?_
      · obtain ⟨a, h1, h2⟩ := hv
        exact ⟨a, h1, Nat.lt_trans h2 (by decide)⟩
      · obtain ⟨rfl, rfl⟩ := h
        exact ⟨rfl, rfl, rfl⟩
    · refine .weaken (numEnc_sortable ⟨1, false⟩ (.mk _ _ (by decide)) rfl) (fun v hv => hv) fun ca fa h => ?_
      obtain ⟨rfl, rfl⟩ := h
      exact ⟨rfl, rfl, rfl⟩
  · intro v hv f hf env
    rcases hmem v hv f hf with rfl | rfl | rfl <;> exact ⟨rfl, rfl⟩

example : encEnum exchange (0, [.num 9]) none none ⟨[], 0⟩ = (.ok 3, ⟨[0, 0, 9], 3⟩) ∧
    (encEnum exchange (1, [.num 1, .num 2]) none none ⟨[], 0⟩).2 = ⟨[1, 44, 0, 1, 255, 2], 6⟩ ∧
    cmpVariant exchange (fun _ => valCmp) (0, [.num 9]) (1, [.num 1, .num 2]) = .lt := by decide +kernel

/-- Order of `i8` and the like: by the signed value. -/
def signedCmp (k : IntKind) (a b : Nat) : Ordering := 
  compare (if 2 * a < 256 ^ k.size then (a : Int) else (a : Int) - 256 ^ k.size)
    (if 2 * b < 256 ^ k.size then (b : Int) else (b : Int) - 256 ^ k.size)

/-- C114 fails for other types: little-endian numbers, negative numbers, byte strings with a terminator (also with
nothing behind them), enums with descending numbers, and tags of one byte of numbers that need two. -/
theorem C114_violated :
    (∃ n m, encInt ⟨2, false⟩ 1 (some { byteorder := some .le }) none ⟨[], 0⟩ = (.ok n, ⟨[1, 0], 2⟩) ∧
      encInt ⟨2, false⟩ 256 (some { byteorder := some .le }) none ⟨[], 0⟩ = (.ok m, ⟨[0, 1], 2⟩) ∧
      byteCmp [1, 0] [0, 1] = .gt ∧ compare 1 256 = .lt) ∧
    (∃ n m, encInt ⟨1, true⟩ 255 none none ⟨[], 0⟩ = (.ok n, ⟨[255], 1⟩) ∧
      encInt ⟨1, true⟩ 1 none none ⟨[], 0⟩ = (.ok m, ⟨[1], 1⟩) ∧
      byteCmp [255] [1] = .gt ∧ signedCmp ⟨1, true⟩ 255 1 = .lt) ∧
    (∃ n m, encBytes [65] none (some { linend := true }) ⟨[], 0⟩ = (.ok n, ⟨[65, 13, 10], 3⟩) ∧
      encBytes [65, 9] none (some { linend := true }) ⟨[], 0⟩ = (.ok m, ⟨[65, 9, 13, 10], 4⟩) ∧
      byteCmp [65, 13, 10] [65, 9, 13, 10] = .gt ∧ byteCmp [65] [65, 9] = .lt) ∧
    (∃ E : EnumDef Val, E = { variants := [{ disc := some 2 }, { disc := some 1 }] } ∧
      encEnum E (0, []) none none ⟨[], 0⟩ = (.ok 1, ⟨[2], 1⟩) ∧ encEnum E (1, []) none none ⟨[], 0⟩ = (.ok 1, ⟨[1], 1⟩)) ∧
    (∃ E : EnumDef Val, E = { variants := [{ disc := some 2 }, { disc := some 256 }] } ∧
      encEnum E (0, []) none none ⟨[], 0⟩ = (.ok 1, ⟨[2], 1⟩) ∧ encEnum E (1, []) none none ⟨[], 0⟩ = (.ok 1, ⟨[0], 1⟩)) := by
  refine ⟨⟨2, 2, ?_⟩, ⟨1, 1, ?_⟩, ⟨3, 4, ?_⟩, ⟨_, rfl, ?_⟩, _, rfl, ?_⟩ <;> decide +kernel

end JBytes
