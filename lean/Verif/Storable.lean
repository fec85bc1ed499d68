import Verif.Placed
import Verif.PropAddr
/-!
# Types whose values can be encoded, with a bound on the size of their pieces

`Storable M starts α P e`: `e` is the encoder of a type built from the codecs of the crate and derived structs and enums,
and `P v` says that every byte string inside the value `v` (text, octets, printed `from_str` values) has at most `M`
bytes.  `starts` says that `bits` occurs only on the first member of a word, as in `Encodable` (Universe.lean); without
it any member of a bit-field word is allowed, but no 128-bit integers.
-/

namespace JBytes
open M

variable {α β V : Type}

/-- The modifiers passed to a codec have at most `M` bytes each. -/
structure FaFits (M : Nat) (starts : Bool) (fr : FAttr) : Prop where
  key : ∀ x, fr.key = some x → x.length ≤ M
  split : ∀ x, fr.split = some x → x.length ≤ M
  linend : ∀ x, fr.linendValue = some x → x.length ≤ M
  loops : ∀ x, fr.loopSkipStarts = some x → x.length ≤ M
  bits : starts = true → fr.bits = none ∨ fr.bitsStart = true

/-- The modifiers passed to a codec, if any. -/
def FaFits? (M : Nat) (starts : Bool) (fa : Option FAttr) : Prop := ∀ fr, fa = some fr → FaFits M starts fr

/-- The modifiers written on a field or variant: no user-written encoder, a byte order expression gives 0 or 1. -/
structure AttrsFit {V : Type} (M : Nat) (starts : Bool) (a : FieldAttrs V) : Prop where
  custom : a.withEncode = none
  order : ∀ e env, a.byteorder = some (.expr e) → e env = 0 ∨ e env = 1
  passed : ∀ o env, FaFits M starts (a.modifiers o env)

/-- The value of a field can be stored: `P` holds of it (and of what `value_encode` makes of it), and its text, if it
is a `from_str` field, is short enough. -/
structure FieldFits {V : Type} (M : Nat) (P : V → Prop) (a : FieldAttrs V) (v : V) : Prop where
  plain : P v
  sent : ∀ g env, a.valueEncode = some g → P (g env v)
  text : ∀ ps, a.fromStr = some ps → (ps.2 v).length ≤ M

/-- The octets of an address (none for a number). -/
def NetAddr.octets : NetAddr → List Byte
  | .v4 o => o
  | .v6 o => o
  | .mac o => o
  | .usize _ => []

/-- The encoders of the crate and of derived types, with the values whose pieces have at most `M` bytes. -/
inductive Storable (M : Nat) (starts : Bool) : (α : Type) → (α → Prop) → Enc α → Prop where
  /-- No stack left (see `encRec`): no value can be written. -/
  | stop {α : Type} : Storable M starts α (fun _ => False) (fun _ _ _ => timeout)
  | int (k : IntKind) (h : starts = true ∨ k.size ≤ 8) : Storable M starts Nat (fun _ => True) (encInt k)
  | f32 : Storable M starts Nat (fun _ => True) encF32
  | f64 : Storable M starts Nat (fun _ => True) encF64
  | bool : Storable M starts Bool (fun _ => True) encBool
  | char : Storable M starts Nat (fun _ => True) encChar
  | bytes : Storable M starts (List Byte) (fun d => d.length ≤ M) encBytes
  | ip : Storable M starts (List Byte) (fun d => d.length ≤ M) encIp
  | ipAddr : Storable M starts IpAddr (fun a => a.octets.length ≤ M) encIpAddr
  | mac : Storable M starts (List Byte) (fun _ => True) encMac
  | net : Storable M starts NetAddr (fun a => a.octets.length ≤ M) encNet
  | unit : Storable M starts Unit (fun _ => True) encUnit
  | vec {α : Type} {P : α → Prop} {e : Enc α} : Storable M starts α P e →
      Storable M starts (List α) (fun l => ∀ a ∈ l, P a) (encVec e)
  | array {α : Type} {P : α → Prop} {e : Enc α} : Storable M starts α P e →
      Storable M starts (List α) (fun l => ∀ a ∈ l, P a) (encArray e)
  | tuple {α : Type} (es : List (Enc α)) (P : Enc α → α → Prop) : (∀ e ∈ es, Storable M starts α (P e) e) →
      Storable M starts (List α) (fun l => ∀ x ∈ es.zip l, P x.1 x.2) (encTuple es)
  | option {α : Type} {P : α → Prop} {e : Enc α} : Storable M starts α P e →
      Storable M starts (Option α) (fun o => ∀ a, o = some a → P a) (encOption e)
  | map {α β : Type} {P : α → Prop} {Q : β → Prop} {ek : Enc α} {ev : Enc β} : Storable M starts α P ek →
      Storable M starts β Q ev → Storable M starts (List (α × β)) (fun l => ∀ x ∈ l, P x.1 ∧ Q x.2) (encMap ek ev)
  /-- A type seen as a part of a sum type: `g v` is the value of this type, if `v` is one. -/
  | project {α β : Type} {P : α → Prop} {e : Enc α} (g : β → Option α) : Storable M starts α P e →
      Storable M starts β (fun v => ∀ a, g v = some a → P a) (fun v ca fa => encOption e (g v) ca fa)
  | struct {V : Type} (S : StructDef V) (P : Field V → V → Prop) : S.withEncode = none →
      (∀ f ∈ S.fields, AttrsFit M starts f.attrs) → (∀ f ∈ S.fields, Storable M starts V (P f) f.enc) →
      Storable M starts (List V) (fun vs => ∀ x ∈ S.fields.zip vs, FieldFits M (P x.1) x.1.attrs x.2) (encStruct S)
  | enum {V : Type} (E : EnumDef V) (P : Field V → V → Prop) : (∀ v ∈ E.variants, AttrsFit M starts v.attrs) →
      (∀ v ∈ E.variants, v.word.length ≤ M) →
      (∀ v ∈ E.variants, ∀ f ∈ v.fields, AttrsFit M starts f.attrs) →
      (∀ v ∈ E.variants, ∀ f ∈ v.fields, Storable M starts V (P f) f.enc) →
      Storable M starts (Nat × List V)
        (fun x => ∀ v, E.variants[x.1]? = some v → ∀ y ∈ v.fields.zip x.2, FieldFits M (P y.1) y.1.attrs y.2)
        (encEnum E)

/-! ## Helper lemmas -/

/-- From inside a buffer: a success stays inside (and `P` holds of the result), a panic happens only with less than
`n` bytes of address space left, and the code comes to an end; with `s` the bytes before the position are kept. -/
def Sound (n : Nat) (s : Bool) (P : α → Prop) (m : M α) : Prop := ∀ b : Buf, b.Ok →
  (∀ a b', m b = (.ok a, b') → b'.Ok ∧ P a ∧ (s = true → b.pos ≤ b'.pos)) ∧
  (∀ b', m b = (.panic, b') → isizeMax < b'.pos + n) ∧ (∀ b', m b ≠ (.timeout, b')) ∧
  (s = true → ∀ o b', m b = (o, b') → b'.data.take b.pos = b.data.take b.pos)

/-- The bound on the pieces is at least the size of the largest integer. -/
def Size (n : Nat) : Prop := 16 ≤ n ∧ n ≤ isizeMax

variable {n : Nat} {starts : Bool}

theorem Sound.bind {P : α → Prop} {Q : β → Prop} {m : M α} {f : α → M β} (hm : Sound n starts P m)
    (hf : ∀ a, P a → Sound n starts Q (f a)) : Sound n starts Q (m >>= f) := by
  intro b hb
  obtain ⟨h1, h2, h3, h4⟩ := hm b hb
  rw [bind_apply]
  rcases he : m b with ⟨o, b1⟩
  cases o with
  | ok a =>
    obtain ⟨hb1, hp, hle⟩ := h1 a b1 he
    obtain ⟨g1, g2, g3, g4⟩ := hf a hp b1 hb1
    refine ⟨fun c b' h => ?_, g2, g3, fun hs o b' h => ?_⟩
    · obtain ⟨k1, k2, k3⟩ := g1 c b' h
      exact ⟨k1, k2, fun hs => Nat.le_trans (hle hs) (k3 hs)⟩
    · have e1 := h4 hs _ _ he
      have e2 := g4 hs o b' h
      have e3 := congrArg (List.take b.pos) e2
      rw [List.take_take, List.take_take, Nat.min_eq_left (hle hs)] at e3
      rw [e3, e1]
  | err e => exact ⟨nofun, nofun, nofun, fun hs o b' h => by cases h; exact h4 hs _ _ he⟩
  | panic =>
    exact ⟨nofun, fun b' h => by cases h; exact h2 _ he, nofun, fun hs o b' h => by cases h; exact h4 hs _ _ he⟩
  | timeout => exact absurd he (h3 _)

theorem Sound.pure {P : α → Prop} (a : α) (h : P a) : Sound n starts P (Pure.pure a : M α) := by
  intro b hb
  refine ⟨fun x b' he => ?_, nofun, nofun, fun _ o b' he => ?_⟩
  · cases he
    exact ⟨hb, h, fun _ => Nat.le_refl _⟩
  · cases he
    rfl

theorem Sound.fail {P : α → Prop} (c : ErrCode) : Sound n starts P (M.fail c : M α) :=
  fun _ _ => ⟨nofun, nofun, nofun, fun _ _ _ he => by cases he; rfl⟩

theorem push_cases (d : List Byte) (hd : d.length ≤ isizeMax) (b : Buf) (hb : b.Ok) :
    (b.pos + d.length ≤ isizeMax ∧ push d b = (.ok d.length, window b d)) ∨
    (isizeMax < b.pos + d.length ∧ push d b = (.panic, b)) := by
  by_cases h : b.pos + d.length ≤ isizeMax
  · left
    refine ⟨h, ?_⟩
    rw [push_apply d b h (.inr hb.1), writeAt_inside _ _ _ hb.1]
    rfl
  · right
    refine ⟨by omega, ?_⟩
    have h3 := isizeMax_def
    have h4 := usizeMod_def
    obtain ⟨h1, h2⟩ := hb
    unfold JBytes.push
    simp only [bind_apply, remainingLen_apply, ite_apply']
    rw [if_pos (by omega)]
    unfold bufResize
    simp only [bind_apply, getPos_apply, pure_apply]
    rw [vecResize_panic _ _ (by rw [wadd_eq (by omega)]; omega)]

theorem Sound.push {d : List Byte} (hn : Size n) (h : d.length ≤ n) : Sound n starts Any (push d) := by
  intro b hb
  rcases push_cases d (by have := hn.2; omega) b hb with ⟨hr, he⟩ | ⟨hr, he⟩
  · rw [he]
    refine ⟨fun a b' h => ?_, nofun, nofun, fun _ o b' h => ?_⟩
    · cases h
      exact ⟨window_ok hb d hr, trivial, fun _ => by simp only [window]; omega⟩
    · cases h
      have := hb.1
      simp only [window, List.append_assoc]
      rw [List.take_left' (by rw [List.length_take]; omega)]
  · rw [he]
    refine ⟨nofun, fun _ h => ?_, nofun, fun _ o b' h => ?_⟩
    · cases h
      omega
    · cases h
      rfl

theorem Sound.seq {e1 e2 : M Nat} (h1 : Sound n starts Any e1) (h2 : Sound n starts Any e2) :
    Sound n starts Any (do
      let n ← e1
      let m ← e2
      Pure.pure (n + m)) :=
  h1.bind fun _ _ => h2.bind fun _ _ => Sound.pure _ trivial

theorem Sound.zero : Sound n starts Any (Pure.pure 0 : M Nat) := Sound.pure 0 trivial

theorem Scalar.size_le16 (s : Scalar) : s.size ≤ 16 := by cases s <;> simp [Scalar.size]

theorem Sound.scalar (hn : Size n) (s : Scalar) (v : Nat) (o : ByteOrder) : Sound n starts Any (pushScalar s v o) := by
  rw [pushScalar_eq]
  exact Sound.push hn (by rw [toBytes_length]; have := s.size_le16; have := hn.1; omega)

theorem Sound.uint (hn : Size n) (v k : Nat) (o : ByteOrder) : Sound n starts Any (pushUint v k o) := by
  by_cases h : k ≤ 8
  · rw [pushUint_eq v k o h]
    exact Sound.push hn (by rw [toBytes_length]; have := hn.1; omega)
  · intro b hb
    rw [pushUint_wide v k o (by omega)]
    exact ⟨nofun, nofun, nofun, fun _ _ _ he => by cases he; rfl⟩

theorem Sound.byte (hn : Size n) (x : Byte) : Sound n starts Any (JBytes.push [x]) := Sound.push hn (by simp; have := hn.1; omega)

theorem Sound.encAll {e : α → M Nat} : ∀ l : List α, (∀ a ∈ l, Sound n starts Any (e a)) → Sound n starts Any (encAll e l)
  | [], _ => Sound.zero
  | a :: l, h => Sound.seq (h a (by simp)) (Sound.encAll l fun x hx => h x (List.mem_cons_of_mem _ hx))

theorem takeUint_err {k : Nat} (o : ByteOrder) (hk : k ≤ 8) {b : Buf} (h : ∃ e, takeBytes k b = (.err e, b)) :
    ∃ e, takeUint k o b = (.err e, b) := by
  obtain ⟨e, he⟩ := h
  refine ⟨e, ?_⟩
  cases o <;> simp only [takeUint, takeN, takeBeN, takeLeN, ite_apply', hk, if_true, bind_apply, he]

theorem takeUint_ok {k : Nat} (o : ByteOrder) (hk : k ≤ 8) {b : Buf} (hb : b.Ok) (h : b.pos + k ≤ b.data.length) :
    ∃ v, takeUint k o b = (.ok v, ⟨b.data, b.pos + k⟩) := by
  have he : takeBytes k b = (.ok ((b.data.drop b.pos).take k), ⟨b.data, b.pos + k⟩) := by
    rw [takeBytes_apply k b hb, if_neg (by omega)]
  cases o
  · exact ⟨_, by simp only [takeUint, takeN, takeBeN, ite_apply', hk, if_true, bind_apply, he]; rfl⟩
  · exact ⟨_, by simp only [takeUint, takeN, takeLeN, ite_apply', hk, if_true, bind_apply, he]; rfl⟩

theorem Sound.encBits (k : IntKind) (v : Nat) (o : ByteOrder) (fa : Option FAttr)
    (hk : starts = true ∨ k.size ≤ 8) (hf : FaFits? n starts fa) : Sound n starts Any (encBits k v o fa) := by
  unfold JBytes.encBits
  split
  · exact Sound.pure _ trivial
  · rename_i fr
    split
    · exact Sound.pure _ trivial
    · rename_i m hm
      simp only
      split
      · exact Sound.pure _ trivial
      · rename_i hs
        have hns : starts ≠ true := by
          intro h
          rcases (hf fr rfl).bits h with h' | h'
          · rw [hm] at h'; cases h'
          · rw [h'] at hs; exact absurd rfl hs
        have h8 : k.size ≤ 8 := hk.resolve_left hns
        intro b hb
        obtain ⟨hb1, hb2⟩ := hb
        have h3 := isizeMax_lt
        have h4 := isizeMax_def
        have h5 := usizeMod_def
        simp only [bind_apply, getPos_apply, setPos_apply]
        by_cases hp : k.size ≤ b.pos
        · have e1 : wsub b.pos k.size = b.pos - k.size := by unfold wsub; rw [if_pos hp]
          obtain ⟨x, hx⟩ := takeUint_ok (b := ⟨b.data, b.pos - k.size⟩) o h8 ⟨by simp only; omega, hb2⟩
            (by simp only; omega)
          rw [e1, hx]
          simp only
          have e2 : wsub (b.pos - k.size + k.size) k.size = b.pos - k.size := by rw [wsub_add]
          rw [e2]
          refine ⟨fun a b' h => ?_, nofun, nofun, fun h => absurd h hns⟩
          cases h
          exact ⟨⟨by simp only; omega, hb2⟩, trivial, fun h => absurd h hns⟩
        · have e1 : wsub b.pos k.size = b.pos + (usizeMod - k.size) := by unfold wsub; rw [if_neg hp]
          obtain ⟨e, he⟩ := takeUint_err (b := ⟨b.data, b.pos + (usizeMod - k.size)⟩) o h8
            ⟨_, by rw [takeBytes_past _ _ (by simp only; omega) (by simp only; omega), if_neg (by omega)]⟩
          rw [e1, he]
          exact ⟨nofun, nofun, nofun, fun _ _ _ he => by cases he; rfl⟩

theorem Sound.encInt (hn : Size n) (k : IntKind) (v : Nat) (ca : Option CAttr) (fa : Option FAttr)
    (hk : starts = true ∨ k.size ≤ 8) (hf : FaFits? n starts fa) : Sound n starts Any (encInt k v ca fa) := by
  unfold JBytes.encInt
  simp only
  refine (Sound.encBits k v _ fa hk hf).bind fun x _ => ?_
  split
  · split
    · exact Sound.fail _
    · exact Sound.uint hn _ _ _
  · exact Sound.scalar hn _ _ _

theorem Sound.pushOpt (hn : Size n) {o : Option (List Byte)} (h : ∀ x, o = some x → x.length ≤ n) : Sound n starts Any (pushOpt o) := by
  cases o with
  | none => exact Sound.zero
  | some x => exact Sound.push hn (h x rfl)

theorem Sound.encBytes (hn : Size n) {d : List Byte} (hd : d.length ≤ n) (ca : Option CAttr)
    {fa : Option FAttr} (hf : FaFits? n starts fa) : Sound n starts Any (encBytes d ca fa) := by
  have hpre : Sound n starts Any (encBytesPrefix ca fa d.length) := by
    unfold encBytesPrefix
    split
    · exact Sound.byte hn _
    · split
      · exact Sound.zero
      · split
        · exact Sound.uint hn _ _ _
        · split
          · exact Sound.zero
          · split
            · exact Sound.zero
            · split
              · exact Sound.zero
              · exact Sound.byte hn _
  have hend : ∀ x, encBytesEnd fa = some x → x.length ≤ n := by
    intro x hx
    unfold encBytesEnd at hx
    split at hx
    · cases hx
    · rename_i fr
      split at hx
      · cases hx
      · split at hx
        · cases hx
        · split at hx
          · cases hx; have := hn.1; simp; omega
          · exact (hf fr rfl).linend x hx
  unfold JBytes.encBytes
  refine (Sound.pushOpt hn ?_).bind fun _ _ => (Sound.pushOpt hn ?_).bind fun _ _ => hpre.bind fun _ _ =>
    (Sound.push hn hd).bind fun _ _ => (Sound.pushOpt hn hend).bind fun _ _ => Sound.pure _ trivial
  · intro x hx
    cases fa with
    | none => cases hx
    | some fr => exact (hf fr rfl).key x hx
  · intro x hx
    cases fa with
    | none => cases hx
    | some fr => exact (hf fr rfl).split x hx

theorem Sound.encIp (hn : Size n) {d : List Byte} (hd : d.length ≤ n) (ca : Option CAttr) (fa : Option FAttr) :
    Sound n starts Any (encIp d ca fa) := by
  unfold JBytes.encIp pushByteorderArray
  split
  · exact Sound.push hn hd
  · exact Sound.push hn (by rw [List.length_reverse]; exact hd)

theorem Sound.pushCount (hn : Size n) (ca : Option CAttr) (fa : Option FAttr) (k : Nat) :
    Sound n starts Any (pushCount ca fa k) := by
  unfold JBytes.pushCount
  split
  · exact Sound.byte hn _
  · split
    · exact Sound.uint hn _ _ _
    · split
      · exact Sound.zero
      · split
        · exact Sound.zero
        · exact Sound.byte hn _

theorem Sound.encVec (hn : Size n) {e : Enc α} {ca : Option CAttr} {fa : Option FAttr} (l : List α)
    (hf : FaFits? n starts fa) (h : ∀ a ∈ l, Sound n starts Any (e a ca fa)) : Sound n starts Any (encVec e l ca fa) := by
  unfold JBytes.encVec
  split
  · rename_i p hp
    refine Sound.encAll l fun a ha => Sound.seq (Sound.push hn ?_) (h a ha)
    cases fa with
    | none => cases hp
    | some fr => exact (hf fr rfl).loops p hp
  · exact Sound.seq (Sound.pushCount hn ca fa _) (Sound.encAll l h)

theorem Sound.encTuple {ca : Option CAttr} {fa : Option FAttr} : ∀ (es : List (Enc α)) (l : List α),
    (∀ x ∈ es.zip l, Sound n starts Any (x.1 x.2 ca fa)) → Sound n starts Any (encTuple es l ca fa)
  | [], _, _ => by rw [JBytes.encTuple.eq_def]; exact Sound.zero
  | _ :: _, [], _ => by rw [JBytes.encTuple.eq_def]; exact Sound.zero
  | e :: es, a :: l, h => Sound.seq (h (e, a) (by simp))
      (Sound.encTuple es l fun x hx => h x (List.mem_cons_of_mem _ hx))

theorem FaFits?.key {fa : Option FAttr} (h : FaFits? n starts fa) : FaFits? n starts (keyFattr fa) := by
  unfold keyFattr
  split
  · exact fun _ h => by cases h
  · rename_i fr
    split
    · rintro _ ⟨⟩
      exact ⟨(fun _ h => by cases h), (fun _ h => by cases h), fun x hx => (h fr rfl).split x hx, (fun _ h => by cases h), fun _ => .inl rfl⟩
    · exact h

theorem FaFits?.val {fa : Option FAttr} (h : FaFits? n starts fa) : FaFits? n starts (valFattr fa) := by
  unfold valFattr
  split
  · exact fun _ h => by cases h
  · rename_i fr
    split
    · rintro _ ⟨⟩
      exact ⟨(fun _ h => by cases h), (fun _ h => by cases h), fun x hx => (h fr rfl).linend x hx, (fun _ h => by cases h), fun _ => .inl rfl⟩
    · split
      · rintro _ ⟨⟩
        exact ⟨(fun _ h => by cases h), (fun _ h => by cases h), (fun _ h => by cases h), (fun _ h => by cases h), fun _ => .inl rfl⟩
      · exact h

theorem Sound.toCode {a : FieldAttrs V} (ha : AttrsFit n starts a) (env : Env V) :
    Sound n starts (FaFits? n starts) (a.toCode env) := by
  unfold FieldAttrs.toCode
  split
  · have ho : Sound n starts Any (orderCode a.byteorder env) := by
      unfold orderCode
      split
      · exact Sound.pure _ trivial
      · exact Sound.pure _ trivial
      · rename_i e he
        rcases ha.order e env he with h | h
        · rw [if_pos h]
          exact Sound.pure _ trivial
        · rw [if_neg (by rw [h]; decide), if_pos h]
          exact Sound.pure _ trivial
    refine ho.bind fun o _ => Sound.pure _ ?_
    rintro _ ⟨⟩
    exact ha.passed o env
  · exact Sound.pure _ fun _ h => by cases h

theorem Sound.padLoop (hn : Size n) (x : Byte) : ∀ k : Nat, Sound n starts Any (padLoop x k)
  | 0 => Sound.pure _ trivial
  | k + 1 => (Sound.byte hn x).bind fun _ _ => Sound.padLoop hn x k

theorem Sound.padOffset (hn : Size n) (a : FieldAttrs V) (env : Env V) : Sound n starts Any (padOffset a env) := by
  unfold JBytes.padOffset
  split
  · exact Sound.padLoop hn _ _
  · exact Sound.pure _ trivial

theorem Sound.encField (hn : Size n) {f : Field V} {env : Env V} {v : V} {ca : Option CAttr}
    {fa : Option FAttr} {P : V → Prop} (ha : AttrsFit n starts f.attrs) (hf : FaFits? n starts fa)
    (hv : FieldFits n P f.attrs v) (h : ∀ v, P v → Sound n starts Any (f.enc v ca fa)) :
    Sound n starts Any (encField f env v ca fa) := by
  unfold JBytes.encField
  rw [ha.custom]
  simp only
  split
  · exact Sound.zero
  · have ht : Sound n starts Any (encText f.attrs v ca fa) := by
      unfold encText
      split
      · rename_i ps hps
        exact Sound.encBytes hn (hv.text ps hps) ca hf
      · exact Sound.zero
    have hp : Sound n starts Any (encPlain f env v ca fa) := by
      unfold encPlain
      refine (Sound.padOffset hn f.attrs env).bind fun _ _ => ?_
      split
      · rename_i g hg
        exact h _ (hv.sent g env hg)
      · exact h _ hv.plain
    refine ht.bind fun n _ => ?_
    split
    · exact hp.bind fun m _ => Sound.pure _ trivial
    · exact Sound.pure _ trivial

theorem Sound.encFields (hn : Size n) (P : Field V → V → Prop) (keep : Bool) :
    ∀ (fs : List (Field V)) (ca : Option CAttr) (old : Option FAttr) (env : Env V) (vs : List V),
    FaFits? n starts old → (∀ x ∈ fs.zip vs, FieldFits n (P x.1) x.1.attrs x.2) →
    (∀ f ∈ fs, AttrsFit n starts f.attrs ∧ ∀ v ca fa, FaFits? n starts fa → P f v → Sound n starts Any (f.enc v ca fa)) →
    Sound n starts Any (encFields keep fs ca old env vs) := by
  intro fs
  induction fs with
  | nil => intro ca old env vs _ _ _; rw [JBytes.encFields.eq_def]; exact Sound.zero
  | cons f fs ih =>
    intro ca old env vs ho hv hf
    cases vs with
    | nil => rw [JBytes.encFields.eq_def]; exact Sound.zero
    | cons v vs =>
      rw [JBytes.encFields.eq_def]
      simp only
      have hstart : Sound n starts (FaFits? n starts)
          (if (keep && !f.attrs.isUse) = true then (Pure.pure old : M _) else f.attrs.toCode env) := by
        split
        · exact Sound.pure _ ho
        · exact Sound.toCode (hf f (by simp)).1 env
      refine hstart.bind fun fa hfa => ?_
      exact Sound.seq (Sound.encField hn (hf f (by simp)).1 hfa (hv (f, v) (by simp))
          fun v hp => (hf f (by simp)).2 v ca fa hfa hp)
        (ih _ _ _ _ hfa (fun x hx => hv x (List.mem_cons_of_mem _ hx)) fun g hg => hf g (List.mem_cons_of_mem _ hg))

theorem Sound.encTagMode (hn : Size n) (E : EnumDef V) (v : Variant V) (hw : v.word.length ≤ n) (num : Nat)
    (ca : Option CAttr) (fa : Option FAttr) : Sound n starts Any (encTagMode E v num ca fa) := by
  have hb : Sound n starts Any (encTagByte E.byteCountDisable num) := by
    unfold encTagByte
    split
    · exact Sound.zero
    · exact Sound.byte hn _
  unfold JBytes.encTagMode
  split
  · exact Sound.push hn hw
  · exact Sound.zero
  · exact Sound.push hn hw
  · unfold encTag
    split
    · split
      · exact Sound.zero
      · split
        · exact Sound.uint hn _ _ _
        · split
          · exact Sound.uint hn _ _ _
          · exact hb
    · split
      · exact Sound.uint hn _ _ _
      · exact hb

theorem Sound.encEnum (hn : Size n) (P : Field V → V → Prop) (E : EnumDef V) (x : Nat × List V)
    (ca : Option CAttr) (fa : Option FAttr)
    (hx : ∀ v, E.variants[x.1]? = some v → ∀ y ∈ v.fields.zip x.2, FieldFits n (P y.1) y.1.attrs y.2)
    (hv : ∀ v ∈ E.variants, AttrsFit n starts v.attrs) (hw : ∀ v ∈ E.variants, v.word.length ≤ n)
    (hf : ∀ v ∈ E.variants, ∀ f ∈ v.fields, AttrsFit n starts f.attrs ∧
      ∀ v ca fa, FaFits? n starts fa → P f v → Sound n starts Any (f.enc v ca fa)) : Sound n starts Any (encEnum E x ca fa) := by
  unfold JBytes.encEnum
  split
  · rename_i v num he
    have hmem : v ∈ E.variants := (List.of_mem_zip (List.mem_of_getElem? he)).1
    have hget : E.variants[x.1]? = some v := by
      rw [List.getElem?_zip_eq_some] at he
      exact he.1
    unfold encVariant
    simp only
    exact (Sound.toCode (hv v hmem) _).bind fun old hold => (Sound.encTagMode hn E v (hw v hmem) num ca fa).bind
      fun _ _ => (Sound.padOffset hn _ _).bind fun _ _ =>
      (Sound.encFields hn P true _ _ _ _ _ hold (hx v hget) (hf v hmem)).bind fun m _ => Sound.pure _ trivial
  · exact Sound.zero

theorem Storable.sound (hn : Size n) {P : α → Prop} {e : Enc α} (h : Storable n starts α P e) :
    ∀ (v : α) (ca : Option CAttr) (fa : Option FAttr), FaFits? n starts fa → P v → Sound n starts Any (e v ca fa) := by
  induction h with
  | stop => intro v ca fa _ h; exact h.elim
  | int k hk => intro v ca fa hf _; exact Sound.encInt hn k v ca fa hk hf
  | f32 => intro v ca fa _ _; exact Sound.scalar hn _ _ _
  | f64 => intro v ca fa _ _; exact Sound.scalar hn _ _ _
  | bool => intro v ca fa _ _; exact Sound.byte hn _
  | char => intro v ca fa _ _; exact Sound.byte hn _
  | bytes => intro v ca fa hf hv; exact Sound.encBytes hn hv ca hf
  | ip => intro v ca fa _ hv; exact Sound.encIp hn hv ca fa
  | ipAddr =>
    intro v ca fa _ hv
    cases v <;> exact Sound.encIp hn hv ca fa
  | mac => intro v ca fa _ _; exact Sound.uint hn _ _ _
  | net =>
    intro v ca fa hf hv
    cases v with
    | v4 o => exact Sound.encIp hn hv ca fa
    | v6 o => exact Sound.encIp hn hv ca fa
    | mac o => exact Sound.uint hn _ _ _
    | usize k => exact Sound.encInt hn _ _ ca fa (.inr (Nat.le_refl 8)) hf
  | unit => intro v ca fa _ _; exact Sound.zero
  | vec _ ih => intro v ca fa hf hv; exact Sound.encVec hn v hf fun a ha => ih a ca fa hf (hv a ha)
  | array _ ih => intro v ca fa hf hv; exact Sound.encAll v fun a ha => ih a ca fa hf (hv a ha)
  | tuple es P _ ih =>
    intro v ca fa hf hv
    exact Sound.encTuple es v fun x hx => ih x.1 (List.of_mem_zip hx).1 x.2 ca fa hf (hv x hx)
  | option _ ih =>
    intro v ca fa hf hv
    cases v with
    | none => exact Sound.zero
    | some a => exact ih a ca fa hf (hv a rfl)
  | map _ _ ihk ihv =>
    intro v ca fa hf hv
    exact Sound.seq (Sound.pushCount hn ca fa _) (Sound.encAll v fun x hx =>
      Sound.seq (ihk x.1 ca _ hf.key (hv x hx).1) (ihv x.2 ca _ hf.val (hv x hx).2))
  | project g _ ih =>
    intro v ca fa hf hv
    show Sound n starts Any (encOption _ (g v) ca fa)
    cases hg : g v with
    | none => exact Sound.zero
    | some a => exact ih a ca fa hf (hv a hg)
  | struct S P hw ha _ ih =>
    intro v ca fa hf hv
    unfold encStruct
    rw [hw]
    exact Sound.encFields hn P false _ _ _ _ _ (fun _ h => by cases h) hv fun f hf' => ⟨ha f hf', ih f hf'⟩
  | enum E P hv hw ha _ ih =>
    intro x ca fa hf hx
    exact Sound.encEnum hn P E x ca fa hx hv hw fun v hvm f hf' => ⟨ha v hvm f hf', ih v hvm f hf'⟩

end JBytes
