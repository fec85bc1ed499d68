import Verif.PropEncode
import Verif.PropBits
/-!
# Changing the byte order of a declaration (C110)

A protocol is declared once and its byte order is a modifier.  Changing the modifier may only turn the numbers round: the
same values can be sent, with the same results, as many bytes are written, and the two images differ in nothing but
the order of the bytes inside each number and address.
-/

namespace JBytes
open M

variable {α β V : Type}

/-! ## Specification -/

/-- A piece of an encoding: its bytes, and whether they are turned round by the other byte order (a number or an
address) or not (text, words, padding, single bytes). -/
abbrev Block : Type := Bool × List Byte

/-- The image of the pieces. -/
def image : List Block → List Byte
  | [] => []
  | x :: bs => x.2 ++ image bs

/-- The same pieces, each number turned round. -/
def imageTurned : List Block → List Byte
  | [] => []
  | x :: bs => (if x.1 then x.2.reverse else x.2) ++ imageTurned bs

/-- Numbers and addresses have at most 16 bytes. -/
def Sized (bs : List Block) : Prop := ∀ x ∈ bs, x.1 = true → x.2.length ≤ 16

/-- The surroundings differ in the byte order at most. -/
structure Alike (ca ca' : Option CAttr) : Prop where
  width : ca.bind (·.byteCount) = ca'.bind (·.byteCount)
  vars : ∀ s, (ca.bind fun c => c.vars.lookup s) = ca'.bind fun c => c.vars.lookup s

/-- `m'` does what `m` does with the numbers turned round: on the same buffer, written up to its end, they have the same
result (value, error with its position, or panic), and after a success the bytes added differ in the order of the bytes
inside numbers only. -/
def Turns (m m' : M Nat) : Prop := ∀ pre : List Byte, pre.length ≤ isizeMax →
  (m ⟨pre, pre.length⟩).1 = (m' ⟨pre, pre.length⟩).1 ∧
  ∀ n, (m ⟨pre, pre.length⟩).1 = .ok n → ∃ bs, Sized bs ∧
    (m ⟨pre, pre.length⟩).2 = ⟨pre ++ image bs, pre.length + (image bs).length⟩ ∧
    (m' ⟨pre, pre.length⟩).2 = ⟨pre ++ imageTurned bs, pre.length + (image bs).length⟩

/-! ## The types -/

/-- The value of a field: `P` holds of it and of what `value_encode` makes of it. -/
structure FieldHas {V : Type} (P : V → Prop) (a : FieldAttrs V) (v : V) : Prop where
  plain : P v
  sent : ∀ g env, a.valueEncode = some g → P (g env v)

/-- A member of a word of bit fields: an integer field with `bits`; its byte order, if it has one of its own, is `o`. -/
structure WordMember {V : Type} (P : V → Prop) (k : IntKind) (o : Option ByteOrder) (start : Bool) (f : Field V) :
    Prop where
  kind : k.Valid
  size : k.size ≤ 8
  codec : ∃ g : V → Option Nat, f.enc = (fun v ca fa => encOption (encInt k) (g v) ca fa) ∧ ∀ v, P v → (g v).isSome
  used : f.attrs.isUse = true
  bits : f.attrs.bits.isSome = true
  starts : f.attrs.bitsStart = start
  order : f.attrs.byteorder = o.map OrderAttr.lit
  length : f.attrs.length = none
  offset : f.attrs.offset = none
  skip : (f.attrs.skip || f.attrs.skipEncode) = false
  custom : f.attrs.withEncode = none
  text : f.attrs.fromStr = none

/-- A list of fields in which every word of bit fields is started by its first member and has one integer type and
byte order.  `last` is the word the field before belongs to.  With `keep` (enum variants) a field without modifiers gets
those of the field before, so there must not be one right after a bit field. -/
inductive WordRun (keep : Bool) (P : Field V → V → Prop) : Option (IntKind × Option ByteOrder) → List (Field V) → Prop where
  | nil (last : Option (IntKind × Option ByteOrder)) : WordRun keep P last []
  | plain (last : Option (IntKind × Option ByteOrder)) {f : Field V} {fs : List (Field V)} : EncOk false f.attrs →
      (keep = true → last.isSome = true → f.attrs.isUse = true) → WordRun keep P none fs → WordRun keep P last (f :: fs)
  | start (last : Option (IntKind × Option ByteOrder)) {k : IntKind} {o : Option ByteOrder} {f : Field V}
      {fs : List (Field V)} : WordMember (P f) k o true f → WordRun keep P (some (k, o)) fs → WordRun keep P last (f :: fs)
  | member {k : IntKind} {o : Option ByteOrder} {f : Field V} {fs : List (Field V)} : WordMember (P f) k o false f →
      WordRun keep P (some (k, o)) fs → WordRun keep P (some (k, o)) (f :: fs)

/-- The encoders of the crate and of derived types, with the values that have addresses of at most 16 octets. -/
inductive Turnable : (α : Type) → (α → Prop) → Enc α → Prop where
  /-- Fewer values. -/
  | some {α : Type} {P Q : α → Prop} {e : Enc α} : (∀ v, Q v → P v) → Turnable α P e → Turnable α Q e
  | stop {α : Type} : Turnable α (fun _ => True) (fun _ _ _ => timeout)
  | int (k : IntKind) : Turnable Nat (fun _ => True) (encInt k)
  | f32 : Turnable Nat (fun _ => True) encF32
  | f64 : Turnable Nat (fun _ => True) encF64
  | bool : Turnable Bool (fun _ => True) encBool
  | char : Turnable Nat (fun _ => True) encChar
  | bytes : Turnable (List Byte) (fun _ => True) encBytes
  | ip : Turnable (List Byte) (fun d => d.length ≤ 16) encIp
  | ipAddr : Turnable IpAddr (fun a => a.octets.length ≤ 16) encIpAddr
  | mac : Turnable (List Byte) (fun _ => True) encMac
  | net : Turnable NetAddr (fun a => a.octets.length ≤ 16) encNet
  | unit : Turnable Unit (fun _ => True) encUnit
  | vec {α : Type} {P : α → Prop} {e : Enc α} : Turnable α P e → Turnable (List α) (fun l => ∀ a ∈ l, P a) (encVec e)
  | array {α : Type} {P : α → Prop} {e : Enc α} : Turnable α P e →
      Turnable (List α) (fun l => ∀ a ∈ l, P a) (encArray e)
  | tuple {α : Type} (es : List (Enc α)) (P : Enc α → α → Prop) : (∀ e ∈ es, Turnable α (P e) e) →
      Turnable (List α) (fun l => ∀ x ∈ es.zip l, P x.1 x.2) (encTuple es)
  | option {α : Type} {P : α → Prop} {e : Enc α} : Turnable α P e →
      Turnable (Option α) (fun o => ∀ a, o = some a → P a) (encOption e)
  | map {α β : Type} {P : α → Prop} {Q : β → Prop} {ek : Enc α} {ev : Enc β} : Turnable α P ek → Turnable β Q ev →
      Turnable (List (α × β)) (fun l => ∀ x ∈ l, P x.1 ∧ Q x.2) (encMap ek ev)
  /-- A type seen as a part of a sum type: `g v` is the value of this type. -/
  | project {α β : Type} {P : α → Prop} {e : Enc α} (g : β → Option α) : Turnable α P e →
      Turnable β (fun v => ∃ a, g v = some a ∧ P a) (fun v ca fa => encOption e (g v) ca fa)
  | struct {V : Type} (S : StructDef V) (P : Field V → V → Prop) : S.withEncode = none → WordRun false P none S.fields →
      (∀ f ∈ S.fields, Turnable V (P f) f.enc) →
      Turnable (List V) (fun vs => ∀ x ∈ S.fields.zip vs, FieldHas (P x.1) x.1.attrs x.2) (encStruct S)
  | enum {V : Type} (E : EnumDef V) (P : Field V → V → Prop) : (∀ v ∈ E.variants, EncOk false v.attrs) →
      (∀ v ∈ E.variants, WordRun true P none v.fields) → (∀ v ∈ E.variants, ∀ f ∈ v.fields, Turnable V (P f) f.enc) →
      Turnable (Nat × List V)
        (fun x => ∀ v, E.variants[x.1]? = some v → ∀ y ∈ v.fields.zip x.2, FieldHas (P y.1) y.1.attrs y.2)
        (encEnum E)

/-! ## Helper lemmas -/

theorem image_append (a b : List Block) : image (a ++ b) = image a ++ image b := by
  induction a with
  | nil => rfl
  | cons x a ih => simp [image, ih]

theorem imageTurned_append (a b : List Block) : imageTurned (a ++ b) = imageTurned a ++ imageTurned b := by
  induction a with
  | nil => rfl
  | cons x a ih => simp [imageTurned, ih]

theorem imageTurned_length (a : List Block) : (imageTurned a).length = (image a).length := by
  induction a with
  | nil => rfl
  | cons x a ih =>
    simp only [imageTurned, image, List.length_append, ih]
    split <;> simp

theorem Sized.append {a b : List Block} (ha : Sized a) (hb : Sized b) : Sized (a ++ b) := fun x hx =>
  (List.mem_append.mp hx).elim (ha x) (hb x)

theorem Sized.nil : Sized [] := fun x hx => by cases hx

/-- Two buffers with the images of the same pieces. -/
structure Pair (bs : List Block) (b b' : Buf) : Prop where
  left : b = ⟨image bs, (image bs).length⟩
  right : b' = ⟨imageTurned bs, (image bs).length⟩
  size : (image bs).length ≤ isizeMax

/-- From the images of `bs` the two programs have the same result, and after a success the images are those of `base`
and further pieces. -/
def TurnedFrom (base bs : List Block) (P : α → Prop) (m m' : M α) : Prop := ∀ b b', Pair bs b b' →
  (m b).1 = (m' b').1 ∧ ∀ a, (m b).1 = .ok a → P a ∧ ∃ more, Sized more ∧ Pair (base ++ more) (m b).2 (m' b').2

/-- `TurnedFrom` for programs that only add to the buffer. -/
def Turned (P : α → Prop) (m m' : M α) : Prop := ∀ bs, TurnedFrom bs bs P m m'

theorem Turned.after {P : α → Prop} {m m' : M α} (h : Turned P m m') (base more : List Block) (hm : Sized more) :
    TurnedFrom base (base ++ more) P m m' := by
  intro b b' hp
  obtain ⟨h1, h2⟩ := h _ b b' hp
  refine ⟨h1, fun a ha => ?_⟩
  obtain ⟨h3, m2, h4, h5⟩ := h2 a ha
  exact ⟨h3, more ++ m2, hm.append h4, by rw [← List.append_assoc]; exact h5⟩

theorem TurnedFrom.bind {base bs : List Block} {P : α → Prop} {Q : β → Prop} {m m' : M α} {f f' : α → M β}
    (hm : TurnedFrom base bs P m m')
    (hf : ∀ a, P a → ∀ more, Sized more → TurnedFrom base (base ++ more) Q (f a) (f' a)) :
    TurnedFrom base bs Q (m >>= f) (m' >>= f') := by
  intro b b' hp
  obtain ⟨h1, h2⟩ := hm b b' hp
  rw [bind_apply, bind_apply]
  rcases e : m b with ⟨o, b1⟩
  rcases e' : m' b' with ⟨o', b1'⟩
  rw [e, e'] at h1 h2
  simp only at h1 h2
  subst h1
  cases o with
  | ok a =>
    obtain ⟨h3, more, h4, h5⟩ := h2 a rfl
    exact hf a h3 more h4 b1 b1' h5
  | _ => exact ⟨rfl, nofun⟩

theorem Turned.bind {P : α → Prop} {Q : β → Prop} {m m' : M α} {f f' : α → M β} (hm : Turned P m m')
    (hf : ∀ a, P a → Turned Q (f a) (f' a)) : Turned Q (m >>= f) (m' >>= f') := fun bs =>
  (hm bs).bind fun a ha more hs => (hf a ha).after bs more hs

theorem Turned.pure {P : α → Prop} (a : α) (h : P a) : Turned P (Pure.pure a : M α) (Pure.pure a) := by
  intro bs b b' hp
  refine ⟨rfl, fun x hx => ?_⟩
  cases hx
  exact ⟨h, [], Sized.nil, by rw [List.append_nil]; exact hp⟩

theorem Turned.zero : Turned Any (Pure.pure 0 : M Nat) (Pure.pure 0) := Turned.pure 0 trivial

theorem Turned.fail {P : α → Prop} (c : ErrCode) : Turned P (M.fail c : M α) (M.fail c) := by
  intro bs b b' hp
  refine ⟨?_, nofun⟩
  rw [hp.left, hp.right]
  rfl

theorem Turned.panic {P : α → Prop} : Turned P (M.panic : M α) M.panic := fun _ _ _ _ => ⟨rfl, nofun⟩

theorem Turned.timeout {P : α → Prop} : Turned P (M.timeout : M α) M.timeout := fun _ _ _ _ => ⟨rfl, nofun⟩

/-- Writing without room: not a success, and the kind of failure depends on the lengths only. -/
theorem push_full (d d' : List Byte) (hd : d.length = d'.length) (l l' : List Byte) (hl : l.length = l'.length)
    (hs : l.length ≤ isizeMax) (h : isizeMax < l.length + d.length) :
    (push d ⟨l, l.length⟩).1 = (push d' ⟨l', l.length⟩).1 := by
  have h3 := isizeMax_lt
  unfold push
  simp only [bind_apply, remainingLen_apply, ite_apply']
  rw [if_pos (by omega), if_pos (by omega)]
  unfold bufResize
  simp only [bind_apply, getPos_apply, pure_apply, ← hd]
  by_cases hm : wadd l.length d.length ≤ isizeMax
  · rw [vecResize_apply _ _ hm, vecResize_apply _ _ hm]
    simp only
    by_cases h0 : wadd l.length d.length = 0
    · rw [if_pos h0, if_pos h0]
      rfl
    · rw [if_neg h0, if_neg h0]
      have hbig : isizeMax < d.length := by
        by_cases hlt : l.length + d.length < usizeMod
        · rw [wadd_eq hlt] at hm; omega
        · have := isizeMax_def
          have := usizeMod_def
          omega
      rw [overwrite_panic _ _ (by
          simp only [List.length_append, List.length_take, List.length_replicate]; omega),
        overwrite_panic _ _ (by
          simp only [List.length_append, List.length_take, List.length_replicate]; omega)]
  · rw [vecResize_panic _ _ hm, vecResize_panic _ _ hm]

/-- What the other order makes of a piece. -/
def Block.turn (x : Block) : List Byte := if x.1 then x.2.reverse else x.2

theorem Block.turn_length (x : Block) : x.turn.length = x.2.length := by
  unfold Block.turn
  split <;> simp

theorem push_tail (d l : List Byte) (h : l.length + d.length ≤ isizeMax) :
    push d ⟨l, l.length⟩ = (.ok d.length, ⟨l ++ d, l.length + d.length⟩) := by
  rw [push_apply d _ h (.inr (Nat.le_refl _)), writeAt_inside _ _ _ (Nat.le_refl _)]
  simp

/-- Writing one piece. -/
theorem push_piece (x : Block) (bs : List Block) (b b' : Buf) (hp : Pair bs b b') :
    (push x.2 b).1 = (push x.turn b').1 ∧
    ∀ n, (push x.2 b).1 = .ok n → n = x.2.length ∧ Pair (bs ++ [x]) (push x.2 b).2 (push x.turn b').2 := by
  have hl := imageTurned_length bs
  have ht := x.turn_length
  rw [hp.left, hp.right, ← hl]
  rw [show (⟨image bs, (imageTurned bs).length⟩ : Buf) = ⟨image bs, (image bs).length⟩ by rw [hl]]
  have hs := hp.size
  by_cases h : (image bs).length + x.2.length ≤ isizeMax
  · rw [push_tail _ _ h, push_tail _ _ (by omega)]
    refine ⟨by rw [ht], fun n hn => ?_⟩
    cases hn
    refine ⟨rfl, ⟨?_, ?_, ?_⟩⟩
    · simp [image_append, image]
    · simp only [image_append, imageTurned_append, image, imageTurned, List.append_nil, List.length_append, hl, ht]
      rfl
    · simp only [image_append, image, List.append_nil, List.length_append]
      exact h
  · have e := push_full x.2 x.turn ht.symm (image bs) (imageTurned bs) hl.symm hs (by omega)
    rw [hl]
    refine ⟨e, fun n hn => absurd (show push x.2 ⟨image bs, (image bs).length⟩ = (.ok n, _) from Prod.ext hn rfl) ?_⟩
    exact push_no_room ⟨Nat.le_refl _, hs⟩ (by simp only; omega) n _

theorem Turned.piece (x : Block) (hx : x.1 = true → x.2.length ≤ 16) : Turned Any (push x.2) (push x.turn) := by
  intro bs b b' hp
  obtain ⟨h1, h2⟩ := push_piece x bs b b' hp
  exact ⟨h1, fun n hn => ⟨trivial, [x], fun y hy => by rw [List.mem_singleton.mp hy]; exact hx, (h2 n hn).2⟩⟩

theorem Turned.push (d : List Byte) : Turned Any (push d) (push d) := Turned.piece (false, d) (fun h => nomatch h)

/-- The piece that is a number of `n` bytes, under two byte orders. -/
def numBlock (o o' : ByteOrder) (n v : Nat) : Block := (decide (o ≠ o'), toBytes o n v)

theorem numBlock_turn (o o' : ByteOrder) (n v : Nat) : (numBlock o o' n v).turn = toBytes o' n v := by
  cases o <;> cases o' <;> simp [numBlock, Block.turn, toBytes, toBE_reverse, toLE_reverse]

theorem Turned.num (o o' : ByteOrder) (n v : Nat) (hn : n ≤ 16) :
    Turned Any (JBytes.push (toBytes o n v)) (JBytes.push (toBytes o' n v)) := by
  have := Turned.piece (numBlock o o' n v) (fun _ => by simpa [numBlock] using hn)
  rwa [numBlock_turn] at this

theorem Turned.scalar (s : Scalar) (v : Nat) (o o' : ByteOrder) : Turned Any (pushScalar s v o) (pushScalar s v o') := by
  rw [pushScalar_eq, pushScalar_eq]
  exact Turned.num _ _ _ _ s.size_le16

theorem Turned.uint (v n : Nat) (o o' : ByteOrder) : Turned Any (pushUint v n o) (pushUint v n o') := by
  by_cases h : n ≤ 8
  · rw [pushUint_eq v n o h, pushUint_eq v n o' h]
    exact Turned.num _ _ _ _ (by omega)
  · rw [show pushUint v n o = M.fail .invalidByteLength from funext fun b => pushUint_wide v n o (by omega) b,
      show pushUint v n o' = M.fail .invalidByteLength from funext fun b => pushUint_wide v n o' (by omega) b]
    exact Turned.fail _

theorem Turned.seq {e1 e2 e1' e2' : M Nat} (h1 : Turned Any e1 e1') (h2 : Turned Any e2 e2') :
    Turned Any (do
      let n ← e1
      let m ← e2
      Pure.pure (n + m)) (do
      let n ← e1'
      let m ← e2'
      Pure.pure (n + m)) :=
  h1.bind fun _ _ => h2.bind fun _ _ => Turned.pure _ trivial

theorem Turned.encAll {e e' : α → M Nat} : ∀ l : List α, (∀ a ∈ l, Turned Any (e a) (e' a)) →
    Turned Any (encAll e l) (encAll e' l)
  | [], _ => Turned.zero
  | a :: l, h => Turned.seq (h a (by simp)) (Turned.encAll l fun x hx => h x (List.mem_cons_of_mem _ hx))

variable {ca ca' : Option CAttr} {fa : Option FAttr}

theorem encBits_word (k : IntKind) (v : Nat) (hb : StartsWord fa) :
    ∃ x, ∀ o, encBits k v o fa = Pure.pure x := by
  unfold encBits
  split
  · exact ⟨v, fun _ => rfl⟩
  · rename_i fr
    split
    · exact ⟨v, fun _ => rfl⟩
    · rename_i m hm
      rcases hb fr rfl with h | h
      · rw [hm] at h; cases h
      · simp only [h, if_true]
        exact ⟨_, fun _ => rfl⟩

theorem Turned.encInt (k : IntKind) (v : Nat) (hb : StartsWord fa) : Turned Any (encInt k v ca fa) (encInt k v ca' fa) := by
  obtain ⟨x, hx⟩ := encBits_word k v hb
  unfold JBytes.encInt
  simp only [hx]
  refine (Turned.pure x trivial).bind (P := Any) fun y _ => ?_
  cases fa.bind (·.length) with
  | none => exact Turned.scalar _ _ _ _
  | some n =>
    simp only
    split
    · exact Turned.fail _
    · exact Turned.uint _ _ _ _

theorem Turned.pushOpt (o : Option (List Byte)) : Turned Any (pushOpt o) (pushOpt o) := by
  cases o with
  | none => exact Turned.zero
  | some x => exact Turned.push _

theorem Turned.encBytes (d : List Byte) : Turned Any (encBytes d ca fa) (encBytes d ca' fa) := by
  have hpre : Turned Any (encBytesPrefix ca fa d.length) (encBytesPrefix ca' fa d.length) := by
    unfold encBytesPrefix
    cases fa with
    | none => exact Turned.push _
    | some fr =>
      simp only
      cases fr.length with
      | some _ => exact Turned.zero
      | none =>
        cases fr.byteCount with
        | some k => exact Turned.uint _ _ _ _
        | none =>
          simp only
          split
          · exact Turned.zero
          · split
            · exact Turned.zero
            · split
              · exact Turned.zero
              · exact Turned.push _
  unfold JBytes.encBytes
  exact (Turned.pushOpt _).bind fun _ _ => (Turned.pushOpt _).bind fun _ _ => hpre.bind fun _ _ =>
    (Turned.push _).bind fun _ _ => (Turned.pushOpt _).bind fun _ _ => Turned.pure _ trivial

theorem Turned.encIp (d : List Byte) (hd : d.length ≤ 16) : Turned Any (encIp d ca fa) (encIp d ca' fa) := by
  unfold JBytes.encIp pushByteorderArray
  cases getByteorder ca fa <;> cases getByteorder ca' fa <;> simp only
  · exact Turned.push _
  · exact Turned.piece (true, d) (fun _ => hd)
  · have := Turned.piece (true, d.reverse) (fun _ => by simpa using hd)
    simpa [Block.turn] using this
  · exact Turned.push _

theorem Turned.encMac (d : List Byte) : Turned Any (encMac d ca fa) (encMac d ca' fa) := Turned.uint _ _ _ _

theorem Turned.encIpAddr (v : IpAddr) (hv : v.octets.length ≤ 16) : Turned Any (encIpAddr v ca fa) (encIpAddr v ca' fa) := by
  cases v <;> exact Turned.encIp _ hv

theorem Turned.encNet (v : NetAddr) (hv : v.octets.length ≤ 16) (hb : StartsWord fa) :
    Turned Any (encNet v ca fa) (encNet v ca' fa) := by
  cases v with
  | v4 o => exact Turned.encIp _ hv
  | v6 o => exact Turned.encIp _ hv
  | mac o => exact Turned.encMac _
  | usize n => exact Turned.encInt _ _ hb

theorem Turned.pushCount (n : Nat) : Turned Any (pushCount ca fa n) (pushCount ca' fa n) := by
  unfold JBytes.pushCount
  cases fa with
  | none => exact Turned.push _
  | some fr =>
    simp only
    cases fr.byteCountOutside with
    | some k => exact Turned.uint _ _ _ _
    | none =>
      simp only
      split
      · exact Turned.zero
      · split
        · exact Turned.zero
        · exact Turned.push _

theorem Turned.encVec {e : Enc α} (l : List α) (h : ∀ a ∈ l, Turned Any (e a ca fa) (e a ca' fa)) :
    Turned Any (encVec e l ca fa) (encVec e l ca' fa) := by
  unfold JBytes.encVec
  cases fa.bind (·.loopSkipStarts) with
  | some p => exact Turned.encAll l fun a ha => Turned.seq (Turned.push _) (h a ha)
  | none => exact Turned.seq (Turned.pushCount _) (Turned.encAll l h)

theorem Turned.encTuple : ∀ (es : List (Enc α)) (l : List α),
    (∀ x ∈ es.zip l, Turned Any (x.1 x.2 ca fa) (x.1 x.2 ca' fa)) → Turned Any (encTuple es l ca fa) (encTuple es l ca' fa)
  | [], _, _ => by rw [JBytes.encTuple.eq_def, JBytes.encTuple.eq_def]; exact Turned.zero
  | _ :: _, [], _ => by rw [JBytes.encTuple.eq_def, JBytes.encTuple.eq_def]; exact Turned.zero
  | e :: es, a :: l, h => Turned.seq (h (e, a) (by simp))
      (Turned.encTuple es l fun x hx => h x (by simp only [List.zip_cons_cons]; exact List.mem_cons_of_mem _ hx))

theorem Turned.encMap {ek : Enc α} {ev : Enc β} (l : List (α × β))
    (h : ∀ x ∈ l, Turned Any (ek x.1 ca (keyFattr fa)) (ek x.1 ca' (keyFattr fa)) ∧
      Turned Any (ev x.2 ca (valFattr fa)) (ev x.2 ca' (valFattr fa))) :
    Turned Any (encMap ek ev l ca fa) (encMap ek ev l ca' fa) :=
  Turned.seq (Turned.pushCount _) (Turned.encAll l fun x hx => Turned.seq (h x hx).1 (h x hx).2)

/-! ### Derived code -/

theorem Turned.toCode {a : FieldAttrs V} (env : Env V) (P : Option FAttr → Prop)
    (hn : P none) (hs : ∀ o, P (some (a.modifiers o env))) : Turned P (a.toCode env) (a.toCode env) := by
  unfold FieldAttrs.toCode
  split
  · have ho : Turned Any (orderCode a.byteorder env) (orderCode a.byteorder env) := by
      unfold orderCode
      split
      · exact Turned.pure _ trivial
      · exact Turned.pure _ trivial
      · split
        · exact Turned.pure _ trivial
        · split
          · exact Turned.pure _ trivial
          · exact Turned.panic
    exact ho.bind fun o _ => Turned.pure _ (hs o)
  · exact Turned.pure _ hn

theorem EncOk.startsWord {a : FieldAttrs V} (ha : EncOk false a) (env : Env V) (o : Option ByteOrder) :
    StartsWord (some (a.modifiers o env)) := by
  rintro _ ⟨⟩
  rcases ha.bits with h | h
  · left
    simp [FieldAttrs.modifiers, h]
  · right
    simp [FieldAttrs.modifiers, h]

theorem Turned.padLoop (x : Byte) : ∀ n : Nat, Turned Any (padLoop x n) (padLoop x n)
  | 0 => Turned.pure _ trivial
  | n + 1 => (Turned.push [x]).bind fun _ _ => Turned.padLoop x n

theorem Turned.padOffset (a : FieldAttrs V) (env : Env V) : Turned Any (padOffset a env) (padOffset a env) := by
  unfold JBytes.padOffset
  split
  · exact Turned.padLoop _ _
  · exact Turned.pure _ trivial

theorem Turned.encField {f : Field V} {env : Env V} {v : V} {P : V → Prop} (ha : f.attrs.withEncode = none)
    (hv : FieldHas P f.attrs v) (h : ∀ v, P v → Turned Any (f.enc v ca fa) (f.enc v ca' fa)) :
    Turned Any (encField f env v ca fa) (encField f env v ca' fa) := by
  unfold JBytes.encField
  rw [ha]
  simp only
  split
  · exact Turned.zero
  · have ht : Turned Any (encText f.attrs v ca fa) (encText f.attrs v ca' fa) := by
      unfold encText
      cases f.attrs.fromStr with
      | some ps => exact Turned.encBytes _
      | none => exact Turned.zero
    have hp : Turned Any (encPlain f env v ca fa) (encPlain f env v ca' fa) := by
      unfold encPlain
      refine (Turned.padOffset f.attrs env).bind fun _ _ => ?_
      cases hg : f.attrs.valueEncode with
      | some g => exact h _ (hv.sent g env hg)
      | none => exact h _ hv.plain
    refine ht.bind fun n _ => ?_
    split
    · exact hp.bind fun m _ => Turned.pure _ trivial
    · exact Turned.pure _ trivial

/-- The order a member of a word is written in. -/
def wordOrder (ca : Option CAttr) (o : Option ByteOrder) : ByteOrder := getByteorder ca (some { byteorder := o })

/-- What the buffers end with between two fields. -/
def Ready (ca ca' : Option CAttr) (base bs : List Block) : Option (IntKind × Option ByteOrder) → Prop
  | none => ∃ more, Sized more ∧ bs = base ++ more
  | some (k, o) => ∃ more x, Sized more ∧ k.size ≤ 8 ∧ x < 256 ^ k.size ∧
      bs = base ++ more ++ [numBlock (wordOrder ca o) (wordOrder ca' o) k.size x]

theorem Ready.drop {base bs : List Block} {l : Option (IntKind × Option ByteOrder)} (h : Ready ca ca' base bs l) :
    ∃ more, Sized more ∧ bs = base ++ more := by
  cases l with
  | none => exact h
  | some x =>
    obtain ⟨k, o⟩ := x
    obtain ⟨more, x, h1, h2, h3, h4⟩ := h
    refine ⟨more ++ [_], h1.append ?_, by rw [h4, List.append_assoc]⟩
    intro y hy _
    rw [List.mem_singleton.mp hy]
    have : (toBytes (wordOrder ca o) k.size x).length ≤ 16 := by rw [toBytes_length]; omega
    exact this

/-- The first member of a word writes the word. -/
theorem first_member (k : IntKind) (hk : k.Valid) (v : Nat) (fr : FAttr) (m : Nat) (hb : fr.bits = some m)
    (hl : fr.length = none) (hs : fr.bitsStart = true) :
    ∃ x < 256 ^ k.size, ∀ ca, encInt k v ca (some fr) = push (toBytes (getByteorder ca (some fr)) k.size x) := by
  refine ⟨bitsShl k (8 * k.size) v (fromU64 k m) % 256 ^ k.size, Nat.mod_lt _ (Nat.pow_pos (by decide)), fun ca => ?_⟩
  funext b
  unfold encInt encBits
  simp only [Option.bind_some, hb, hl, hs, if_true, bind_apply, pure_apply]
  rw [pushScalar_eq, scalar_size hk, toBytes_mod]

/-- A later member puts its bits into the word before it, whatever the byte order. -/
theorem later_member (k : IntKind) (hk : k.Valid) (h8 : k.size ≤ 8) (v : Nat) (fr : FAttr) (m : Nat)
    (hb : fr.bits = some m) (hl : fr.length = none) (hs : fr.bitsStart = false) (x : Nat) (hx : x < 256 ^ k.size) :
    ∃ y < 256 ^ k.size, ∀ (ca : Option CAttr) (o : ByteOrder), getByteorder ca (some fr) = o → ∀ pre : List Byte,
      pre.length + k.size ≤ isizeMax →
      encInt k v ca (some fr) ⟨pre ++ toBytes o k.size x, pre.length + k.size⟩ =
        (.ok k.size, ⟨pre ++ toBytes o k.size y, pre.length + k.size⟩) := by
  refine ⟨(bitsShl k (8 * k.size) v (fromU64 k m) ||| fromU64 k x) % 256 ^ k.size,
    Nat.mod_lt _ (Nat.pow_pos (by decide)), fun ca o ho pre hsz => ?_⟩
  have hread := Reads.uint o k.size x [] h8 hx pre (by simpa using hsz)
  simp only [List.append_nil, toBytes_length] at hread
  unfold encInt encBits
  rw [ho]
  simp only [Option.bind_some, hb, hl, hs]
  simp only [Bool.false_eq_true, if_false, bind_apply, getPos, setPos, wsub_add, hread, pure_apply]
  rw [pushScalar_eq, scalar_size hk, push_apply _ _ (by simpa using hsz) (.inr (by simp)),
    writeAt_inside _ _ _ (by simp), toBytes_mod]
  simp only [toBytes_length]
  rw [List.take_left' rfl, List.drop_eq_nil_of_le (by simp), List.append_nil]

theorem wordOrder_eq (ca : Option CAttr) (o : Option ByteOrder) (fr : FAttr) (h : fr.byteorder = o) :
    getByteorder ca (some fr) = wordOrder ca o := by
  subst h
  rfl

/-- The field that is a member of a word: its modifiers and what is run for it. -/
theorem WordMember.run {P : V → Prop} {k : IntKind} {o : Option ByteOrder} {st : Bool} {f : Field V}
    (h : WordMember P k o st f) (env : Env V) (v : V) (hv : FieldHas P f.attrs v) :
    ∃ fr m n, fr.bits = some m ∧ fr.length = none ∧ fr.bitsStart = st ∧ fr.byteorder = o ∧
      f.attrs.toCode env = Pure.pure (some fr) ∧
      ∀ ca, encField f env v ca (some fr) = (encInt k n ca (some fr) >>= fun m => Pure.pure (0 + m)) := by
  obtain ⟨g, hg, hgs⟩ := h.codec
  obtain ⟨bits, hbits⟩ := Option.isSome_iff_exists.mp h.bits
  have hval : ∃ n, ∀ ca fa, (∀ w, f.attrs.valueEncode = some w → f.enc (w env v) ca fa = encInt k n ca fa) ∧
      (f.attrs.valueEncode = none → f.enc v ca fa = encInt k n ca fa) := by
    cases hw : f.attrs.valueEncode with
    | none =>
      obtain ⟨n, hn⟩ := Option.isSome_iff_exists.mp (hgs v hv.plain)
      exact ⟨n, fun ca fa => ⟨(fun _ h => nomatch h), fun _ => by simp only [hg, hn]; rfl⟩⟩
    | some w =>
      obtain ⟨n, hn⟩ := Option.isSome_iff_exists.mp (hgs _ (hv.sent w env hw))
      refine ⟨n, fun ca fa => ⟨fun w' h => ?_, (fun h => nomatch h)⟩⟩
      cases h
      simp only [hg, hn]
      rfl
  obtain ⟨n, hn⟩ := hval
  refine ⟨f.attrs.modifiers o env, bits env, n, by simp [FieldAttrs.modifiers, hbits],
    by simp [FieldAttrs.modifiers, h.length], h.starts, rfl, ?_, fun ca => ?_⟩
  · have ha : f.attrs.anySet = true := by simp [FieldAttrs.anySet, h.bits]
    unfold FieldAttrs.toCode
    rw [h.used, ha, h.order]
    cases o <;> rfl
  · funext b
    unfold encField
    rw [h.custom]
    simp only [h.skip, Bool.false_eq_true, if_false, h.bits, Bool.true_or, if_true]
    rw [bind_apply]
    unfold encText
    rw [h.text]
    simp only [pure_apply]
    rw [bind_apply, bind_apply]
    unfold encPlain padOffset
    rw [h.offset]
    simp only
    rw [bind_apply]
    simp only [pure_apply]
    cases hw : f.attrs.valueEncode with
    | none => simp only [(hn ca (some (f.attrs.modifiers o env))).2 hw]
    | some w => simp only [(hn ca (some (f.attrs.modifiers o env))).1 w hw]

/-- The fields of a struct or a variant. -/
theorem fields_twin (keep : Bool) (P : Field V → V → Prop) (hca : Alike ca ca') (fs : List (Field V)) :
    ∀ (last : Option (IntKind × Option ByteOrder)), WordRun keep P last fs →
    (∀ f ∈ fs, ∀ v, P f v → ∀ ca ca' fa, Alike ca ca' → StartsWord fa → Turned Any (f.enc v ca fa) (f.enc v ca' fa)) →
    ∀ (old : Option FAttr) (env : Env V) (vs : List V), (keep = true → last = none → StartsWord old) →
    (∀ x ∈ fs.zip vs, FieldHas (P x.1) x.1.attrs x.2) → ∀ base bs, Ready ca ca' base bs last →
    TurnedFrom base bs Any (encFields keep fs ca old env vs) (encFields keep fs ca' old env vs) := by
  induction fs with
  | nil =>
    intro last _ _ old env vs _ _ base bs hr
    obtain ⟨more, h1, h2⟩ := hr.drop
    rw [encFields.eq_def, encFields.eq_def, h2]
    exact Turned.zero.after base more h1
  | cons f fs ih =>
    intro last hrun hen old env vs hold hvs base bs hr
    cases vs with
    | nil =>
      obtain ⟨more, h1, h2⟩ := hr.drop
      rw [encFields.eq_def, encFields.eq_def, h2]
      exact Turned.zero.after base more h1
    | cons v vs =>
      have hfv : FieldHas (P f) f.attrs v := hvs (f, v) (by simp)
      have hrest : ∀ x ∈ fs.zip vs, FieldHas (P x.1) x.1.attrs x.2 := fun x hx =>
        hvs x (by simp only [List.zip_cons_cons]; exact List.mem_cons_of_mem _ hx)
      have hen' := fun g hg => hen g (List.mem_cons_of_mem f hg)
      rw [encFields.eq_def, encFields.eq_def]
      simp only
      cases hrun with
      | plain _ hok huse hrun =>
        obtain ⟨more, h1, h2⟩ := hr.drop
        have hstart : Turned StartsWord
            (if (keep && !f.attrs.isUse) = true then (Pure.pure old : M _) else f.attrs.toCode env)
            (if (keep && !f.attrs.isUse) = true then (Pure.pure old : M _) else f.attrs.toCode env) := by
          split
          · rename_i hk
            simp only [Bool.and_eq_true, Bool.not_eq_true'] at hk
            refine Turned.pure _ (hold hk.1 ?_)
            cases hl : last with
            | none => rfl
            | some y =>
              rw [huse hk.1 (by rw [hl]; rfl)] at hk
              exact absurd hk.2 (by decide)
          · exact Turned.toCode env _ StartsWord.none (hok.startsWord env)
        rw [h2]
        refine (hstart.after base more h1).bind fun fa hfa m2 hm2 => ?_
        have hf := Turned.encField (fa := fa) (env := env) (ca := ca) (ca' := ca') hok.custom hfv
          (fun w hw => hen f (by simp) w hw ca ca' fa hca hfa)
        refine (hf.after base m2 hm2).bind fun n _ m3 hm3 => ?_
        refine (ih none hrun hen' fa _ vs (fun _ _ => hfa) hrest base _ ⟨m3, hm3, rfl⟩).bind
          fun m _ m4 hm4 => (Turned.pure _ trivial).after base m4 hm4
      | start _ hw hrun =>
        rename_i k o
        obtain ⟨more, h1, h2⟩ := hr.drop
        obtain ⟨fr, m, n, hb, hl, hs, ho, hcode, hrunf⟩ := hw.run env v hfv
        have hif : (if (keep && !f.attrs.isUse) = true then (Pure.pure old : M _) else f.attrs.toCode env) =
            Pure.pure (some fr) := by rw [hw.used, hcode]; simp
        rw [hif]
        obtain ⟨x, hx, hpush⟩ := first_member k hw.kind n fr m hb hl hs
        intro b b' hp
        have hpp := push_piece (numBlock (wordOrder ca o) (wordOrder ca' o) k.size x) bs b b' hp
        rw [numBlock_turn] at hpp
        rw [bind_apply, bind_apply, pure_apply, pure_apply]
        simp only
        rw [bind_apply, bind_apply, hrunf, hrunf, bind_apply, bind_apply, hpush, hpush, wordOrder_eq ca o fr ho,
          wordOrder_eq ca' o fr ho]
        simp only [numBlock] at hpp
        obtain ⟨hp1, hp2⟩ := hpp
        generalize push (toBytes (wordOrder ca o) k.size x) b = r at hp1 hp2 ⊢
        generalize push (toBytes (wordOrder ca' o) k.size x) b' = r' at hp1 hp2 ⊢
        obtain ⟨q, b1⟩ := r
        obtain ⟨q', b1'⟩ := r'
        simp only at hp1 hp2
        subst hp1
        cases q with
        | ok a =>
          obtain ⟨_, hpair⟩ := hp2 a rfl
          simp only [pure_apply]
          have hnext := ih (some (k, o)) hrun hen' (some fr) (env.push v) vs (fun _ h => nomatch h) hrest base
            (bs ++ [numBlock (wordOrder ca o) (wordOrder ca' o) k.size x])
            ⟨more, x, h1, hw.size, hx, by rw [h2]⟩
          exact (hnext.bind fun m _ m4 hm4 => (Turned.pure _ trivial).after base m4 hm4) b1 b1' hpair
        | _ => exact ⟨rfl, nofun⟩
      | member hw hrun =>
        rename_i k o
        obtain ⟨more, x, h1, h8, hx, h2⟩ := hr
        obtain ⟨fr, m, n, hb, hl, hs, ho, hcode, hrunf⟩ := hw.run env v hfv
        have hif : (if (keep && !f.attrs.isUse) = true then (Pure.pure old : M _) else f.attrs.toCode env) =
            Pure.pure (some fr) := by rw [hw.used, hcode]; simp
        rw [hif]
        obtain ⟨y, hy, hmem⟩ := later_member k hw.kind h8 n fr m hb hl hs x hx
        intro b b' hp
        rw [bind_apply, bind_apply, pure_apply, pure_apply]
        simp only
        have hsize := hp.size
        have hlen := imageTurned_length (base ++ more)
        have hnb : ∀ z, (numBlock (wordOrder ca o) (wordOrder ca' o) k.size z).2.length = k.size := by
          intro z; simp [numBlock]
        have himg : ∀ z, image (base ++ more ++ [numBlock (wordOrder ca o) (wordOrder ca' o) k.size z]) =
            image (base ++ more) ++ toBytes (wordOrder ca o) k.size z := by
          intro z; rw [image_append]; simp [image, numBlock]
        have htrn : ∀ z, imageTurned (base ++ more ++ [numBlock (wordOrder ca o) (wordOrder ca' o) k.size z]) =
            imageTurned (base ++ more) ++ toBytes (wordOrder ca' o) k.size z := by
          intro z
          rw [imageTurned_append, ← numBlock_turn (wordOrder ca o)]
          simp [imageTurned, Block.turn]
        have hbe : b = ⟨image (base ++ more) ++ toBytes (wordOrder ca o) k.size x,
            (image (base ++ more)).length + k.size⟩ := by
          rw [hp.left, h2, himg]; simp
        have hbe' : b' = ⟨imageTurned (base ++ more) ++ toBytes (wordOrder ca' o) k.size x,
            (imageTurned (base ++ more)).length + k.size⟩ := by
          rw [hp.right, h2, himg, htrn]; simp [hlen]
        have hroom : (image (base ++ more)).length + k.size ≤ isizeMax := by
          rw [h2, himg, List.length_append, toBytes_length] at hsize
          exact hsize
        have e1 := hmem ca _ (wordOrder_eq ca o fr ho) (image (base ++ more)) hroom
        have e2 := hmem ca' _ (wordOrder_eq ca' o fr ho) (imageTurned (base ++ more)) (by rw [hlen]; exact hroom)
        rw [bind_apply, bind_apply, hrunf, hrunf, bind_apply, bind_apply, hbe, hbe', e1, e2]
        simp only [pure_apply]
        have hnext := ih (some (k, o)) hrun hen' (some fr) (env.push v) vs (fun _ h => nomatch h) hrest base
          (base ++ more ++ [numBlock (wordOrder ca o) (wordOrder ca' o) k.size y]) ⟨more, y, h1, h8, hy, rfl⟩
        refine (hnext.bind fun m _ m4 hm4 => (Turned.pure _ trivial).after base m4 hm4) _ _ ⟨?_, ?_, ?_⟩
        · rw [himg]; simp
        · rw [himg, htrn]; simp [hlen]
        · rw [himg]; simpa using hroom

theorem Turned.encTagMode (E : EnumDef V) (c : Option CAttr) (hc : Alike E.container c) (v : Variant V) (num : Nat) :
    Turned Any (encTagMode E v num ca fa) (encTagMode { E with container := c } v num ca' fa) := by
  have hb : Turned Any (encTagByte E.byteCountDisable num) (encTagByte E.byteCountDisable num) := by
    unfold encTagByte
    split
    · exact Turned.zero
    · exact Turned.push _
  unfold JBytes.encTagMode
  simp only
  split
  · exact Turned.push _
  · exact Turned.zero
  · exact Turned.push _
  · unfold encTag
    rw [← hc.width]
    cases fa with
    | some fr =>
      simp only
      cases fr.branch with
      | some _ => exact Turned.zero
      | none =>
        cases E.container.bind (·.byteCount) with
        | some k => exact Turned.uint _ _ _ _
        | none =>
          cases fr.byteCount with
          | some k => exact Turned.uint _ _ _ _
          | none => exact hb
    | none =>
      cases E.container.bind (·.byteCount) with
      | some k => exact Turned.uint _ _ _ _
      | none => exact hb

theorem localVars_alike (hca : Alike ca ca') (names : List String) : localVars names ca = localVars names ca' := by
  unfold localVars
  simp only [hca.vars]

theorem struct_twin (S : StructDef V) (c : Option CAttr) (hc : Alike S.container c) (P : Field V → V → Prop)
    (hw : S.withEncode = none) (hrun : WordRun false P none S.fields)
    (hen : ∀ f ∈ S.fields, ∀ v, P f v → ∀ ca ca' fa, Alike ca ca' → StartsWord fa →
      Turned Any (f.enc v ca fa) (f.enc v ca' fa)) (vs : List V)
    (hvs : ∀ x ∈ S.fields.zip vs, FieldHas (P x.1) x.1.attrs x.2) (hca : Alike ca ca') :
    Turned Any (encStruct S vs ca fa) (encStruct { S with container := c } vs ca' fa) := by
  intro bs
  unfold encStruct
  simp only [hw]
  rw [localVars_alike hca]
  exact fields_twin false P hc S.fields none hrun hen none _ vs (fun h => nomatch h) hvs bs bs
    ⟨[], Sized.nil, by simp⟩

theorem variant_twin (E : EnumDef V) (c : Option CAttr) (hc : Alike E.container c) (P : Field V → V → Prop)
    (v : Variant V) (num : Nat) (hv : EncOk false v.attrs) (hrun : WordRun true P none v.fields)
    (hen : ∀ f ∈ v.fields, ∀ x, P f x → ∀ ca ca' fa, Alike ca ca' → StartsWord fa →
      Turned Any (f.enc x ca fa) (f.enc x ca' fa)) (vs : List V)
    (hvs : ∀ x ∈ v.fields.zip vs, FieldHas (P x.1) x.1.attrs x.2) (hca : Alike ca ca') :
    Turned Any (encVariant E v num vs ca fa) (encVariant { E with container := c } v num vs ca' fa) := by
  unfold encVariant
  simp only [localVars_alike hca]
  refine (Turned.toCode (P := StartsWord) _ StartsWord.none (hv.startsWord _)).bind fun old hold => ?_
  refine (Turned.encTagMode E c hc v num).bind fun n _ => ?_
  refine (Turned.padOffset v.attrs _).bind fun _ _ bs => ?_
  exact (fields_twin true P hc v.fields none hrun hen old _ vs (fun _ _ => hold) hvs bs bs
    ⟨[], Sized.nil, by simp⟩).bind fun m _ more hm => (Turned.pure _ trivial).after bs more hm

theorem enum_twin (E : EnumDef V) (c : Option CAttr) (hc : Alike E.container c) (P : Field V → V → Prop)
    (hv : ∀ v ∈ E.variants, EncOk false v.attrs) (hrun : ∀ v ∈ E.variants, WordRun true P none v.fields)
    (hen : ∀ v ∈ E.variants, ∀ f ∈ v.fields, ∀ x, P f x → ∀ ca ca' fa, Alike ca ca' → StartsWord fa →
      Turned Any (f.enc x ca fa) (f.enc x ca' fa)) (x : Nat × List V)
    (hx : ∀ v, E.variants[x.1]? = some v → ∀ y ∈ v.fields.zip x.2, FieldHas (P y.1) y.1.attrs y.2)
    (hca : Alike ca ca') :
    Turned Any (encEnum E x ca fa) (encEnum { E with container := c } x ca' fa) := by
  unfold encEnum
  simp only [EnumDef.numbers]
  cases he : (E.variants.zip (variantNumbers 0 E.variants))[x.1]? with
  | none => exact Turned.zero
  | some y =>
    obtain ⟨v, num⟩ := y
    have hmem : v ∈ E.variants := (List.of_mem_zip (List.mem_of_getElem? he)).1
    have hget : E.variants[x.1]? = some v := by
      rw [List.getElem?_zip_eq_some] at he
      exact he.1
    exact variant_twin E c hc P v num (hv v hmem) (hrun v hmem) (hen v hmem) x.2 (hx v hget) hca

/-- Every encoder of the universe. -/
theorem Turnable.twin {P : α → Prop} {e : Enc α} (h : Turnable α P e) : ∀ (v : α), P v →
    ∀ (ca ca' : Option CAttr) (fa : Option FAttr), Alike ca ca' → StartsWord fa →
    Turned Any (e v ca fa) (e v ca' fa) := by
  induction h with
  | some hq _ ih => exact fun v hv => ih v (hq v hv)
  | stop => exact fun _ _ _ _ _ _ _ => Turned.timeout
  | int k => exact fun v _ _ _ _ _ hf => Turned.encInt k v hf
  | f32 => exact fun _ _ _ _ _ _ _ => Turned.scalar _ _ _ _
  | f64 => exact fun _ _ _ _ _ _ _ => Turned.scalar _ _ _ _
  | bool => exact fun _ _ _ _ _ _ _ => Turned.push _
  | char => exact fun _ _ _ _ _ _ _ => Turned.push _
  | bytes => exact fun _ _ _ _ _ _ _ => Turned.encBytes _
  | ip => exact fun _ hv _ _ _ _ _ => Turned.encIp _ hv
  | ipAddr => exact fun _ hv _ _ _ _ _ => Turned.encIpAddr _ hv
  | mac => exact fun _ _ _ _ _ _ _ => Turned.encMac _
  | net => exact fun _ hv _ _ _ _ hf => Turned.encNet _ hv hf
  | unit => exact fun _ _ _ _ _ _ _ => Turned.zero
  | vec _ ih => exact fun l hv ca ca' fa hca hf => Turned.encVec l fun a ha => ih a (hv a ha) ca ca' fa hca hf
  | array _ ih => exact fun l hv ca ca' fa hca hf => Turned.encAll l fun a ha => ih a (hv a ha) ca ca' fa hca hf
  | tuple es P _ ih =>
    exact fun l hv ca ca' fa hca hf => Turned.encTuple es l fun x hx =>
      ih x.1 (List.of_mem_zip hx).1 x.2 (hv x hx) ca ca' fa hca hf
  | option _ ih =>
    intro o hv ca ca' fa hca hf
    cases o with
    | none => exact Turned.zero
    | some a => exact ih a (hv a rfl) ca ca' fa hca hf
  | map _ _ ihk ihv =>
    exact fun l hv ca ca' fa hca hf => Turned.encMap l fun x hx =>
      ⟨ihk x.1 (hv x hx).1 ca ca' _ hca hf.key, ihv x.2 (hv x hx).2 ca ca' _ hca hf.val⟩
  | project g _ ih =>
    rintro v ⟨a, ha, hp⟩ ca ca' fa hca hf
    simp only [ha]
    exact ih a hp ca ca' fa hca hf
  | struct S P hw hrun _ ih =>
    exact fun vs hvs ca ca' fa hca _ =>
      struct_twin S S.container ⟨rfl, fun _ => rfl⟩ P hw hrun ih vs hvs hca
  | enum E P hv hrun _ ih =>
    exact fun x hx ca ca' fa hca _ =>
      enum_twin E E.container ⟨rfl, fun _ => rfl⟩ P hv hrun ih x hx hca

theorem Turned.turns {m m' : M Nat} (h : Turned Any m m') : Turns m m' := by
  intro pre hpre
  have hp : Pair [(false, pre)] ⟨pre, pre.length⟩ ⟨pre, pre.length⟩ := by
    refine ⟨?_, ?_, ?_⟩ <;> simp [image, imageTurned, hpre]
  obtain ⟨h1, h2⟩ := h _ _ _ hp
  refine ⟨h1, fun n hn => ?_⟩
  obtain ⟨_, more, hs, hq⟩ := h2 n hn
  refine ⟨more, hs, ?_, ?_⟩
  · rw [hq.left]; simp [image]
  · rw [hq.right]; simp [image, imageTurned]

/-! ## C110 -/

/-- C110, encoding: for every type and value, in surroundings that differ in the byte order only, the encoder has the
same result (also the same error or panic), writes as many bytes, and the images differ only in that the bytes inside
numbers and addresses are turned round. -/
theorem C110_encode (P : α → Prop) (e : Enc α) (h : Turnable α P e) (v : α) (hv : P v) (ca ca' : Option CAttr)
    (hca : Alike ca ca') (fa : Option FAttr) (hf : StartsWord fa) : Turns (e v ca fa) (e v ca' fa) :=
  (h.twin v hv ca ca' fa hca hf).turns

/-- C110 for a declaration: the same for a struct whose declared byte order is changed (`c` instead of the container
modifiers `S.container`), whatever is around it; words of bit fields are turned as wholes. -/
theorem C110_struct (S : StructDef V) (P : Field V → V → Prop) (hw : S.withEncode = none)
    (hrun : WordRun false P none S.fields) (hen : ∀ f ∈ S.fields, Turnable V (P f) f.enc) (c : Option CAttr)
    (hc : Alike S.container c) (vs : List V) (hvs : ∀ x ∈ S.fields.zip vs, FieldHas (P x.1) x.1.attrs x.2)
    (ca : Option CAttr) (fa : Option FAttr) :
    Turns (encStruct S vs ca fa) (encStruct { S with container := c } vs ca fa) :=
  (struct_twin S c hc P hw hrun (fun f hf => (hen f hf).twin) vs hvs ⟨rfl, fun _ => rfl⟩).turns

/-- C110 for an enum whose declared byte order is changed. -/
theorem C110_enum (E : EnumDef V) (P : Field V → V → Prop) (hv : ∀ v ∈ E.variants, EncOk false v.attrs)
    (hrun : ∀ v ∈ E.variants, WordRun true P none v.fields)
    (hen : ∀ v ∈ E.variants, ∀ f ∈ v.fields, Turnable V (P f) f.enc) (c : Option CAttr) (hc : Alike E.container c)
    (x : Nat × List V)
    (hx : ∀ v, E.variants[x.1]? = some v → ∀ y ∈ v.fields.zip x.2, FieldHas (P y.1) y.1.attrs y.2)
    (ca : Option CAttr) (fa : Option FAttr) :
    Turns (encEnum E x ca fa) (encEnum { E with container := c } x ca fa) :=
  (enum_twin E c hc P hv hrun (fun v hv f hf => (hen v hv f hf).twin) x hx ⟨rfl, fun _ => rfl⟩).turns

/-- C110, numbers are turned, all of them: a number written as `w` in one order is `w` backwards in the other. -/
theorem C110_number (k : IntKind) (v : Nat) (ca ca' : Option CAttr) (fa : Option FAttr) (hf : StartsWord fa)
    (ho : effectiveOrder ca fa ≠ effectiveOrder ca' fa) (pre w : List Byte) (n : Nat) (hp : pre.length ≤ isizeMax)
    (he : encInt k v ca fa ⟨pre, pre.length⟩ = (.ok n, ⟨pre ++ w, pre.length + w.length⟩)) :
    encInt k v ca' fa ⟨pre, pre.length⟩ = (.ok n, ⟨pre ++ w.reverse, pre.length + w.length⟩) := by
  obtain ⟨x, hx⟩ := encBits_word k v hf
  have key : ∀ m y, push (toBytes (effectiveOrder ca fa) m y) ⟨pre, pre.length⟩ =
      (.ok n, ⟨pre ++ w, pre.length + w.length⟩) → push (toBytes (effectiveOrder ca' fa) m y) ⟨pre, pre.length⟩ =
      (.ok n, ⟨pre ++ w.reverse, pre.length + w.length⟩) := by
    intro m y h
    by_cases hr : pre.length + m ≤ isizeMax
    · rw [push_tail _ _ (by simpa using hr)] at h ⊢
      simp only [toBytes_length, Prod.mk.injEq, Out.ok.injEq, Buf.mk.injEq, List.append_cancel_left_eq,
        Nat.add_left_cancel_iff] at h ⊢
      obtain ⟨h1, h2, h3⟩ := h
      refine ⟨h1, ?_, h3⟩
      rw [← h2]
      generalize effectiveOrder ca fa = o at ho
      generalize effectiveOrder ca' fa = o' at ho
      cases o <;> cases o' <;> simp_all [toBytes, toBE_reverse, toLE_reverse]
    · exact absurd h (push_no_room ⟨Nat.le_refl _, hp⟩ (by simp only [toBytes_length]; omega) _ _)
  unfold encInt at he ⊢
  simp only [hx, getByteorder_eq, bind_apply, pure_apply] at he ⊢
  cases hl : fa.bind (·.length) with
  | none =>
    simp only [hl] at he ⊢
    rw [pushScalar_eq] at he ⊢
    exact key _ _ he
  | some m =>
    simp only [hl] at he ⊢
    split at he
    · cases he
    · rename_i hm
      rw [if_neg hm]
      by_cases h8 : m ≤ 8
      · rw [pushUint_eq _ _ _ h8] at he ⊢
        exact key _ _ he
      · rw [pushUint_wide _ _ _ (by omega)] at he
        cases he

/-- C110, text is not: byte strings, and their keys, separators and terminators, are the same bytes in both orders. -/
theorem C110_text (d : List Byte) (ca ca' : Option CAttr) (fa : Option FAttr) (hf : fa.bind (·.byteCount) = none) :
    encBytes d ca fa = encBytes d ca' fa := by
  have : encBytesPrefix ca fa d.length = encBytesPrefix ca' fa d.length := by
    unfold encBytesPrefix
    cases fa with
    | none => rfl
    | some fr =>
      have hb : fr.byteCount = none := hf
      simp only [hb]
  unfold encBytes
  rw [this]

/-- C110, decoding, is violated: a field `length = 9` of a 128-bit integer is refused with an error in a big-endian
struct and is a panic, for every input, once the struct is declared little-endian. -/
theorem C110_decode_violated (b : Buf) :
    (∃ e, decInt ⟨16, false⟩ (some { byteorder := some .be }) (some { length := some 9 }) b = (.err e, b)) ∧
    decInt ⟨16, false⟩ (some { byteorder := some .le }) (some { length := some 9 }) b = (.panic, b) := by
  constructor
  · refine ⟨⟨b.pos, .invalidByteLength⟩, ?_⟩
    show (decWord ⟨16, false⟩ .be (some 9) >>= _) b = _
    rw [bind_apply]
    have : decWord ⟨16, false⟩ .be (some 9) b = (.err ⟨b.pos, .invalidByteLength⟩, b) := by
      show (takeUint 9 .be >>= _) b = _
      rw [bind_apply, C04_wide_be_partial 9 (by decide)]
    rw [this]
  · show (decWord ⟨16, false⟩ .le (some 9) >>= _) b = _
    rw [bind_apply]
    have : decWord ⟨16, false⟩ .le (some 9) b = (.panic, b) := by
      show (takeUint 9 .le >>= _) b = _
      rw [bind_apply, C04_wide_le_violated 9 (by decide)]
    rw [this]

/-! ## Instances -/

/-- A number in a field of `Val`. -/
theorem numEnc_turnable (k : IntKind) : Turnable Val (fun v => ∃ a, numOf v = some a ∧ True) (numEnc k) := by
  have e : numEnc k = fun v ca fa => encOption (encInt k) (numOf v) ca fa := by
    funext v ca fa
    cases v <;> rfl
  rw [e]
  exact .project _ (.int k)

/-- The bytes in a value. -/
def bytesIn : Val → Option (List Byte)
  | .bytes l => some l
  | _ => none

theorem bytesEnc_turnable : Turnable Val (fun v => ∃ a, bytesIn v = some a ∧ True) bytesEnc := by
  have e : bytesEnc = fun v ca fa => encOption encBytes (bytesIn v) ca fa := by
    funext v ca fa
    cases v <;> rfl
  rw [e]
  exact .project _ .bytes

/-- A word of two bit fields, a text with a two-byte length, a number that is always little-endian and one that is not:
`#[bits_start] #[bits = 0xFC00] a: u16, #[bits = 0x03FF] b: u16, #[byte_count = 2] text, #[byteorder = LE] c: u16, d: u16`. -/
def record : StructDef Val := { fields := [
  u16Field { isUse := true, bits := some fun _ => 0xFC00, bitsStart := true },
  u16Field { isUse := true, bits := some fun _ => 0x03FF },
  bytesField { isUse := true, byteCount := some fun _ => 2 },
  u16Field { isUse := true, byteorder := some (.lit .le) }, u16Field {}] }

/-- What the values of the fields of `record` are. -/
def recordHas (f : Field Val) (v : Val) : Prop := (f.attrs.byteCount.isSome = true → (bytesIn v).isSome = true) ∧
  (f.attrs.byteCount.isSome = false → (numOf v).isSome = true)

theorem record_word (a : FieldAttrs Val) (st : Bool) (hc : a.byteCount.isSome = false) (hu : a.isUse = true)
    (hb : a.bits.isSome = true) (hs : a.bitsStart = st) (ho : a.byteorder = none) (hl : a.length = none)
    (hoff : a.offset = none) (hsk : (a.skip || a.skipEncode) = false) (hw : a.withEncode = none)
    (ht : a.fromStr = none) : WordMember (recordHas (u16Field a)) ⟨2, false⟩ none st (u16Field a) := by
  refine ⟨.mk _ _ (by decide), by decide, ⟨numOf, ?_, fun v hv => hv.2 hc⟩, hu, hb, hs, ho, hl, hoff, hsk, hw, ht⟩
  funext v ca fa
  cases v <;> rfl

theorem record_run : WordRun false recordHas none record.fields := by
  refine .start _ (record_word _ _ rfl rfl rfl rfl rfl rfl rfl rfl rfl rfl) (.member
    (record_word _ _ rfl rfl rfl rfl rfl rfl rfl rfl rfl rfl) (.plain _ ?_ (fun h => nomatch h) (.plain _ ?_
    (fun h => nomatch h) (.plain _ ?_ (fun h => nomatch h) (.nil _)))))
  all_goals exact ⟨rfl, .inl rfl, (fun h => nomatch h)⟩

theorem record_turnable : ∀ f ∈ record.fields, Turnable Val (recordHas f) f.enc := by
  intro f hf
  have hnum : ∀ a : FieldAttrs Val, a.byteCount.isSome = false → Turnable Val (recordHas (u16Field a)) (u16Field a).enc :=
    fun a ha => .some (fun v hv => (Option.isSome_iff_exists.mp (hv.2 ha)).imp fun _ h => ⟨h, trivial⟩)
      (numEnc_turnable _)
  simp only [record, List.mem_cons, List.not_mem_nil, or_false] at hf
  rcases hf with rfl | rfl | rfl | rfl | rfl
  · exact hnum _ rfl
  · exact hnum _ rfl
  · exact .some (fun v hv => (Option.isSome_iff_exists.mp (hv.1 rfl)).imp fun _ h => ⟨h, trivial⟩) bytesEnc_turnable
  · exact hnum _ rfl
  · exact hnum _ rfl

/-- C110 on `record`, for all values: declared little-endian, it has the same result and the turned image. -/
example (a b c d : Nat) (t : List Byte) :
    Turns (encStruct record [.num a, .num b, .bytes t, .num c, .num d] none none)
      (encStruct { record with container := some { byteorder := some .le } } [.num a, .num b, .bytes t, .num c, .num d]
        none none) := by
  have hc : Alike record.container (some { byteorder := some .le }) := ⟨rfl, fun _ => rfl⟩
  refine C110_struct record recordHas rfl record_run record_turnable (some { byteorder := some .le }) hc
    [.num a, .num b, .bytes t, .num c, .num d] ?_ none none
  have hn : ∀ (a : FieldAttrs Val) (n : Nat), a.byteCount.isSome = false → a.valueEncode = none →
      FieldHas (recordHas (u16Field a)) a (.num n) := fun a n h h' =>
    ⟨⟨fun h'' => absurd (h.symm.trans h'') (by decide), fun _ => rfl⟩, fun g env h => (by rw [h'] at h; cases h)⟩
  intro x hx
  simp only [record, List.zip_cons_cons, List.zip_nil_right, List.mem_cons, List.not_mem_nil, or_false] at hx
  rcases hx with rfl | rfl | rfl | rfl | rfl
  · exact hn _ _ rfl rfl
  · exact hn _ _ rfl rfl
  · exact ⟨⟨fun _ => rfl, (fun h => nomatch h)⟩, fun g env h => (by cases h)⟩
  · exact hn _ _ rfl rfl
  · exact hn _ _ rfl rfl

example : encStruct record [.num 1, .num 2, .bytes [65, 66], .num 3, .num 0x0405] none none ⟨[], 0⟩ =
      (.ok 12, ⟨[0x04, 0x02, 0, 2, 65, 66, 3, 0, 4, 5], 10⟩) ∧
    encStruct { record with container := some { byteorder := some .le } }
        [.num 1, .num 2, .bytes [65, 66], .num 3, .num 0x0405] none none ⟨[], 0⟩ =
      (.ok 12, ⟨[0x02, 0x04, 2, 0, 65, 66, 3, 0, 5, 4], 10⟩) := by
  refine ⟨?_, ?_⟩ <;> decide +kernel

example : encInt ⟨4, false⟩ 0x01020304 (some { byteorder := some .le }) none ⟨[9], 1⟩ =
    (.ok 4, ⟨[9] ++ ([1, 2, 3, 4] : List Byte).reverse, 5⟩) :=
  C110_number ⟨4, false⟩ 0x01020304 none (some { byteorder := some .le }) none StartsWord.none (by decide) [9] [1, 2, 3, 4] 4
    (by rw [isizeMax_def]; decide) (by decide +kernel)

end JBytes
