import Verif.PropOrder
import Verif.Local
/-!
# Changing the byte order of a declaration: decoding (C110)

What is accepted in one byte order is accepted in the other once its numbers are turned round, and gives the same value.
-/

namespace JBytes
open M

variable {α β V : Type}

/-! ## Specification -/

/-- `m'` reads what `m` reads with the numbers turned round: whatever `m` accepts, it has consumed pieces such that `m'`,
given the pieces with the numbers turned round, anywhere and with anything behind, accepts them with the same value and
consumes just them. -/
def ReadsTurned (m m' : M α) : Prop := ∀ (b : Buf) (v : α) (b' : Buf), b.Ok → m b = (.ok v, b') →
  ∃ bs, Sized bs ∧ b' = ⟨b.data, b.pos + (image bs).length⟩ ∧
    image bs = (b.data.drop b.pos).take (image bs).length ∧
    ∀ pre suf : List Byte, pre.length + (image bs).length + suf.length ≤ isizeMax →
      m' ⟨pre ++ imageTurned bs ++ suf, pre.length⟩ =
        (.ok v, ⟨pre ++ imageTurned bs ++ suf, pre.length + (image bs).length⟩)

/-! ## The types -/

/-- Nothing that depends on where the data ends: no `remaining`, `try_count`, `loop_skip_starts`. -/
def SelfFramed (fa : Option FAttr) : Prop := ∀ fr, fa = some fr →
  fr.remaining = false ∧ fr.tryCount = none ∧ fr.loopSkipStarts = none

/-- The modifiers of a field or variant: no user-written decoder, no `offset`, and as in `SelfFramed`. -/
structure ReadOk {V : Type} (a : FieldAttrs V) : Prop where
  custom : a.withDecode = none
  offset : a.offset = none
  remaining : a.remaining = false
  tryCount : a.tryCount = none
  loops : a.loopSkipStarts = none

/-- A member of a word of bit fields: an integer field with `bits`, put back (`untake`) if `peek`. -/
structure WordReader {V : Type} (k : IntKind) (o : Option ByteOrder) (peek : Bool) (f : Field V) : Prop where
  codec : ∃ g : Nat → V, f.dec = fun ca fa => do
    let a ← decInt k ca fa
    return g a
  ok : ReadOk f.attrs
  used : f.attrs.isUse = true
  bits : f.attrs.bits.isSome = true
  order : f.attrs.byteorder = o.map OrderAttr.lit
  length : f.attrs.length = none
  cond : f.attrs.ifExpr = none
  skip : (f.attrs.skip || f.attrs.skipDecode) = false
  text : f.attrs.fromStr = none
  peek : f.attrs.untake = peek

/-- A list of fields in which bytes are put back only inside a word of bit fields, which has one integer type and byte
order; `head` is the word the list starts with. -/
inductive ReadRun : Option (IntKind × Option ByteOrder) → List (Field V) → Prop where
  | nil : ReadRun none []
  | plain (next : Option (IntKind × Option ByteOrder)) {f : Field V} {fs : List (Field V)} : ReadOk f.attrs →
      f.attrs.untake = false → ReadRun next fs → ReadRun none (f :: fs)
  | last (next : Option (IntKind × Option ByteOrder)) {k : IntKind} {o : Option ByteOrder} {f : Field V}
      {fs : List (Field V)} : WordReader k o false f → ReadRun next fs → ReadRun (some (k, o)) (f :: fs)
  | more {k : IntKind} {o : Option ByteOrder} {f : Field V} {fs : List (Field V)} : WordReader k o true f →
      ReadRun (some (k, o)) fs → ReadRun (some (k, o)) (f :: fs)

/-- The decoders of the crate and of derived types whose values say themselves where they end. -/
inductive Readable : (α : Type) → Dec α → Prop where
  | int (k : IntKind) : Readable Nat (decInt k)
  | f32 : Readable Nat decF32
  | f64 : Readable Nat decF64
  | bool : Readable Bool decBool
  | char : Readable Nat decChar
  | bytes : Readable (List Byte) decBytes
  | str : Readable (List Byte) decStr
  | ipv4 : Readable (List Byte) decIpv4
  | ipv6 : Readable (List Byte) decIpv6
  | ip : Readable IpAddr decIpAddr
  | mac : Readable (List Byte) decMac
  | net : Readable NetAddr decNet
  | unit : Readable Unit decUnit
  | vec {α : Type} {d : Dec α} (n : Nat) : Readable α d → Readable (List α) (decVec n d)
  | array {α : Type} {d : Dec α} (k : Nat) : Readable α d → Readable (List α) (decArray k d)
  | tuple {α : Type} (ds : List (Dec α)) : (∀ d ∈ ds, Readable α d) → Readable (List α) (decTuple ds)
  | set {α : Type} [DecidableEq α] {d : Dec α} : Readable α d → Readable (List α) (decSet d)
  | map {α β : Type} [DecidableEq α] {dk : Dec α} {dv : Dec β} : Readable α dk → Readable β dv →
      Readable (List (α × β)) (decMap dk dv)
  /-- A type seen as a part of a sum type. -/
  | inject {α β : Type} {d : Dec α} (g : α → β) : Readable α d → Readable β (fun ca fa => do
      let a ← d ca fa
      return g a)
  | struct {V : Type} (S : StructDef V) (head : Option (IntKind × Option ByteOrder)) : S.withDecode = none →
      ReadRun head S.fields → (∀ f ∈ S.fields, Readable V f.dec) → Readable (List V) (decStruct S)
  | enum {V : Type} (E : EnumDef V) : E.withDecode = none → (∀ u, E.mode ≠ .startsWith u) →
      (∀ v ∈ E.variants, ReadOk v.attrs) → (∀ v ∈ E.variants, ∃ head, ReadRun head v.fields) →
      (∀ v ∈ E.variants, ∀ f ∈ v.fields, Readable V f.dec) → Readable (Nat × List V) (decEnum E)

/-! ## Helper lemmas -/

/-- `ReadsTurned` knowing `H` of the pieces. -/
def Mirrors (H : List Block → Prop) (m m' : M α) : Prop := ∀ (b : Buf) (v : α) (b' : Buf), b.Ok → m b = (.ok v, b') →
  ∃ bs, H bs ∧ Sized bs ∧ b' = ⟨b.data, b.pos + (image bs).length⟩ ∧
    image bs = (b.data.drop b.pos).take (image bs).length ∧
    ∀ pre suf : List Byte, pre.length + (image bs).length + suf.length ≤ isizeMax →
      m' ⟨pre ++ imageTurned bs ++ suf, pre.length⟩ =
        (.ok v, ⟨pre ++ imageTurned bs ++ suf, pre.length + (image bs).length⟩)

/-- Nothing is known of the pieces. -/
def AnyBlocks (_ : List Block) : Prop := True

/-- One piece, of `n` bytes. -/
def OneBlock (t : Bool) (n : Nat) (bs : List Block) : Prop := ∃ w, bs = [(t, w)] ∧ w.length = n

/-- The first piece has `n` bytes. -/
def FirstBlock (t : Bool) (n : Nat) (bs : List Block) : Prop := ∃ w rest, bs = (t, w) :: rest ∧ w.length = n

theorem Mirrors.ok {H : List Block → Prop} {bs : List Block} {b : Buf} (hb : b.Ok)
    (hw : image bs = (b.data.drop b.pos).take (image bs).length) :
    b.pos + (image bs).length ≤ b.data.length := by
  have := congrArg List.length hw
  rw [List.length_take, List.length_drop] at this
  have := hb.1
  omega

/-- First `m`, then `f`: what is known of the pieces of `m` is known of the first of all. -/
theorem Mirrors.bindHead {H : List Block → Prop} {m m' : M α} {f f' : α → M β} (hm : Mirrors H m m')
    (hf : ∀ a, Mirrors AnyBlocks (f a) (f' a)) :
    Mirrors (fun bs => ∃ b1 b2, bs = b1 ++ b2 ∧ H b1) (m >>= f) (m' >>= f') := by
  intro b v b' hb h
  obtain ⟨a, b1, h1, h2⟩ := bind_ok h
  obtain ⟨x, hH, hs, hb1, hx, hmx⟩ := hm b a b1 hb h1
  have hle := Mirrors.ok (H := H) hb hx
  have hok : b1.Ok := by rw [hb1]; exact ⟨hle, hb.2⟩
  obtain ⟨y, _, hs', hb2, hy, hfy⟩ := hf a b1 v b' hok h2
  refine ⟨x ++ y, ⟨x, y, rfl, hH⟩, hs.append hs', ?_, ?_, fun pre suf hl => ?_⟩
  · rw [hb2, hb1, image_append, List.length_append, Nat.add_assoc]
  · rw [image_append, List.length_append, List.take_add, List.drop_drop, ← hx]
    rw [hb1] at hy
    rw [← hy]
  · rw [image_append, List.length_append] at hl ⊢
    rw [imageTurned_append]
    have e1 := hmx pre (imageTurned y ++ suf) (by rw [List.length_append, imageTurned_length]; omega)
    have e2 := hfy (pre ++ imageTurned x) suf (by rw [List.length_append, imageTurned_length]; omega)
    rw [List.length_append, imageTurned_length] at e2
    simp only [List.append_assoc] at e1 e2 ⊢
    rw [bind_apply, e1]
    simp only
    rw [e2, Nat.add_assoc]

theorem Mirrors.bind {H : List Block → Prop} {m m' : M α} {f f' : α → M β} (hm : Mirrors H m m')
    (hf : ∀ a, Mirrors AnyBlocks (f a) (f' a)) : Mirrors AnyBlocks (m >>= f) (m' >>= f') := by
  intro b v b' hb h
  obtain ⟨bs, _, hr⟩ := hm.bindHead hf b v b' hb h
  exact ⟨bs, trivial, hr⟩

theorem Mirrors.any {H : List Block → Prop} {m m' : M α} (h : Mirrors H m m') : Mirrors AnyBlocks m m' :=
  fun b v b' hb he => (h b v b' hb he).imp fun _ h => ⟨trivial, h.2⟩

theorem Mirrors.pure (a : α) : Mirrors AnyBlocks (Pure.pure a : M α) (Pure.pure a) := by
  intro b v b' hb h
  cases h
  refine ⟨[], trivial, Sized.nil, rfl, rfl, fun pre suf _ => ?_⟩
  simp [image, imageTurned, pure_apply]

theorem Mirrors.never {H : List Block → Prop} {m m' : M α} (h : ∀ b v b', b.Ok → m b ≠ (.ok v, b')) : Mirrors H m m' :=
  fun b v b' hb he => absurd he (h b v b' hb)

theorem Mirrors.fail {H : List Block → Prop} (c : ErrCode) (m' : M α) : Mirrors H (M.fail c : M α) m' :=
  .never fun _ _ _ _ h => by cases h

theorem Mirrors.panic {H : List Block → Prop} (m' : M α) : Mirrors H (M.panic : M α) m' :=
  .never fun _ _ _ _ h => by cases h

/-- A program that reads `k` bytes of its input: one piece. -/
theorem Mirrors.piece {m m' : M α} (t : Bool) (K : Nat → Prop)
    (h : ∀ (b : Buf) (v : α) (b' : Buf), b.Ok → m b = (.ok v, b') →
      ∃ k, K k ∧ b' = ⟨b.data, b.pos + k⟩ ∧ b.pos + k ≤ b.data.length ∧ (t = true → k ≤ 16) ∧
      ∀ pre suf : List Byte, pre.length + k + suf.length ≤ isizeMax →
        m' ⟨pre ++ Block.turn (t, (b.data.drop b.pos).take k) ++ suf, pre.length⟩ =
          (.ok v, ⟨pre ++ Block.turn (t, (b.data.drop b.pos).take k) ++ suf, pre.length + k⟩)) :
    Mirrors (fun bs => ∃ w, bs = [(t, w)] ∧ K w.length) m m' := by
  intro b v b' hb he
  obtain ⟨k, hK, h1, h2, h3, h4⟩ := h b v b' hb he
  have hl : ((b.data.drop b.pos).take k).length = k := by
    rw [List.length_take, List.length_drop]; omega
  refine ⟨[(t, (b.data.drop b.pos).take k)], ⟨_, rfl, by rw [hl]; exact hK⟩, ?_, ?_, ?_, ?_⟩
  · intro x hx ht
    rw [List.mem_singleton.mp hx] at ht ⊢
    rw [hl]
    exact h3 ht
  · simp only [image, List.append_nil, hl, h1]
  · simp only [image, List.append_nil, hl]
  · intro pre suf hs
    simp only [image, imageTurned, List.append_nil, hl] at hs ⊢
    exact h4 pre suf hs

theorem drop_mid (pre w suf : List Byte) : (pre ++ w ++ suf).drop pre.length = w ++ suf := by simp

theorem mid_ok {pre w suf : List Byte} {k : Nat} (hw : w.length = k) (h : pre.length + k + suf.length ≤ isizeMax) :
    (⟨pre ++ w ++ suf, pre.length⟩ : Buf).Ok := by
  subst hw
  constructor
  · simp
  · simp only [List.length_append]; omega

theorem takeBytes_mid (n : Nat) (pre w suf : List Byte) (hw : w.length = n)
    (h : pre.length + n + suf.length ≤ isizeMax) :
    takeBytes n ⟨pre ++ w ++ suf, pre.length⟩ = (.ok w, ⟨pre ++ w ++ suf, pre.length + n⟩) := by
  rw [takeBytes_apply n _ (mid_ok hw h)]
  simp only
  rw [if_neg (by simp only [List.length_append]; omega), drop_mid, List.take_left' hw]

theorem Mirrors.takeBytes (n : Nat) : Mirrors AnyBlocks (takeBytes n) (takeBytes n) := by
  refine (Mirrors.piece false (fun _ => True) fun b v b' hb h => ?_).any
  rw [takeBytes_apply n b hb] at h
  split at h
  · cases h
  · rename_i hn
    cases h
    have hl : ((b.data.drop b.pos).take n).length = n := by
      rw [List.length_take, List.length_drop]; omega
    have := hb.1
    exact ⟨n, trivial, rfl, by omega, (fun h => nomatch h), fun pre suf hs => takeBytes_mid n pre _ suf hl hs⟩

/-- A number of `n` bytes. -/
theorem Mirrors.number (n : Nat) (hn : n ≤ 16) (o o' : ByteOrder) (m m' : M Nat)
    (hm : ∀ b : Buf, b.Ok → m b = mapM' (fromBytes o) (JBytes.takeBytes n) b)
    (hm' : ∀ b : Buf, b.Ok → m' b = mapM' (fromBytes o') (JBytes.takeBytes n) b) :
    Mirrors (OneBlock (decide (o ≠ o')) n) m m' := by
  refine Mirrors.piece _ (· = n) fun b v b' hb h => ?_
  rw [hm b hb, mapM'_apply, takeBytes_apply n b hb] at h
  by_cases hlt : b.data.length - b.pos < n
  · rw [if_pos hlt] at h
    cases h
  · rw [if_neg hlt] at h
    cases h
    have hb1 := hb.1
    have hl : ((b.data.drop b.pos).take n).length = n := by
      rw [List.length_take, List.length_drop]; omega
    refine ⟨n, rfl, rfl, by omega, fun _ => hn, fun pre suf hs => ?_⟩
    have ht : (Block.turn (decide (o ≠ o'), (b.data.drop b.pos).take n)).length = n := by
      rw [Block.turn_length]; exact hl
    rw [hm' _ (mid_ok ht hs), mapM'_apply, takeBytes_mid n pre _ suf ht hs]
    simp only [Prod.mk.injEq, Out.ok.injEq, and_true]
    cases o <;> cases o' <;> simp [Block.turn, fromBytes, beVal_reverse, leVal_reverse]

theorem Mirrors.takeScalar (s : Scalar) (o o' : ByteOrder) :
    Mirrors (OneBlock (decide (o ≠ o')) s.size) (takeScalar s o) (takeScalar s o') :=
  .number s.size s.size_le16 o o' _ _ (fun b hb => takeScalar_eq_fixed s o b hb) fun b hb => takeScalar_eq_fixed s o' b hb

theorem Mirrors.takeUint (n : Nat) (o o' : ByteOrder) : Mirrors AnyBlocks (takeUint n o) (takeUint n o') := by
  by_cases h : n ≤ 8
  · exact (Mirrors.number n (by omega) o o' _ _ (fun b _ => takeN_apply o 8 n h b) fun b _ => takeN_apply o' 8 n h b).any
  · refine Mirrors.never fun b v b' _ he => ?_
    cases o
    · rw [C04_wide_be_partial n (by omega)] at he; cases he
    · rw [C04_wide_le_violated n (by omega)] at he; cases he

theorem Mirrors.index0 (l : List Byte) : Mirrors AnyBlocks (index0 l) (index0 l) := by
  cases l with
  | nil => exact Mirrors.panic _
  | cons x xs => exact Mirrors.pure x

theorem Mirrors.takeU8 : Mirrors AnyBlocks takeU8 takeU8 := (Mirrors.takeBytes 1).bind fun _ => Mirrors.index0 _

theorem Mirrors.findSubsequence (x : List Byte) : Mirrors AnyBlocks (findSubsequence x) (findSubsequence x) := by
  refine (Mirrors.piece false (fun _ => True) fun b v b' hb h => ?_).any
  rw [findSubsequence_apply x b hb] at h
  rcases hf : findSub x (b.data.drop b.pos) with _ | i
  · rw [hf] at h; cases h
  · rw [hf] at h
    cases h
    have hle := (findSub_some hf).1.le
    have hb1 := hb.1
    rw [List.length_drop] at hle
    have hl : ((b.data.drop b.pos).take (i + x.length)).length = i + x.length := by
      rw [List.length_take, List.length_drop]; omega
    refine ⟨i + x.length, trivial, rfl, by omega, (fun h => nomatch h), fun pre suf hs => ?_⟩
    show JBytes.findSubsequence x ⟨pre ++ (b.data.drop b.pos).take (i + x.length) ++ suf, pre.length⟩ = _
    rw [findSubsequence_apply x _ (mid_ok hl hs)]
    simp only [drop_mid]
    rw [findSub_local (hay' := (b.data.drop b.pos).take (i + x.length) ++ suf) hf
      (by rw [List.length_append, hl]; omega) (by rw [List.take_left' hl])]
    simp only
    rw [List.take_append_of_le_length (by omega), List.take_take, Nat.min_eq_left (by omega)]
    rfl

theorem Mirrors.findNeedle (x : List Byte) :
    Mirrors AnyBlocks (findSubsequenceNeedle x true) (findSubsequenceNeedle x true) := by
  refine (Mirrors.piece false (fun _ => True) fun b v b' hb h => ?_).any
  rw [findSubsequenceNeedle_apply x true b hb] at h
  rcases hf : findSub x (b.data.drop b.pos) with _ | i
  · rw [hf] at h; cases h
  · rw [hf] at h
    cases h
    have hle := (findSub_some hf).1.le
    have hb1 := hb.1
    rw [List.length_drop] at hle
    have hl : ((b.data.drop b.pos).take (i + x.length)).length = i + x.length := by
      rw [List.length_take, List.length_drop]; omega
    refine ⟨i + x.length, trivial, rfl, by omega, (fun h => nomatch h), fun pre suf hs => ?_⟩
    show JBytes.findSubsequenceNeedle x true ⟨pre ++ (b.data.drop b.pos).take (i + x.length) ++ suf, pre.length⟩ = _
    rw [findSubsequenceNeedle_apply x true _ (mid_ok hl hs)]
    simp only [drop_mid]
    rw [findSub_local (hay' := (b.data.drop b.pos).take (i + x.length) ++ suf) hf
      (by rw [List.length_append, hl]; omega) (by rw [List.take_left' hl])]
    simp only [if_true]
    rw [List.take_left' hl]
    rfl

theorem Mirrors.findSubsequences (ns : List (List Byte)) : Mirrors AnyBlocks (findSubsequences ns) (findSubsequences ns) := by
  refine (Mirrors.piece false (fun _ => True) fun b v b' hb h => ?_).any
  rw [findSubsequences_apply ns b hb] at h
  rcases hf : acFind ns (b.data.drop b.pos) with _ | ⟨s, e⟩
  · rw [hf] at h; cases h
  · rw [hf] at h
    cases h
    obtain ⟨hle, ⟨n, _, _, hs⟩, _⟩ := acFind_some hf
    have hb1 := hb.1
    rw [List.length_drop] at hle
    have hl : ((b.data.drop b.pos).take e).length = e := by
      rw [List.length_take, List.length_drop]; omega
    refine ⟨e, trivial, rfl, by omega, (fun h => nomatch h), fun pre suf hss => ?_⟩
    show JBytes.findSubsequences ns ⟨pre ++ (b.data.drop b.pos).take e ++ suf, pre.length⟩ = _
    rw [findSubsequences_apply ns _ (mid_ok hl hss)]
    simp only [drop_mid]
    rw [acFind_local (hay' := (b.data.drop b.pos).take e ++ suf) hf
      (by rw [List.length_append, hl]; omega) (by rw [List.take_left' hl])]
    simp only
    rw [List.take_append_of_le_length (by omega), List.take_take, Nat.min_eq_left (by omega)]
    rfl

theorem Mirrors.repeatM {m m' : M α} (h : Mirrors AnyBlocks m m') (n : Nat) :
    Mirrors AnyBlocks (repeatM m n) (repeatM m' n) := by
  induction n with
  | zero => exact Mirrors.pure _
  | succ n ih => exact h.bind fun _ => ih.bind fun _ => Mirrors.pure _

/-! ### Codecs of the crate -/

theorem Mirrors.decWord (k : IntKind) (o o' : ByteOrder) (l : Option Nat) :
    Mirrors AnyBlocks (decWord k o l) (decWord k o' l) := by
  unfold JBytes.decWord
  cases l with
  | none => exact (Mirrors.takeScalar _ _ _).any
  | some n =>
    simp only
    split
    · exact Mirrors.fail _ _
    · exact (Mirrors.takeUint _ _ _).bind fun _ => Mirrors.pure _

theorem Mirrors.decInt (k : IntKind) (ca ca' : Option CAttr) (fa : Option FAttr) :
    Mirrors AnyBlocks (decInt k ca fa) (decInt k ca' fa) := by
  unfold JBytes.decInt
  refine (Mirrors.decWord _ _ _ _).bind fun v => ?_
  split <;> exact Mirrors.pure _

theorem Mirrors.andPure {H : List Block → Prop} {m m' : M α} (hm : Mirrors H m m') (g : α → β) :
    Mirrors H (m >>= fun a => (Pure.pure (g a) : M β)) (m' >>= fun a => (Pure.pure (g a) : M β)) := by
  intro b v b' hb h
  obtain ⟨a, b1, h1, h2⟩ := bind_ok h
  cases h2
  obtain ⟨bs, hH, hs, hb1, hx, hmx⟩ := hm b a b' hb h1
  refine ⟨bs, hH, hs, hb1, hx, fun pre suf hl => ?_⟩
  rw [bind_apply, hmx pre suf hl]
  rfl

/-- An integer without `length` is one piece. -/
theorem Mirrors.word (k : IntKind) (ca ca' : Option CAttr) (fa : Option FAttr) (hl : fa.bind (·.length) = none) :
    Mirrors (OneBlock (decide (getByteorder ca fa ≠ getByteorder ca' fa)) k.scalar.size)
      (JBytes.decInt k ca fa) (JBytes.decInt k ca' fa) := by
  unfold JBytes.decInt
  rw [hl]
  cases fa.bind (·.bits) with
  | none => exact (Mirrors.takeScalar _ _ _).andPure _
  | some m => exact (Mirrors.takeScalar _ _ _).andPure _

theorem Mirrors.skipNeedle (o : Option (List Byte)) : Mirrors AnyBlocks (skipNeedle o) (skipNeedle o) := by
  cases o with
  | none => exact Mirrors.pure _
  | some x => exact (Mirrors.findNeedle x).bind fun _ => Mirrors.pure _

theorem Mirrors.takePrefixed : Mirrors AnyBlocks takePrefixed takePrefixed :=
  Mirrors.takeU8.bind fun _ => Mirrors.takeBytes _

theorem Mirrors.decBytes (ca ca' : Option CAttr) (fa : Option FAttr) (h : SelfFramed fa) :
    Mirrors AnyBlocks (decBytes ca fa) (decBytes ca' fa) := by
  unfold JBytes.decBytes
  cases fa with
  | none => exact Mirrors.takePrefixed
  | some fr =>
    refine (Mirrors.skipNeedle _).bind fun _ => (Mirrors.skipNeedle _).bind fun _ => ?_
    rw [(h fr rfl).1]
    split
    · exact Mirrors.takeBytes _
    · split
      · exact (Mirrors.takeUint _ _ _).bind fun _ => Mirrors.takeBytes _
      · split
        · exact Mirrors.findSubsequences _
        · split
          · exact Mirrors.findSubsequence _
          · exact Mirrors.takePrefixed

theorem Mirrors.decStr (ca ca' : Option CAttr) (fa : Option FAttr) (h : SelfFramed fa) :
    Mirrors AnyBlocks (decStr ca fa) (decStr ca' fa) := by
  refine (Mirrors.decBytes ca ca' fa h).bind fun v => ?_
  split
  · exact Mirrors.pure _
  · exact Mirrors.fail _ _

theorem Mirrors.decIpv4 (ca ca' : Option CAttr) (fa : Option FAttr) :
    Mirrors AnyBlocks (decIpv4 ca fa) (decIpv4 ca' fa) :=
  (Mirrors.takeScalar _ _ _).bind fun _ => Mirrors.pure _

theorem Mirrors.decIpv6 (ca ca' : Option CAttr) (fa : Option FAttr) :
    Mirrors AnyBlocks (decIpv6 ca fa) (decIpv6 ca' fa) :=
  (Mirrors.takeScalar _ _ _).bind fun _ => Mirrors.pure _

theorem Mirrors.decMac (ca ca' : Option CAttr) (fa : Option FAttr) :
    Mirrors AnyBlocks (decMac ca fa) (decMac ca' fa) :=
  (Mirrors.takeUint _ _ _).bind fun _ => Mirrors.pure _

theorem Mirrors.decIpAddr (ca ca' : Option CAttr) (fa : Option FAttr) :
    Mirrors AnyBlocks (decIpAddr ca fa) (decIpAddr ca' fa) := by
  unfold JBytes.decIpAddr
  split
  · split
    · exact (Mirrors.decIpv6 ca ca' fa).bind fun _ => Mirrors.pure _
    · split
      · exact (Mirrors.decIpv4 ca ca' fa).bind fun _ => Mirrors.pure _
      · exact Mirrors.fail _ _
  · exact Mirrors.fail _ _

theorem Mirrors.decNet (ca ca' : Option CAttr) (fa : Option FAttr) :
    Mirrors AnyBlocks (decNet ca fa) (decNet ca' fa) := by
  unfold JBytes.decNet
  split
  · split
    · exact Mirrors.fail _ _
    · split
      · exact (Mirrors.decIpv4 ca ca' _).bind fun _ => Mirrors.pure _
      · split
        · exact (Mirrors.decMac ca ca' _).bind fun _ => Mirrors.pure _
        · split
          · exact (Mirrors.decIpv6 ca ca' _).bind fun _ => Mirrors.pure _
          · exact (Mirrors.decInt _ ca ca' _).bind fun _ => Mirrors.pure _
  · exact Mirrors.fail _ _

theorem Mirrors.getCount (ca ca' : Option CAttr) (fa : Option FAttr) :
    Mirrors AnyBlocks (getCount ca fa) (getCount ca' fa) := by
  unfold JBytes.getCount
  cases fa with
  | none => exact Mirrors.takeU8.bind fun _ => Mirrors.pure _
  | some fr =>
    simp only
    split
    · exact Mirrors.pure _
    · split
      · exact Mirrors.pure _
      · split
        · exact (Mirrors.takeUint _ _ _).bind fun _ => Mirrors.pure _
        · exact Mirrors.takeU8.bind fun _ => Mirrors.pure _

/-- A count read from the wire or given; no `try_count`. -/
theorem Mirrors.counted {m m' : M α} (ca ca' : Option CAttr) (fa : Option FAttr) (h : SelfFramed fa)
    (hm : Mirrors AnyBlocks m m') :
    Mirrors AnyBlocks
      (JBytes.getCount ca fa >>= fun x => match x with
        | (n, t) => match t with
          | some t => JBytes.tryRepeatM m t
          | none => JBytes.repeatM m n)
      (JBytes.getCount ca' fa >>= fun x => match x with
        | (n, t) => match t with
          | some t => JBytes.tryRepeatM m' t
          | none => JBytes.repeatM m' n) := by
  have hg : ∀ ca b n t b', JBytes.getCount ca fa b = (.ok (n, t), b') → t = none := by
    intro ca b n t b' he
    unfold JBytes.getCount at he
    cases fa with
    | none =>
      simp only at he
      obtain ⟨_, _, _, h2⟩ := bind_ok he
      cases h2
      rfl
    | some fr =>
      have ht := (h fr rfl).2.1
      rcases hc : fr.count with _ | n'
      · simp only [hc, ht] at he
        cases hk : fr.byteCountOutside with
        | none =>
          simp only [hk] at he
          obtain ⟨_, _, _, h2⟩ := bind_ok he
          cases h2
          rfl
        | some k =>
          simp only [hk] at he
          obtain ⟨_, _, _, h2⟩ := bind_ok he
          cases h2
          rfl
      · simp only [hc] at he
        cases he
        rfl
  have hc : ∀ (ca : Option CAttr) (m : M α), (JBytes.getCount ca fa >>= fun x => match x with
        | (n, t) => match t with
          | some t => JBytes.tryRepeatM m t
          | none => JBytes.repeatM m n) = (JBytes.getCount ca fa >>= fun x => JBytes.repeatM m x.1) := by
    intro ca m
    funext b
    rw [bind_apply, bind_apply]
    rcases hx : JBytes.getCount ca fa b with ⟨o, b'⟩
    cases o with
    | ok x =>
      obtain ⟨n, t⟩ := x
      have := hg ca b n t b' hx
      subst this
      rfl
    | _ => rfl
  rw [hc, hc]
  exact (Mirrors.getCount ca ca' fa).bind fun x => hm.repeatM _

theorem Mirrors.decCounted {d : Dec α} {ca ca' : Option CAttr} {fa : Option FAttr}
    (hd : Mirrors AnyBlocks (d ca fa) (d ca' fa)) (h : SelfFramed fa) :
    Mirrors AnyBlocks (decCounted d ca fa) (decCounted d ca' fa) := Mirrors.counted ca ca' fa h hd

theorem Mirrors.decVec {d : Dec α} {ca ca' : Option CAttr} {fa : Option FAttr} (n : Nat)
    (hd : Mirrors AnyBlocks (d ca fa) (d ca' fa)) (h : SelfFramed fa) :
    Mirrors AnyBlocks (decVec n d ca fa) (decVec n d ca' fa) := by
  have e : fa.bind (·.loopSkipStarts) = none := by
    cases fa with
    | none => rfl
    | some fr => exact (h fr rfl).2.2
  unfold JBytes.decVec
  rw [e]
  exact Mirrors.decCounted hd h

theorem Mirrors.decTuple {ca ca' : Option CAttr} {fa : Option FAttr} : ∀ ds : List (Dec α),
    (∀ d ∈ ds, Mirrors AnyBlocks (d ca fa) (d ca' fa)) → Mirrors AnyBlocks (decTuple ds ca fa) (decTuple ds ca' fa)
  | [], _ => Mirrors.pure _
  | d :: ds, h => (h d (by simp)).bind fun _ =>
      (Mirrors.decTuple ds fun d' hd' => h d' (List.mem_cons_of_mem _ hd')).bind fun _ => Mirrors.pure _

theorem SelfFramed.none : SelfFramed none := fun _ h => nomatch h

theorem SelfFramed.key {fa : Option FAttr} (h : SelfFramed fa) : SelfFramed (keyFattr fa) := by
  cases fa with
  | none => exact h
  | some fr =>
    unfold keyFattr
    simp only
    split
    · rintro _ ⟨⟩; exact ⟨rfl, rfl, rfl⟩
    · exact h

theorem SelfFramed.val {fa : Option FAttr} (h : SelfFramed fa) : SelfFramed (valFattr fa) := by
  cases fa with
  | none => exact h
  | some fr =>
    unfold valFattr
    simp only
    split
    · rintro _ ⟨⟩; exact ⟨rfl, rfl, rfl⟩
    · split
      · rintro _ ⟨⟩; exact ⟨rfl, rfl, rfl⟩
      · exact h

theorem Mirrors.decMap [DecidableEq α] {dk : Dec α} {dv : Dec β} {ca ca' : Option CAttr} {fa : Option FAttr}
    (hk : Mirrors AnyBlocks (dk ca (keyFattr fa)) (dk ca' (keyFattr fa)))
    (hv : Mirrors AnyBlocks (dv ca (valFattr fa)) (dv ca' (valFattr fa))) (h : SelfFramed fa) :
    Mirrors AnyBlocks (decMap dk dv ca fa) (decMap dk dv ca' fa) := by
  have he : Mirrors AnyBlocks (decEntry dk dv ca fa) (decEntry dk dv ca' fa) :=
    hk.bind fun _ => hv.bind fun _ => Mirrors.pure _
  exact (Mirrors.counted ca ca' fa h he).bind fun _ => Mirrors.pure _

/-! ### Derived code -/

/-- Reading without moving on. -/
def peekM (m : M α) : M α := do
  let p ← getPos
  let v ← m
  setPos p
  return v

/-- A word read and put back, before something that starts with the same word. -/
theorem Mirrors.peek {t : Bool} {n : Nat} {m m' : M α} {f f' : α → M β} (hm : Mirrors (OneBlock t n) m m')
    (hf : ∀ a, Mirrors (FirstBlock t n) (f a) (f' a)) :
    Mirrors (FirstBlock t n) (peekM m >>= f) (peekM m' >>= f') := by
  intro b v b' hb h
  obtain ⟨a, b1, h1, h2⟩ := bind_ok h
  have key : ∃ b2, m b = (.ok a, b2) ∧ b1 = ⟨b2.data, b.pos⟩ := by
    obtain ⟨p, c, g1, g2⟩ := bind_ok h1
    cases g1
    obtain ⟨a', c', g3, g4⟩ := bind_ok g2
    obtain ⟨_, c'', g5, g6⟩ := bind_ok g4
    cases g5
    cases g6
    exact ⟨c', g3, rfl⟩
  obtain ⟨b2, e2, rfl⟩ := key
  obtain ⟨bs1, ⟨w1, rfl, hw1⟩, _, hb1, hx1, hm1⟩ := hm b a b2 hb e2
  subst hb1
  obtain ⟨bs, ⟨w, rest, rfl, hw⟩, hs, hb2, hx, hf2⟩ := hf a _ v b' hb h2
  have eqw : w1 = w := by
    simp only [image, List.append_nil] at hx1 hx
    have hx' := congrArg (List.take n) hx
    rw [List.take_left' hw, List.take_take, List.length_append, Nat.min_eq_left (by omega)] at hx'
    rw [hx', hx1, hw1]
  subst eqw
  refine ⟨_, ⟨w1, rest, rfl, hw⟩, hs, hb2, hx, fun pre suf hl => ?_⟩
  have e1 := hm1 pre (imageTurned rest ++ suf) (by
    simp only [image, List.append_nil, List.length_append, imageTurned_length] at hl ⊢
    omega)
  have e2 := hf2 pre suf hl
  have hd : pre ++ imageTurned [(t, w1)] ++ (imageTurned rest ++ suf) = pre ++ imageTurned ((t, w1) :: rest) ++ suf := by
    simp [imageTurned]
  rw [hd] at e1
  have e3 : peekM m' ⟨pre ++ imageTurned ((t, w1) :: rest) ++ suf, pre.length⟩ =
      (.ok a, ⟨pre ++ imageTurned ((t, w1) :: rest) ++ suf, pre.length⟩) := by
    unfold peekM
    rw [bind_apply]
    show (m' >>= _) _ = _
    rw [bind_apply, e1]
    rfl
  rw [bind_apply, e3]
  exact e2

theorem Mirrors.orderCode (o : Option (OrderAttr V)) (env : Env V) :
    Mirrors AnyBlocks (orderCode o env) (orderCode o env) := by
  unfold JBytes.orderCode
  split
  · exact Mirrors.pure _
  · exact Mirrors.pure _
  · split
    · exact Mirrors.pure _
    · split
      · exact Mirrors.pure _
      · exact Mirrors.panic _

theorem ReadOk.framed {a : FieldAttrs V} (ha : ReadOk a) (o : Option ByteOrder) (env : Env V) :
    SelfFramed (some (a.modifiers o env)) := by
  rintro _ ⟨⟩
  refine ⟨ha.remaining, ?_, ha.loops⟩
  show a.tryCount.map _ = none
  rw [ha.tryCount]
  rfl

theorem Mirrors.toCode {a : FieldAttrs V} (ha : ReadOk a) (env : Env V) {f f' : Option FAttr → M β}
    (hf : ∀ fa, SelfFramed fa → Mirrors AnyBlocks (f fa) (f' fa)) :
    Mirrors AnyBlocks (a.toCode env >>= f) (a.toCode env >>= f') := by
  unfold FieldAttrs.toCode
  split
  · have e : ∀ f : Option FAttr → M β, ((do
        let o ← JBytes.orderCode a.byteorder env
        Pure.pure (some (a.modifiers o env)) : M _) >>= f) =
        (JBytes.orderCode a.byteorder env >>= fun o => f (some (a.modifiers o env))) := by
      intro f
      funext b
      simp only [bind_apply]
      rcases JBytes.orderCode a.byteorder env b with ⟨x, b'⟩
      cases x <;> rfl
    rw [e, e]
    exact (Mirrors.orderCode _ _).bind fun o => hf _ (ha.framed o env)
  · exact hf none SelfFramed.none

theorem Mirrors.finishValue (a : FieldAttrs V) (env : Env V) (v : V) :
    Mirrors AnyBlocks (finishValue a env v) (finishValue a env v) := by
  unfold JBytes.finishValue
  cases a.valueDecode <;> cases a.checkValue <;> simp only <;> first
    | exact Mirrors.pure _
    | (split
       · exact Mirrors.pure _
       · exact Mirrors.fail _ _)

theorem Mirrors.decPlain {f : Field V} {env : Env V} {ca ca' : Option CAttr} {fa : Option FAttr}
    (hu : f.attrs.untake = false) (h : Mirrors AnyBlocks (f.dec ca fa) (f.dec ca' fa)) :
    Mirrors AnyBlocks (decPlain f env ca fa) (decPlain f env ca' fa) := by
  have e : ∀ ca, JBytes.decPlain f env ca fa = (decCond f env ca fa >>= fun v => JBytes.finishValue f.attrs env v) := by
    intro ca
    unfold JBytes.decPlain
    rw [hu]
    rfl
  rw [e, e]
  refine Mirrors.bind (H := AnyBlocks) ?_ fun _ => Mirrors.finishValue _ _ _
  unfold decCond
  split
  · split
    · exact h
    · exact Mirrors.pure _
  · exact h

theorem Mirrors.decField {f : Field V} {env : Env V} {ca ca' : Option CAttr} {fa : Option FAttr} (ha : ReadOk f.attrs)
    (hu : f.attrs.untake = false) (hfa : SelfFramed fa) (h : Mirrors AnyBlocks (f.dec ca fa) (f.dec ca' fa)) :
    Mirrors AnyBlocks (decField f env ca fa) (decField f env ca' fa) := by
  unfold JBytes.decField
  rw [skipOffset, ha.offset, ha.custom]
  refine (Mirrors.pure _).bind fun _ => ?_
  simp only
  split
  · exact Mirrors.pure _
  · split
    · refine (Mirrors.decStr ca ca' fa hfa).bind fun s => ?_
      split
      · exact Mirrors.pure _
      · exact Mirrors.fail _ _
    · exact Mirrors.decPlain hu h

theorem Alike.cache {ca ca' : Option CAttr} (h : Alike ca ca') (a : FieldAttrs V) (env : Env V) :
    Alike (cacheVars a ca env) (cacheVars a ca' env) := by
  unfold cacheVars
  cases a.variableName with
  | none => exact h
  | some l =>
    refine ⟨?_, fun s => ?_⟩
    · have := h.width
      cases ca <;> cases ca' <;> exact this
    · have hv : (ca.getD {}).vars.lookup s = (ca'.getD {}).vars.lookup s := by
        have := h.vars s
        cases ca <;> cases ca' <;> exact this
      simp only [Option.bind_some, List.lookup_append, hv]

theorem cache_order (a : FieldAttrs V) (ca : Option CAttr) (env : Env V) (fa : Option FAttr) :
    getByteorder (cacheVars a ca env) fa = getByteorder ca fa := by
  unfold cacheVars
  cases a.variableName with
  | none => rfl
  | some l => cases ca <;> rfl

/-- What is known of the first piece a list of fields reads. -/
def headBlock (ca ca' : Option CAttr) : Option (IntKind × Option ByteOrder) → List Block → Prop
  | none => AnyBlocks
  | some (k, o) => FirstBlock (decide (getByteorder ca (some { byteorder := o }) ≠
      getByteorder ca' (some { byteorder := o }))) k.scalar.size

theorem headBlock_cache (a : FieldAttrs V) (ca ca' : Option CAttr) (env : Env V) (hd) :
    headBlock (cacheVars a ca env) (cacheVars a ca' env) hd = headBlock ca ca' hd := by
  cases hd with
  | none => rfl
  | some x => simp only [headBlock, cache_order]

theorem WordReader.toCode {k : IntKind} {o : Option ByteOrder} {p : Bool} {f : Field V} (hw : WordReader k o p f)
    (env : Env V) : f.attrs.toCode env = Pure.pure (some (f.attrs.modifiers o env)) := by
  unfold FieldAttrs.toCode
  have : f.attrs.anySet = true := by
    unfold FieldAttrs.anySet
    rw [hw.bits]
    simp
  rw [hw.used, this, hw.order]
  cases o <;> rfl

/-- The word itself. -/
theorem WordReader.one {k : IntKind} {o : Option ByteOrder} {p : Bool} {f : Field V} (hw : WordReader k o p f)
    (env env' : Env V) (ca ca' : Option CAttr) :
    Mirrors (OneBlock (decide (getByteorder ca (some { byteorder := o }) ≠
      getByteorder ca' (some { byteorder := o }))) k.scalar.size)
      (decCond f env ca (some (f.attrs.modifiers o env'))) (decCond f env ca' (some (f.attrs.modifiers o env'))) := by
  obtain ⟨g, hg⟩ := hw.codec
  have e : ∀ c : Option CAttr, getByteorder c (some { byteorder := o }) =
      getByteorder c (some (f.attrs.modifiers o env')) := fun _ => rfl
  unfold decCond
  rw [hw.cond, hg, e, e]
  refine (Mirrors.word k ca ca' _ ?_).andPure g
  show f.attrs.length.map _ = none
  rw [hw.length]
  rfl

theorem WordReader.field {k : IntKind} {o : Option ByteOrder} {p : Bool} {f : Field V} (hw : WordReader k o p f)
    (env : Env V) (ca : Option CAttr) (fa : Option FAttr) :
    decField f env ca fa = (if p then peekM (decCond f env ca fa) else decCond f env ca fa) >>= fun v =>
      finishValue f.attrs env v := by
  unfold decField
  rw [skipOffset, hw.ok.offset, hw.ok.custom, hw.text, hw.skip]
  show decPlain f env ca fa = _
  unfold decPlain
  rw [hw.peek]
  cases p with
  | false => rfl
  | true =>
    funext b
    unfold peekM
    simp only [if_true, bind_apply, getPos]
    rcases decCond f env ca fa b with ⟨x, b'⟩
    cases x <;> rfl

theorem bind_assocM {γ : Type} (m : M α) (f : α → M β) (g : β → M γ) : (m >>= f) >>= g = m >>= fun a => f a >>= g := by
  funext b
  simp only [bind_apply]
  rcases m b with ⟨x, b'⟩
  cases x <;> rfl

theorem Mirrors.first {t : Bool} {n : Nat} {m m' : M α} {f f' : α → M β} (hm : Mirrors (OneBlock t n) m m')
    (hf : ∀ a, Mirrors AnyBlocks (f a) (f' a)) : Mirrors (FirstBlock t n) (m >>= f) (m' >>= f') := by
  intro b v b' hb h
  obtain ⟨bs, ⟨x, y, rfl, w, rfl, hw⟩, hr⟩ := hm.bindHead hf b v b' hb h
  exact ⟨_, ⟨w, y, rfl, hw⟩, hr⟩

/-- What does not move, before something that starts with a word. -/
theorem Mirrors.after {H : List Block → Prop} {m : M α} {f f' : α → M β}
    (hm : ∀ b, (m b).2 = b ∧ ∀ b', (m b').1 = (m b).1 ∨ ∀ a, (m b).1 ≠ .ok a)
    (hf : ∀ a, Mirrors H (f a) (f' a)) : Mirrors H (m >>= f) (m >>= f') := by
  intro b v b' hb h
  obtain ⟨a, b1, h1, h2⟩ := bind_ok h
  have e := (hm b).1
  rw [h1] at e
  simp only at e
  subst e
  obtain ⟨bs, hH, hs, hb1, hx, hmx⟩ := hf a b1 v b' hb h2
  refine ⟨bs, hH, hs, hb1, hx, fun pre suf hl => ?_⟩
  rw [bind_apply]
  have : m ⟨pre ++ imageTurned bs ++ suf, pre.length⟩ = (.ok a, ⟨pre ++ imageTurned bs ++ suf, pre.length⟩) := by
    refine Prod.ext ?_ (hm _).1
    rcases (hm b1).2 ⟨pre ++ imageTurned bs ++ suf, pre.length⟩ with h | h
    · rw [h, h1]
    · exact absurd (by rw [h1]) (h a)
  rw [this]
  exact hmx pre suf hl

theorem finishValue_still (a : FieldAttrs V) (env : Env V) (v : V) (b : Buf) : (finishValue a env v b).2 = b ∧
    ∀ b', (finishValue a env v b').1 = (finishValue a env v b).1 ∨ ∀ x, (finishValue a env v b).1 ≠ .ok x := by
  unfold finishValue
  cases a.valueDecode <;> cases a.checkValue <;> simp only <;> first
    | exact ⟨rfl, fun _ => .inl rfl⟩
    | (split
       · exact ⟨rfl, fun _ => .inl rfl⟩
       · exact ⟨rfl, fun _ => .inr fun _ h => nomatch h⟩)

theorem ReadRun.mirrors (keep : Bool) {hd : Option (IntKind × Option ByteOrder)} {fs : List (Field V)}
    (hrun : ReadRun hd fs) :
    (∀ f ∈ fs, ∀ ca ca' fa, Alike ca ca' → SelfFramed fa → Mirrors AnyBlocks (f.dec ca fa) (f.dec ca' fa)) →
    ∀ (ca ca' : Option CAttr) (old : Option FAttr) (env : Env V), Alike ca ca' → SelfFramed old →
    Mirrors (headBlock ca ca' hd) (decFields keep fs ca old env) (decFields keep fs ca' old env) := by
  induction hrun with
  | nil => intro _ ca ca' old env _ _; exact Mirrors.pure _
  | @plain next f fs ha hu hrest ih =>
    intro hf ca ca' old env hca hold
    have rest : ∀ fa, SelfFramed fa → Mirrors AnyBlocks (do
        let v ← JBytes.decField f env ca fa
        let vs ← JBytes.decFields keep fs (cacheVars f.attrs ca (env.push v)) fa (env.push v)
        Pure.pure (v :: vs)) (do
        let v ← JBytes.decField f env ca' fa
        let vs ← JBytes.decFields keep fs (cacheVars f.attrs ca' (env.push v)) fa (env.push v)
        Pure.pure (v :: vs)) := by
      intro fa hfa
      refine (Mirrors.decField ha hu hfa (hf f (by simp) ca ca' fa hca hfa)).bind fun v => ?_
      exact (ih (fun g hg => hf g (List.mem_cons_of_mem _ hg)) _ _ fa _ (hca.cache _ _) hfa).bind fun _ => Mirrors.pure _
    show Mirrors AnyBlocks _ _
    unfold decFields
    split
    · exact rest old hold
    · exact Mirrors.toCode ha env rest
  | @last next k o f fs hw hrest ih =>
    intro hf ca ca' old env hca hold
    have e : ∀ ca, decFields keep (f :: fs) ca old env = (decCond f env ca (some (f.attrs.modifiers o env)) >>= fun v =>
        finishValue f.attrs env v >>= fun v => decFields keep fs (cacheVars f.attrs ca (env.push v))
          (some (f.attrs.modifiers o env)) (env.push v) >>= fun vs => Pure.pure (v :: vs)) := by
      intro ca
      rw [decFields, hw.used, hw.toCode]
      simp only [Bool.not_true, Bool.and_false, Bool.false_eq_true, if_false]
      show (decField f env ca (some (f.attrs.modifiers o env)) >>= _) = _
      rw [hw.field, bind_assocM]
      rfl
    rw [e, e]
    refine (hw.one env env ca ca').first fun v => Mirrors.bind (Mirrors.finishValue _ _ _) fun v => ?_
    exact (ih (fun g hg => hf g (List.mem_cons_of_mem _ hg)) _ _ _ _ (hca.cache _ _) (hw.ok.framed _ _)).bind
      fun _ => Mirrors.pure _
  | @more k o f fs hw hrest ih =>
    intro hf ca ca' old env hca hold
    have e : ∀ ca, decFields keep (f :: fs) ca old env = (peekM (decCond f env ca (some (f.attrs.modifiers o env))) >>=
        fun v => finishValue f.attrs env v >>= fun v => decFields keep fs (cacheVars f.attrs ca (env.push v))
          (some (f.attrs.modifiers o env)) (env.push v) >>= fun vs => Pure.pure (v :: vs)) := by
      intro ca
      rw [decFields, hw.used, hw.toCode]
      simp only [Bool.not_true, Bool.and_false, Bool.false_eq_true, if_false]
      show (decField f env ca (some (f.attrs.modifiers o env)) >>= _) = _
      rw [hw.field, bind_assocM]
      rfl
    rw [e, e]
    refine (hw.one env env ca ca').peek fun v => Mirrors.after (finishValue_still _ _ _) fun v => ?_
    have := ih (fun g hg => hf g (List.mem_cons_of_mem _ hg)) _ _ (some (f.attrs.modifiers o env)) (env.push v)
      (hca.cache f.attrs (env.push v)) (hw.ok.framed _ _)
    rw [headBlock_cache] at this
    exact this.andPure _

theorem Mirrors.decVariant {own own' : Option CAttr} (ho : Alike own own') (env : Env V) (i : Nat) (v : Variant V)
    (hv : ReadOk v.attrs) (hd) (hrun : ReadRun hd v.fields)
    (hf : ∀ f ∈ v.fields, ∀ ca ca' fa, Alike ca ca' → SelfFramed fa → Mirrors AnyBlocks (f.dec ca fa) (f.dec ca' fa)) :
    Mirrors AnyBlocks (decVariant own env i v) (decVariant own' env i v) := by
  unfold JBytes.decVariant
  refine Mirrors.toCode hv env fun fa hfa => ?_
  rw [skipOffset, hv.offset]
  exact (Mirrors.pure _).bind fun _ => (hrun.mirrors _ hf _ _ _ _ ho hfa).bind fun _ => Mirrors.pure _

theorem Mirrors.decTag {own own' : Option CAttr} (ho : Alike own own') (ca ca' : Option CAttr) (fa : Option FAttr) :
    Mirrors AnyBlocks (decTag own ca fa) (decTag own' ca' fa) := by
  unfold JBytes.decTag
  rw [ho.width]
  split
  · split
    · exact Mirrors.pure _
    · split
      · exact Mirrors.takeUint _ _ _
      · split
        · exact Mirrors.takeUint _ _ _
        · exact Mirrors.takeU8.bind fun _ => Mirrors.pure _
  · split
    · exact Mirrors.takeUint _ _ _
    · exact Mirrors.takeU8.bind fun _ => Mirrors.pure _

theorem struct_mirrors (S : StructDef V) (c : Option CAttr) (hc : Alike S.container c) (hw : S.withDecode = none) (hd)
    (hrun : ReadRun hd S.fields)
    (hf : ∀ f ∈ S.fields, ∀ ca ca' fa, Alike ca ca' → SelfFramed fa → Mirrors AnyBlocks (f.dec ca fa) (f.dec ca' fa))
    {ca ca' : Option CAttr} (hca : Alike ca ca') (fa : Option FAttr) :
    Mirrors AnyBlocks (decStruct S ca fa) (decStruct { S with container := c } ca' fa) := by
  unfold decStruct
  rw [hw]
  simp only
  rw [localVars_alike hca]
  exact (hrun.mirrors _ hf _ _ _ _ hc SelfFramed.none).any

theorem enum_mirrors (E : EnumDef V) (c : Option CAttr) (hc : Alike E.container c) (hw : E.withDecode = none)
    (hm : ∀ u, E.mode ≠ .startsWith u) (hv : ∀ v ∈ E.variants, ReadOk v.attrs)
    (hrun : ∀ v ∈ E.variants, ∃ hd, ReadRun hd v.fields)
    (hf : ∀ v ∈ E.variants, ∀ f ∈ v.fields, ∀ ca ca' fa, Alike ca ca' → SelfFramed fa →
      Mirrors AnyBlocks (f.dec ca fa) (f.dec ca' fa))
    {ca ca' : Option CAttr} (hca : Alike ca ca') (fa : Option FAttr) :
    Mirrors AnyBlocks (decEnum E ca fa) (decEnum { E with container := c } ca' fa) := by
  have harm : ∀ env g, Mirrors AnyBlocks (decArm E env g) (decArm { E with container := c } env g) := by
    intro env g
    have e : (EnumDef.variants { E with container := c }).zip (EnumDef.numbers { E with container := c }) =
        E.variants.zip E.numbers := rfl
    unfold decArm
    rw [e]
    rcases h : findArm g 0 (E.variants.zip E.numbers) with _ | ⟨i, v⟩
    · exact Mirrors.fail _ _
    · obtain ⟨n, hn⟩ := findArm_mem _ _ _ _ _ h
      have hmem := (List.of_mem_zip hn).1
      obtain ⟨hd, hr⟩ := hrun v hmem
      exact Mirrors.decVariant hc _ _ _ (hv v hmem) hd hr (hf v hmem)
  unfold decEnum
  rw [hw]
  simp only
  rw [localVars_alike hca]
  split
  · rename_i u hu
    exact absurd hu (hm u)
  · exact (Mirrors.takeBytes _).bind fun _ => harm _ _
  · exact (Mirrors.decTag hc ca ca' fa).bind fun _ => harm _ _

theorem Alike.refl (ca : Option CAttr) : Alike ca ca := ⟨rfl, fun _ => rfl⟩

theorem Readable.mirrors {d : Dec α} (h : Readable α d) : ∀ (ca ca' : Option CAttr) (fa : Option FAttr), Alike ca ca' →
    SelfFramed fa → Mirrors AnyBlocks (d ca fa) (d ca' fa) := by
  induction h with
  | int k => intro ca ca' fa _ _; exact Mirrors.decInt k ca ca' fa
  | f32 => intro ca ca' fa _ _; exact (Mirrors.takeScalar _ _ _).any
  | f64 => intro ca ca' fa _ _; exact (Mirrors.takeScalar _ _ _).any
  | bool => intro ca ca' fa _ _; exact (Mirrors.takeBytes 1).bind fun _ => (Mirrors.index0 _).bind fun _ => Mirrors.pure _
  | char => intro ca ca' fa _ _; exact (Mirrors.takeBytes 1).bind fun _ => (Mirrors.index0 _).bind fun _ => Mirrors.pure _
  | bytes => intro ca ca' fa _ hfa; exact Mirrors.decBytes ca ca' fa hfa
  | str => intro ca ca' fa _ hfa; exact Mirrors.decStr ca ca' fa hfa
  | ipv4 => intro ca ca' fa _ _; exact Mirrors.decIpv4 ca ca' fa
  | ipv6 => intro ca ca' fa _ _; exact Mirrors.decIpv6 ca ca' fa
  | ip => intro ca ca' fa _ _; exact Mirrors.decIpAddr ca ca' fa
  | mac => intro ca ca' fa _ _; exact Mirrors.decMac ca ca' fa
  | net => intro ca ca' fa _ _; exact Mirrors.decNet ca ca' fa
  | unit => intro ca ca' fa _ _; exact Mirrors.pure _
  | vec n _ ih => intro ca ca' fa hca hfa; exact Mirrors.decVec n (ih ca ca' fa hca hfa) hfa
  | array k _ ih => intro ca ca' fa hca hfa; exact (ih ca ca' fa hca hfa).repeatM k
  | tuple ds _ ih => intro ca ca' fa hca hfa; exact Mirrors.decTuple _ fun d hd => ih d hd ca ca' fa hca hfa
  | set _ ih =>
    intro ca ca' fa hca hfa
    exact (Mirrors.decCounted (ih ca ca' fa hca hfa) hfa).bind fun _ => Mirrors.pure _
  | map _ _ ihk ihv =>
    intro ca ca' fa hca hfa
    exact Mirrors.decMap (ihk ca ca' _ hca hfa.key) (ihv ca ca' _ hca hfa.val) hfa
  | inject g _ ih => intro ca ca' fa hca hfa; exact (ih ca ca' fa hca hfa).bind fun _ => Mirrors.pure _
  | struct S hd hw hrun _ ih =>
    intro ca ca' fa hca _
    exact struct_mirrors S S.container (Alike.refl _) hw hd hrun ih hca fa
  | enum E hw hm hv hrun _ ih =>
    intro ca ca' fa hca _
    exact enum_mirrors E E.container (Alike.refl _) hw hm hv hrun ih hca fa

theorem Mirrors.reads {m m' : M α} (h : Mirrors AnyBlocks m m') : ReadsTurned m m' := fun b v b' hb he =>
  (h b v b' hb he).imp fun _ h => h.2

/-! ## C110 -/

/-- C110, decoding: for every type whose values say themselves where they end, in surroundings that differ in the byte
order only, what is accepted in one order is accepted in the other, with the same value and length, once the numbers are
turned round.  Missing: data that ends with the input (`remaining`, `try_count`, `loop_skip_starts`, `Option`), `offset`
and user-written decoders; errors differ (`C110_decode_violated`). -/
theorem C110_decode_partial (d : Dec α) (h : Readable α d) (ca ca' : Option CAttr) (hca : Alike ca ca')
    (fa : Option FAttr) (hfa : SelfFramed fa) : ReadsTurned (d ca fa) (d ca' fa) :=
  (h.mirrors ca ca' fa hca hfa).reads

/-- C110, decoding of a struct whose declared byte order is changed (`c` instead of the container modifiers). -/
theorem C110_decode_struct_partial (S : StructDef V) (hw : S.withDecode = none)
    (head : Option (IntKind × Option ByteOrder)) (hrun : ReadRun head S.fields) (hf : ∀ f ∈ S.fields, Readable V f.dec)
    (c : Option CAttr) (hc : Alike S.container c) (ca : Option CAttr) (fa : Option FAttr) :
    ReadsTurned (decStruct S ca fa) (decStruct { S with container := c } ca fa) :=
  (struct_mirrors S c hc hw head hrun (fun f h => (hf f h).mirrors) (Alike.refl ca) fa).reads

/-- C110, decoding of an enum whose declared byte order is changed. -/
theorem C110_decode_enum_partial (E : EnumDef V) (hw : E.withDecode = none) (hm : ∀ u, E.mode ≠ .startsWith u)
    (hv : ∀ v ∈ E.variants, ReadOk v.attrs) (hrun : ∀ v ∈ E.variants, ∃ head, ReadRun head v.fields)
    (hf : ∀ v ∈ E.variants, ∀ f ∈ v.fields, Readable V f.dec) (c : Option CAttr) (hc : Alike E.container c)
    (ca : Option CAttr) (fa : Option FAttr) :
    ReadsTurned (decEnum E ca fa) (decEnum { E with container := c } ca fa) :=
  (enum_mirrors E c hc hw hm hv hrun (fun v h f hf' => (hf v h f hf').mirrors) (Alike.refl ca) fa).reads

/-! ## Instances -/

/-- `record` as it is read: the first bit field puts its word back (`untake`). -/
def readRecord : StructDef Val := { fields := [
  u16Field { isUse := true, bits := some fun _ => 0xFC00, bitsStart := true, untake := true },
  u16Field { isUse := true, bits := some fun _ => 0x03FF },
  bytesField { isUse := true, byteCount := some fun _ => 2 },
  u16Field { isUse := true, byteorder := some (.lit .le) }, u16Field {}] }

theorem readRecord_run : ReadRun (some (⟨2, false⟩, none)) readRecord.fields := by
  refine .more ⟨⟨.num, rfl⟩, ⟨rfl, rfl, rfl, rfl, rfl⟩, rfl, rfl, rfl, rfl, rfl, rfl, rfl, rfl⟩ (.last none
    ⟨⟨.num, rfl⟩, ⟨rfl, rfl, rfl, rfl, rfl⟩, rfl, rfl, rfl, rfl, rfl, rfl, rfl, rfl⟩ (.plain none ?_ rfl (.plain none ?_ rfl
    (.plain none ?_ rfl .nil))))
  all_goals exact ⟨rfl, rfl, rfl, rfl, rfl⟩

theorem readRecord_readable : ∀ f ∈ readRecord.fields, Readable Val f.dec := by
  have hn : ∀ a, Readable Val (u16Field a).dec := fun a => .inject Val.num (.int ⟨2, false⟩)
  intro f hf
  simp only [readRecord, List.mem_cons, List.not_mem_nil, or_false] at hf
  rcases hf with rfl | rfl | rfl | rfl | rfl
  · exact hn _
  · exact hn _
  · exact .inject Val.bytes .bytes
  · exact hn _
  · exact hn _

/-- C110 on `readRecord`, for all inputs. -/
example : ReadsTurned (decStruct readRecord none none)
    (decStruct { readRecord with container := some { byteorder := some .le } } none none) :=
  C110_decode_struct_partial readRecord rfl _ readRecord_run readRecord_readable (some { byteorder := some .le })
    ⟨rfl, fun _ => rfl⟩ none none

example : decStruct readRecord none none ⟨[0x04, 0x02, 0, 2, 65, 66, 3, 0, 4, 5], 0⟩ =
      (.ok [.num 1, .num 2, .bytes [65, 66], .num 3, .num 0x0405], ⟨[0x04, 0x02, 0, 2, 65, 66, 3, 0, 4, 5], 10⟩) ∧
    decStruct { readRecord with container := some { byteorder := some .le } } none none
        ⟨[0x02, 0x04, 2, 0, 65, 66, 3, 0, 5, 4], 0⟩ =
      (.ok [.num 1, .num 2, .bytes [65, 66], .num 3, .num 0x0405], ⟨[0x02, 0x04, 2, 0, 65, 66, 3, 0, 5, 4], 10⟩) := by
  refine ⟨?_, ?_⟩ <;> decide +kernel

/-- An enum with one variant. -/
def wideTagged : EnumDef Val :=
  { container := some { byteCount := some 2 }, variants := [{ attrs := {}, fields := [u16Field {}] }] }

/-- C110 on an enum with a two-byte tag, for all inputs. -/
example : ReadsTurned (decEnum wideTagged none none)
    (decEnum { wideTagged with container := some { byteCount := some 2, byteorder := some .le } } none none) := by
  refine C110_decode_enum_partial wideTagged rfl (fun _ h => nomatch h) ?_ ?_ ?_
    (some { byteCount := some 2, byteorder := some .le }) ⟨rfl, fun _ => rfl⟩ none none
  · intro v hv
    rw [List.mem_singleton.mp hv]
    exact ⟨rfl, rfl, rfl, rfl, rfl⟩
  · intro v hv
    rw [List.mem_singleton.mp hv]
    exact ⟨none, .plain none ⟨rfl, rfl, rfl, rfl, rfl⟩ rfl .nil⟩
  · intro v hv f hf
    rw [List.mem_singleton.mp hv] at hf
    rw [List.mem_singleton.mp hf]
    exact .inject Val.num (.int ⟨2, false⟩)

end JBytes
