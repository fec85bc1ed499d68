import Verif.Lent
import Verif.PropCommands
/-!
# Owning and borrowing types (C109)
-/

namespace JBytes
open M

variable {α β σ : Type}

/-! ## The loops -/

theorem loopInto_eq (ins : σ → α → σ) (m : M α) (n : Nat) : ∀ (s : σ) (b : Buf),
    loopInto ins m n s b = mapM' (fun l => l.foldl ins s) (repeatM m n) b := by
  induction n with
  | zero => intro s b; rfl
  | succ n ih =>
    intro s b
    rw [loopInto, mapM', repeatM, bind_apply, bind_apply, bind_apply]
    generalize m b = x
    obtain ⟨o, b1⟩ := x
    cases o with
    | ok a =>
      dsimp only
      rw [ih, mapM', bind_apply, bind_apply]
      generalize repeatM m n b1 = y
      obtain ⟨o, b2⟩ := y
      cases o <;> rfl
    | err e => rfl
    | panic => rfl
    | timeout => rfl

theorem loopTry_eq (ins : σ → α → σ) (m : M α) (m' : M (Option α)) (h : ∀ b, m' b = attempt m b) (n : Nat) : ∀ (s : σ) (b : Buf),
    loopTry ins m' n s b = mapM' (fun l => l.foldl ins s) (tryRepeatM m n) b := by
  induction n with
  | zero => intro s b; rfl
  | succ n ih =>
    intro s b
    rw [loopTry, mapM', tryRepeatM, bind_apply, bind_apply, bind_apply, h]
    generalize attempt m b = x
    obtain ⟨o, b1⟩ := x
    cases o with
    | ok a =>
      cases a with
      | none => rfl
      | some a =>
        dsimp only
        rw [ih, mapM', bind_apply, bind_apply]
        generalize tryRepeatM m n b1 = y
        obtain ⟨o, b2⟩ := y
        cases o <;> rfl
    | err e => rfl
    | panic => rfl
    | timeout => rfl

theorem loopStarts_eq (ins : σ → α → σ) (p : List Byte) (m : M α) (n : Nat) : ∀ (s : σ) (b : Buf),
    loopStarts ins p m n s b = mapM' (fun l => l.foldl ins s) (whileStarts p m n) b := by
  induction n with
  | zero => intro s b; rfl
  | succ n ih =>
    intro s b
    rw [loopStarts, mapM', whileStarts, bind_apply, bind_apply, bind_apply]
    generalize attempt (takeBytesStarts p) b = x
    obtain ⟨o, b1⟩ := x
    cases o with
    | ok a =>
      cases a with
      | none => rfl
      | some a =>
        dsimp only
        rw [bind_apply, bind_apply]
        generalize m b1 = y
        obtain ⟨o, b2⟩ := y
        cases o with
        | ok a =>
          dsimp only
          rw [ih, mapM', bind_apply, bind_apply]
          generalize whileStarts p m n b2 = z
          obtain ⟨o, b3⟩ := z
          cases o <;> rfl
        | err e => rfl
        | panic => rfl
        | timeout => rfl
    | err e => rfl
    | panic => rfl
    | timeout => rfl

theorem foldl_push (l s : List α) : l.foldl vecPush s = s ++ l := by
  induction l generalizing s with
  | nil => simp
  | cons a l ih => rw [List.foldl_cons, ih]; simp [vecPush]

theorem mapM'_id {f : α → α} (h : ∀ a, f a = a) (m : M α) (b : Buf) : mapM' f m b = m b := by
  rw [mapM', bind_apply]
  generalize m b = x
  obtain ⟨o, b1⟩ := x
  cases o <;> simp [pure_apply, h]

theorem skipStarts_eq (fa : Option FAttr) : skipStarts fa = fa.bind (·.loopSkipStarts) := by cases fa <;> rfl

theorem lentKey_eq (fa : Option FAttr) : lentKey fa = keyFattr fa := by
  cases fa with
  | none => rfl
  | some fr => cases h : fr.split <;> simp [lentKey, keyFattr, h]

theorem lentValue_eq (fa : Option FAttr) : lentValue fa = valFattr fa := by
  cases fa with
  | none => rfl
  | some fr =>
    cases h : fr.linendValue with
    | some x => simp [lentValue, valFattr, h]
    | none => cases h' : fr.linend <;> simp [lentValue, valFattr, h, h']

theorem lentEntry_eq (dk : M α) (dv : M β) (b : Buf) :
    lentEntry dk dv b = attempt (do let k ← dk; let v ← dv; return (k, v)) b := by
  rw [lentEntry, bind_apply, attempt_apply, attempt_apply, bind_apply]
  generalize dk b = x
  obtain ⟨o, b1⟩ := x
  cases o with
  | ok k =>
    dsimp only
    rw [bind_apply, bind_apply, attempt_apply]
    generalize dv b1 = y
    obtain ⟨o, b2⟩ := y
    cases o <;> rfl
  | err e => rfl
  | panic => rfl
  | timeout => rfl

theorem lentCounted (ins : σ → α → σ) (s : σ) (m : M α) (m' : M (Option α)) (h : ∀ b, m' b = attempt m b) (ca : Option CAttr)
    (fa : Option FAttr) (b : Buf) :
    (do
      let (count, tryCount) ← getCount ca fa
      match tryCount with
      | some n => loopTry ins m' n s
      | none => loopInto ins m count s : M σ) b =
    mapM' (fun l => l.foldl ins s) (do
      let (n, t) ← getCount ca fa
      match t with
      | some t => tryRepeatM m t
      | none => repeatM m n) b := by
  rw [mapM', bind_apply, bind_apply, bind_apply]
  generalize getCount ca fa b = x
  obtain ⟨o, b1⟩ := x
  cases o with
  | ok a =>
    obtain ⟨n, t⟩ := a
    cases t with
    | none => exact loopInto_eq ins m n s b1
    | some t => exact loopTry_eq ins m m' h t s b1
  | err e => rfl
  | panic => rfl
  | timeout => rfl

theorem lentParts_eq (ca : Option CAttr) (fa : Option FAttr) (ds : List (Dec α)) : ∀ (got : List α) (b : Buf),
    lentParts ca fa ds got b = mapM' (got ++ ·) (decTuple ds ca fa) b := by
  induction ds with
  | nil => intro got b; simp [lentParts, mapM', decTuple, bind_apply, pure_apply]
  | cons d ds ih =>
    intro got b
    rw [lentParts, mapM', decTuple, bind_apply, bind_apply, bind_apply]
    generalize d ca fa b = x
    obtain ⟨o, b1⟩ := x
    cases o with
    | ok a =>
      dsimp only
      rw [ih, mapM', bind_apply, bind_apply]
      generalize decTuple ds ca fa b1 = y
      obtain ⟨o, b2⟩ := y
      cases o <;> simp [pure_apply]
    | err e => rfl
    | panic => rfl
    | timeout => rfl

theorem addAll_eq (e : α → M Nat) (l : List α) : ∀ (r : Nat) (b : Buf), addAll e l r b = mapM' (r + ·) (encAll e l) b := by
  induction l with
  | nil => intro r b; rfl
  | cons a l ih =>
    intro r b
    rw [addAll, mapM', encAll, bind_apply, bind_apply, bind_apply]
    generalize e a b = x
    obtain ⟨o, b1⟩ := x
    cases o with
    | ok n =>
      dsimp only
      rw [ih, mapM', bind_apply, bind_apply]
      generalize encAll e l b1 = y
      obtain ⟨o, b2⟩ := y
      cases o <;> simp [pure_apply, Nat.add_assoc]
    | err e => rfl
    | panic => rfl
    | timeout => rfl

theorem lendParts_eq (ca : Option CAttr) (fa : Option FAttr) (es : List (Enc α)) : ∀ (as : List α) (r : Nat) (b : Buf),
    lendParts ca fa es as r b = mapM' (r + ·) (encTuple es as ca fa) b := by
  induction es with
  | nil => intro as r b; cases as <;> rfl
  | cons e es ih =>
    intro as r b
    cases as with
    | nil => rfl
    | cons a as =>
      rw [lendParts, mapM', encTuple, bind_apply, bind_apply, bind_apply]
      generalize e a ca fa b = x
      obtain ⟨o, b1⟩ := x
      cases o with
      | ok n =>
        dsimp only
        rw [ih, mapM', bind_apply, bind_apply]
        generalize encTuple es as ca fa b1 = y
        obtain ⟨o, b2⟩ := y
        cases o <;> simp [pure_apply, Nat.add_assoc]
      | err e => rfl
      | panic => rfl
      | timeout => rfl

/-- C109: reading a container through `BorrowByteDecode` gives the same value or error and stops at the same position as through
`ByteDecode`, for every element decoder, all modifiers and every input. -/
theorem C109_decode [DecidableEq α] (fuel n : Nat) (d : Dec α) (dv : Dec β) (ds : List (Dec α)) (ca : Option CAttr) (fa : Option FAttr)
    (b : Buf) :
    lentVec fuel d ca fa b = decVec fuel d ca fa b ∧ lentArray n d ca fa b = decArray n d ca fa b ∧
    lentTuple ds ca fa b = decTuple ds ca fa b ∧ lentOption d ca fa b = decOption d ca fa b ∧
    lentSet d ca fa b = decSet d ca fa b ∧ lentMap d dv ca fa b = decMap d dv ca fa b ∧
    lentStr ca fa b = decStr ca fa b := by
  have hpush : ∀ l : List α, l.foldl vecPush [] = l := fun l => by simp [foldl_push]
  refine ⟨?_, ?_, ?_, ?_, ?_, ?_, ?_⟩
  · unfold lentVec decVec
    rw [skipStarts_eq]
    cases fa.bind (·.loopSkipStarts) with
    | some p => exact (loopStarts_eq vecPush p _ fuel [] b).trans (mapM'_id hpush _ b)
    | none => exact (lentCounted vecPush [] _ _ (fun _ => rfl) ca fa b).trans (mapM'_id hpush _ b)
  · exact (loopInto_eq vecPush _ n [] b).trans (mapM'_id hpush _ b)
  · exact (lentParts_eq ca fa ds [] b).trans (mapM'_id (fun _ => rfl) _ b)
  · cases fa with
    | none => rfl
    | some fr => cases h : fr.length <;> simp [lentOption, decOption, h]
  · exact lentCounted setInsert [] _ _ (fun _ => rfl) ca fa b
  · unfold lentMap
    rw [lentKey_eq, lentValue_eq]
    exact lentCounted mapInsert [] (decEntry d dv ca fa) _ (lentEntry_eq _ _) ca fa b
  · unfold lentStr decStr
    rw [bind_apply, bind_apply]
    generalize decBytes ca fa b = x
    obtain ⟨o, b1⟩ := x
    cases o with
    | ok v => cases h : utf8Valid v <;> simp [h]
    | err e => rfl
    | panic => rfl
    | timeout => rfl

/-- Two `u8`s counted by a byte, read by the borrowing decoder of vectors; a map of two entries with the same key keeps one. -/
example : (lentVec 0 (decInt ⟨1, false⟩) none none ⟨[2, 7, 8, 9], 0⟩ = (.ok [7, 8], ⟨[2, 7, 8, 9], 3⟩)) ∧
    (lentMap (decInt ⟨1, false⟩) (decInt ⟨1, false⟩) none none ⟨[2, 7, 1, 7, 2], 0⟩ = (.ok [(7, 2)], ⟨[2, 7, 1, 7, 2], 5⟩)) ∧
    (lentTuple [decInt ⟨1, false⟩, decInt ⟨1, false⟩] none none ⟨[2, 7], 0⟩ = (.ok [2, 7], ⟨[2, 7], 2⟩)) ∧
    (lentStr none none ⟨[1, 255], 0⟩).1 ≠ .ok [255] := by
  decide +kernel

/-- C109: writing a container through `BorrowByteEncode` writes the same bytes and returns the same as through `ByteEncode`. -/
theorem C109_encode (e : Enc α) (ev : Enc β) (es : List (Enc α)) (l : List α) (m : List (α × β)) (o : Option α) (ca : Option CAttr)
    (fa : Option FAttr) (b : Buf) :
    lendVec e l ca fa b = encVec e l ca fa b ∧ lendArray e l ca fa b = encArray e l ca fa b ∧
    lendTuple es l ca fa b = encTuple es l ca fa b ∧ lendOption e o ca fa b = encOption e o ca fa b ∧
    lendMap e ev m ca fa b = encMap e ev m ca fa b := by
  have h0 : ∀ a : Nat, 0 + a = a := Nat.zero_add
  refine ⟨?_, ?_, ?_, ?_, ?_⟩
  · unfold lendVec encVec
    rw [skipStarts_eq]
    cases fa.bind (·.loopSkipStarts) with
    | some p =>
      show addAll _ l 0 b = _
      exact (addAll_eq _ l 0 b).trans (mapM'_id h0 _ b)
    | none =>
      dsimp only
      rw [bind_apply, bind_apply]
      generalize pushCount ca fa l.length b = x
      obtain ⟨o, b1⟩ := x
      cases o with
      | ok r =>
        dsimp only
        have he : (fun a => (do
            let r ← (Pure.pure 0 : M Nat)
            let n ← e a ca fa
            Pure.pure (r + n) : M Nat)) = fun a => e a ca fa := by
          funext a b
          exact mapM'_id h0 (e a ca fa) b
        rw [he, addAll_eq]
        rfl
      | err e => rfl
      | panic => rfl
      | timeout => rfl
  · exact (addAll_eq _ l 0 b).trans (mapM'_id h0 _ b)
  · exact (lendParts_eq ca fa es l 0 b).trans (mapM'_id h0 _ b)
  · cases o <;> rfl
  · unfold lendMap encMap
    rw [lentKey_eq, lentValue_eq, bind_apply, bind_apply]
    generalize pushCount ca fa m.length b = x
    obtain ⟨o, b1⟩ := x
    cases o with
    | ok r => exact addAll_eq _ m r b1
    | err e => rfl
    | panic => rfl
    | timeout => rfl

/-- The count and both elements are written. -/
example : lendVec (encInt ⟨1, false⟩) [7, 8] none none ⟨[], 0⟩ = (.ok 3, ⟨[2, 7, 8], 3⟩) ∧
    lendMap (encInt ⟨1, false⟩) (encInt ⟨2, false⟩) [(7, 8)] none none ⟨[], 0⟩ = (.ok 4, ⟨[1, 7, 0, 8], 4⟩) := by
  decide +kernel

/-! ## Vectors of bytes and byte slices -/

/-- A vector of bytes and a byte slice were read alike: the same bytes with the same rest, or both were refused for want of bytes. -/
def SameRead (v : Out (List Nat) × Buf) (s : Out (List Byte) × Buf) : Prop :=
  (∃ w b', s = (.ok w, b') ∧ v = (.ok (w.map UInt8.toNat), b')) ∨
  ∃ p q b' b'', s = (.err ⟨p, .invalidByteLength⟩, b') ∧ v = (.err ⟨q, .invalidByteLength⟩, b'')

/-- Modifiers of a `Vec<u8>` field and those a `&[u8]` field needs for the same format. -/
inductive Paired : Option FAttr → Option FAttr → Prop
  | bare : Paired none none
  | plain (o : Option ByteOrder) : Paired (some { byteorder := o }) (some { byteorder := o })
  | fixed (o : Option ByteOrder) (n : Nat) : Paired (some { byteorder := o, count := some n }) (some { byteorder := o, length := some n })
  | counted (o : Option ByteOrder) (k : Nat) (h : k ≤ 8) :
      Paired (some { byteorder := o, byteCountOutside := some k }) (some { byteorder := o, byteCount := some k })

section
variable (ca : Option CAttr) (fa : Option FAttr) (hb : fa.bind (·.bits) = none) (hl : fa.bind (·.length) = none)
include hb hl

theorem octet_reads (x : Byte) (suf : List Byte) : Reads (decInt ⟨1, false⟩ ca fa) x.toNat [x] suf := by
  have := int_reads ⟨1, false⟩ valid1 x.toNat ca fa suf hb hl x.toNat_lt
  rw [byte_wire] at this
  exact this

theorem octets_reads (l suf : List Byte) :
    Reads (repeatM (decInt ⟨1, false⟩ ca fa) l.length) (l.map UInt8.toNat) l suf := by
  have := Reads.repeatM (m := decInt ⟨1, false⟩ ca fa) (img := fun n => [UInt8.ofNat n]) (l := l.map UInt8.toNat) (fun a ha suf => by
    obtain ⟨x, _, rfl⟩ := List.mem_map.mp ha
    rw [UInt8.ofNat_toNat]
    exact octet_reads ca fa hb hl x suf) suf
  rw [flat_bytes, List.length_map] at this
  exact this

omit hb in
theorem octets_needs (n : Nat) : Needs (repeatM (decInt ⟨1, false⟩ ca fa) n) n n := by
  induction n with
  | zero => exact Needs.pure []
  | succ n ih =>
    have h := (decInt_needs ⟨1, false⟩ valid1 ca fa hl).bind (Nat.le_refl _)
      (f := fun a => repeatM (decInt ⟨1, false⟩ ca fa) n >>= fun as => (Pure.pure (a :: as) : M (List Nat)))
      (fun a => ih.map (Nat.le_refl _) (a :: ·))
    have e : max 1 (1 + n) = n + 1 := by omega
    have e' : 1 + n = n + 1 := by omega
    show Needs _ (n + 1) (n + 1)
    dsimp only at h
    rw [e, e'] at h
    exact h

theorem octets_same (n : Nat) (b : Buf) (hk : b.Ok) : SameRead (repeatM (decInt ⟨1, false⟩ ca fa) n b) (takeBytes n b) := by
  have h1 := hk.1
  have h2 := hk.2
  by_cases h : n ≤ b.data.length - b.pos
  · have hlen : ((b.data.drop b.pos).take n).length = n := by simp; omega
    have hr := octets_reads ca fa hb hl ((b.data.drop b.pos).take n) ((b.data.drop b.pos).drop n) (b.data.take b.pos)
      (by simp; omega)
    rw [List.take_append_drop, List.take_append_drop, hlen, List.length_take, Nat.min_eq_left h1] at hr
    refine .inl ⟨_, _, ?_, hr⟩
    rw [takeBytes_apply n b hk, if_neg (by omega)]
  · obtain ⟨p, b', hp⟩ := (octets_needs ca fa hl n b hk).2 (by omega)
    exact .inr ⟨b.pos, p, b, b', by rw [takeBytes_apply n b hk, if_pos (by omega)], hp⟩

theorem octets_appends (l : List Byte) : Appends (encAll (fun n => encInt ⟨1, false⟩ n ca fa) (l.map UInt8.toNat)) l := by
  have := Appends.encAll (e := fun n => encInt ⟨1, false⟩ n ca fa) (img := fun n => [UInt8.ofNat n]) (l := l.map UInt8.toNat)
    (fun a ha => by
      obtain ⟨x, _, rfl⟩ := List.mem_map.mp ha
      have e := ((C19_byteorder ca fa _ rfl).1 ⟨1, false⟩ x.toNat hb hl).2
      rw [UInt8.ofNat_toNat, e]
      have := Appends.scalar (⟨1, false⟩ : IntKind).scalar x.toNat (effectiveOrder ca fa)
      rw [scalar_size valid1, byte_wire] at this
      exact this)
  rw [flat_bytes] at this
  exact this

end

/-- A number read with `m` says how many bytes follow. -/
theorem counted_same {γ : Type} (m : M γ) (g : γ → Nat) (need : Nat) (hm : Needs m need need) (ca : Option CAttr) (fa : Option FAttr)
    (hb : fa.bind (·.bits) = none) (hl : fa.bind (·.length) = none) (b : Buf) (hk : b.Ok) :
    SameRead ((m >>= fun x => repeatM (decInt ⟨1, false⟩ ca fa) (g x)) b) ((m >>= fun x => takeBytes (g x)) b) := by
  have h1 := hk.1
  rw [bind_apply, bind_apply]
  by_cases h : need ≤ b.data.length - b.pos
  · obtain ⟨x, hx⟩ := (hm b hk).1 h
    rw [hx]
    exact octets_same ca fa hb hl (g x) _ ⟨by dsimp only; omega, hk.2⟩
  · obtain ⟨p, b', hp⟩ := (hm b hk).2 (by omega)
    rw [hp]
    exact .inr ⟨_, _, _, _, rfl, rfl⟩

theorem takeU8_needs : Needs takeU8 1 1 := by
  intro b hb
  rw [takeU8_apply b hb]
  constructor
  · intro h
    exact ⟨_, by rw [dif_pos (by omega)]⟩
  · intro h
    exact ⟨_, _, by rw [dif_neg (by omega)]⟩

/-- The counted part, with the number of elements read by `m`. -/
theorem vec_counted {γ : Type} (m : M γ) (g : γ → Nat) (ca : Option CAttr) (fa : Option FAttr) (fuel : Nat)
    (hs : fa.bind (·.loopSkipStarts) = none) (hc : ∀ b, getCount ca fa b = (m >>= fun x => (Pure.pure (g x, none) : M _)) b) (b : Buf) :
    decVec fuel (decInt ⟨1, false⟩) ca fa b = (m >>= fun x => repeatM (decInt ⟨1, false⟩ ca fa) (g x)) b := by
  unfold decVec decCounted
  rw [hs]
  dsimp only
  rw [bind_apply, hc, bind_apply, bind_apply]
  generalize m b = x
  obtain ⟨o, b1⟩ := x
  cases o <;> rfl

/-- C109: a `Vec<u8>` field and a `&[u8]` field with the matching modifiers read the same bytes and refuse the same inputs. -/
theorem C109_bytes_decode_partial (fuel : Nat) (ca : Option CAttr) {fv fs : Option FAttr} (h : Paired fv fs) (b : Buf) (hk : b.Ok) :
    SameRead (decVec fuel (decInt ⟨1, false⟩) ca fv b) (decBytes ca fs b) := by
  have skip : ∀ (m : M (List Byte)) (b : Buf), (do skipNeedle none; skipNeedle none; m) b = m b := fun m b => rfl
  cases h with
  | bare =>
    rw [vec_counted takeU8 UInt8.toNat ca none fuel rfl (fun _ => rfl)]
    exact counted_same takeU8 UInt8.toNat 1 takeU8_needs ca none rfl rfl b hk
  | plain o =>
    rw [vec_counted takeU8 UInt8.toNat ca _ fuel rfl (fun _ => rfl)]
    exact counted_same takeU8 UInt8.toNat 1 takeU8_needs ca _ rfl rfl b hk
  | fixed o n =>
    rw [vec_counted (Pure.pure ()) (fun _ => n) ca _ fuel rfl (fun _ => rfl)]
    exact octets_same ca _ rfl rfl n b hk
  | counted o k hk8 =>
    rw [vec_counted (takeUint k (getByteorder ca (some { byteorder := o, byteCountOutside := some k }))) id ca _ fuel rfl (fun _ => rfl)]
    exact counted_same _ id k (takeUint_needs k hk8 _) ca _ rfl rfl b hk

/-- Three bytes after a little-endian count of two bytes. -/
example : Paired (some { byteorder := some .le, byteCountOutside := some 2 }) (some { byteorder := some .le, byteCount := some 2 }) ∧
    decVec 0 (decInt ⟨1, false⟩) none (some { byteorder := some .le, byteCountOutside := some 2 }) ⟨[3, 0, 97, 98, 99, 1], 0⟩ =
      (.ok [97, 98, 99], ⟨[3, 0, 97, 98, 99, 1], 5⟩) ∧
    decBytes none (some { byteorder := some .le, byteCount := some 2 }) ⟨[3, 0, 97, 98, 99, 1], 0⟩ =
      (.ok [97, 98, 99], ⟨[3, 0, 97, 98, 99, 1], 5⟩) :=
  ⟨.counted _ 2 (by decide), by decide +kernel, by decide +kernel⟩

/-- C109: a `Vec<u8>` field and a `&[u8]` field with the matching modifiers write the same bytes and return the same number. -/
theorem C109_bytes_encode_partial (ca : Option CAttr) {fv fs : Option FAttr} (h : Paired fv fs) (l pre : List Byte)
    (hp : pre.length + (l.length + 8) ≤ isizeMax) :
    encVec (encInt ⟨1, false⟩) (l.map UInt8.toNat) ca fv ⟨pre, pre.length⟩ = encBytes l ca fs ⟨pre, pre.length⟩ := by
  have key : ∃ w, w.length ≤ l.length + 8 ∧ Appends (encVec (encInt ⟨1, false⟩) (l.map UInt8.toNat) ca fv) w ∧ Appends (encBytes l ca fs) w := by
    cases h with
    | bare =>
      refine ⟨[UInt8.ofNat l.length] ++ l, by simp, ?_, ?_⟩
      · have : Appends (encVec (encInt ⟨1, false⟩) (l.map UInt8.toNat) ca none) ([UInt8.ofNat (l.map UInt8.toNat).length] ++ l) :=
          Appends.seq (Appends.pushU8 _) (octets_appends ca none rfl rfl l)
        rw [List.length_map] at this
        exact this
      · have := encBytes_appends l ca none (by intro k hk; cases hk)
        simpa [bytesWire, heads, framingOf, Framing.wire] using this
    | plain o =>
      refine ⟨[UInt8.ofNat l.length] ++ l, by simp, ?_, ?_⟩
      · have : Appends (encVec (encInt ⟨1, false⟩) (l.map UInt8.toNat) ca (some { byteorder := o })) ([UInt8.ofNat (l.map UInt8.toNat).length] ++ l) :=
          Appends.seq (Appends.pushU8 _) (octets_appends ca (some { byteorder := o }) rfl rfl l)
        rw [List.length_map] at this
        exact this
      · have := encBytes_appends l ca (some { byteorder := o }) (by intro k hk; cases hk)
        simpa [bytesWire, heads, framingOf, Framing.wire] using this
    | fixed o n =>
      refine ⟨[] ++ l, by simp, ?_, ?_⟩
      · exact Appends.seq Appends.pure0 (octets_appends ca (some { byteorder := o, count := some n }) rfl rfl l)
      · have := encBytes_appends l ca (some { byteorder := o, length := some n }) (by intro k hk; cases hk)
        simpa [bytesWire, heads, framingOf, Framing.wire] using this
    | counted o k hk8 =>
      refine ⟨toBytes (getByteorder ca (some { byteorder := o })) k l.length ++ l, by simp [toBytes_length]; omega, ?_, ?_⟩
      · have : Appends (encVec (encInt ⟨1, false⟩) (l.map UInt8.toNat) ca (some { byteorder := o, byteCountOutside := some k }))
            (toBytes (getByteorder ca (some { byteorder := o })) k (l.map UInt8.toNat).length ++ l) :=
          Appends.seq (Appends.uint _ k _ hk8) (octets_appends ca (some { byteorder := o, byteCountOutside := some k }) rfl rfl l)
        rw [List.length_map] at this
        exact this
      · have := encBytes_appends l ca (some { byteorder := o, byteCount := some k }) (by
          intro k' hk'
          simp [framingOf] at hk'
          omega)
        have e : getByteorder ca (some { byteorder := o }) = effectiveOrder ca (some { byteorder := o, byteCount := some k }) := by
          rw [← getByteorder_eq]
          rfl
        rw [e]
        simpa [bytesWire, heads, framingOf, Framing.wire] using this
  obtain ⟨w, hw, h1, h2⟩ := key
  rw [h1 pre (by omega), h2 pre (by omega)]

example : encVec (encInt ⟨1, false⟩) ([97, 98].map UInt8.toNat) none (some { byteCountOutside := some 2 }) ⟨[9], 1⟩ =
    (.ok 4, ⟨[9, 0, 2, 97, 98], 5⟩) := by
  decide +kernel

/-! ## The same modifier on both -/

theorem toBytes_none (o : ByteOrder) (k : Nat) : toBytes o k 0 = List.replicate k 0 := by
  cases o
  · show toBE k 0 = _
    induction k with
    | zero => rfl
    | succ k ih => rw [toBE, ih, Nat.zero_div]; rfl
  · show toLE k 0 = _
    induction k with
    | zero => rfl
    | succ k ih => rw [toLE, Nat.zero_div, ih]; rfl

/-- What reads `0` from `k` zeros reads them from the start of a message of zeros. -/
theorem reads_zeros {m : M α} {v : α} {k n : Nat} (h : ∀ suf, Reads m v (List.replicate k 0) suf) (hk : k ≤ n) (hn : n ≤ isizeMax) :
    m ⟨List.replicate n 0, 0⟩ = (.ok v, ⟨List.replicate n 0, k⟩) := by
  have := h (List.replicate (n - k) 0) [] (by simp; omega)
  rw [List.nil_append, List.replicate_append_replicate, Nat.add_sub_cancel' hk] at this
  simpa using this

theorem prefix_zeros (suf : List Byte) : Reads takePrefixed [] (List.replicate 1 0) suf := Reads.prefixed [] suf (by decide)

theorem vec8_zeros (ca : Option CAttr) (fa : Option FAttr) (fuel : Nat) (hs : fa.bind (·.loopSkipStarts) = none)
    (hc : ∀ b, getCount ca fa b = (takeU8 >>= fun x => (Pure.pure (x.toNat, none) : M _)) b) (suf : List Byte) :
    Reads (decVec fuel (decInt ⟨1, false⟩) ca fa) [] (List.replicate 1 0) suf := by
  intro pre hp
  rw [vec_counted takeU8 UInt8.toNat ca fa fuel hs hc]
  exact Reads.bind (w1 := [0]) (w2 := []) (Reads.u8 0 _) (f := fun x => repeatM (decInt ⟨1, false⟩ ca fa) x.toNat) (Reads.pure [] suf) pre hp

theorem uint_zeros {f : Nat → M α} {v : α} (hf : ∀ suf, Reads (f 0) v [] suf) (k : Nat) (hk : k ≤ 8) (o : ByteOrder) (suf : List Byte) :
    Reads (takeUint k o >>= f) v (List.replicate k 0) suf := by
  have := Reads.bind (w2 := []) (Reads.uint o k 0 _ hk (Nat.pos_of_ne_zero (by simp))) (hf suf)
  rw [toBytes_none, List.append_nil] at this
  exact this

theorem uint1_bind (o : ByteOrder) (f : Nat → M α) (b : Buf) (hb : b.Ok) :
    (takeUint 1 o >>= f) b = (takeU8 >>= fun x => f x.toNat) b := by
  have e : takeUint 1 o b = mapM' UInt8.toNat takeU8 b := by
    have h1 := hb.1
    have ht : takeUint 1 o b = _ := takeN_apply o 8 1 (by decide) b
    rw [ht, mapM'_apply, mapM'_apply, takeU8_apply b hb, takeBytes_apply 1 b hb]
    by_cases h : b.pos < b.data.length
    · have e : (b.data.drop b.pos).take 1 = [b.data[b.pos]] := by
        rw [List.drop_eq_getElem_cons h]
        rfl
      rw [dif_pos h, if_neg (by omega), e]
      cases o <;> simp [fromBytes, beVal, leVal]
    · rw [dif_neg h, if_pos (by omega)]
  rw [bind_apply, e, mapM', bind_apply, bind_apply]
  generalize takeU8 b = x
  obtain ⟨o, b1⟩ := x
  cases o <;> rfl

theorem ok_zeros {n : Nat} (h : n ≤ isizeMax) : Buf.Ok ⟨List.replicate n 0, 0⟩ := ⟨Nat.zero_le _, by simpa using h⟩

theorem sameRead_ok {v : List Nat} {b' : Buf} {w : List Byte} {b'' : Buf} (h : SameRead (.ok v, b') (.ok w, b'')) :
    v = w.map UInt8.toNat ∧ b' = b'' := by
  rcases h with ⟨_, _, h1, h2⟩ | ⟨_, _, _, _, h1, _⟩
  · cases h1
    cases h2
    exact ⟨rfl, rfl⟩
  · cases h1

/-- C109 does not hold for `Vec<u8>` and `&[u8]` under the same modifiers: `length = n`, `count = n` and `remaining` always give
different formats; `byte_count = k` and `byte_count_outside = k` give the same one only for `k = 1`. -/
theorem C109_same_iff (fuel : Nat) (ca : Option CAttr) :
    (∀ n < isizeMax, ¬ ∀ b : Buf, b.Ok →
      SameRead (decVec fuel (decInt ⟨1, false⟩) ca (some { length := some n }) b) (decBytes ca (some { length := some n }) b)) ∧
    (∀ n < isizeMax, ¬ ∀ b : Buf, b.Ok →
      SameRead (decVec fuel (decInt ⟨1, false⟩) ca (some { count := some n }) b) (decBytes ca (some { count := some n }) b)) ∧
    (¬ ∀ b : Buf, b.Ok →
      SameRead (decVec fuel (decInt ⟨1, false⟩) ca (some { remaining := true }) b) (decBytes ca (some { remaining := true }) b)) ∧
    (∀ k ≤ 8, (∀ b : Buf, b.Ok →
      SameRead (decVec fuel (decInt ⟨1, false⟩) ca (some { byteCount := some k }) b) (decBytes ca (some { byteCount := some k }) b)) ↔
        k = 1) ∧
    (∀ k ≤ 8, (∀ b : Buf, b.Ok →
      SameRead (decVec fuel (decInt ⟨1, false⟩) ca (some { byteCountOutside := some k }) b)
        (decBytes ca (some { byteCountOutside := some k }) b)) ↔ k = 1) := by
  have small : 9 ≤ isizeMax := by rw [isizeMax_def]; decide
  refine ⟨fun n hn h => ?_, fun n hn h => ?_, fun h => ?_, fun k hk => ?_, fun k hk => ?_⟩
  · have h := h _ (ok_zeros (n := n + 1) hn)
    have e : decBytes ca (some { length := some n }) ⟨List.replicate (n + 1) 0, 0⟩ =
        (.ok (List.replicate n 0), ⟨List.replicate (n + 1) 0, n⟩) := by
      show takeBytes n _ = _
      have := fun suf => Reads.bytes (List.replicate n 0) suf
      rw [List.length_replicate] at this
      exact reads_zeros this (by omega) hn
    rw [reads_zeros (vec8_zeros ca _ fuel rfl (fun _ => rfl)) (by omega) hn, e] at h
    obtain ⟨h1, h2⟩ := sameRead_ok h
    have h3 : 1 = n := congrArg Buf.pos h2
    subst h3
    cases h1
  · have h := h _ (ok_zeros (n := n + 1) hn)
    have e : decVec fuel (decInt ⟨1, false⟩) ca (some { count := some n }) ⟨List.replicate (n + 1) 0, 0⟩ =
        (.ok ((List.replicate n 0).map UInt8.toNat), ⟨List.replicate (n + 1) 0, n⟩) := by
      rw [vec_counted (Pure.pure ()) (fun _ => n) ca _ fuel rfl (fun _ => rfl)]
      show repeatM _ n _ = _
      have := fun suf => octets_reads ca (some { count := some n }) rfl rfl (List.replicate n 0) suf
      rw [List.length_replicate] at this
      exact reads_zeros this (by omega) hn
    have e' : decBytes ca (some { count := some n }) ⟨List.replicate (n + 1) 0, 0⟩ = (.ok [], ⟨List.replicate (n + 1) 0, 1⟩) :=
      reads_zeros prefix_zeros (by omega) hn
    rw [e, e'] at h
    obtain ⟨h1, h2⟩ := sameRead_ok h
    have h3 : n = 1 := congrArg Buf.pos h2
    subst h3
    cases h1
  · have h := h _ (ok_zeros (n := 1) (by omega))
    have e : decBytes ca (some { remaining := true }) ⟨List.replicate 1 0, 0⟩ = (.ok [0], ⟨List.replicate 1 0, 1⟩) := by
      show (remainingLen >>= takeBytes) ⟨List.replicate 1 0, 0⟩ = _
      rw [bind_apply, remainingLen_apply]
      exact Reads.bytes [0] [] [] (by simp; omega)
    rw [reads_zeros (vec8_zeros ca _ fuel rfl (fun _ => rfl)) (by omega) (by omega), e] at h
    cases (sameRead_ok h).1
  · constructor
    · intro h
      have h := h _ (ok_zeros (n := 9) (by omega))
      have e : decBytes ca (some { byteCount := some k }) ⟨List.replicate 9 0, 0⟩ = (.ok [], ⟨List.replicate 9 0, k⟩) := by
        show (takeUint k _ >>= takeBytes) _ = _
        exact reads_zeros (uint_zeros (fun suf => Reads.bytes [] suf) k hk _) (by omega) (by omega)
      rw [reads_zeros (vec8_zeros ca _ fuel rfl (fun _ => rfl)) (by omega) (by omega), e] at h
      exact (congrArg Buf.pos (sameRead_ok h).2).symm
    · rintro rfl b hb
      have e : decBytes ca (some { byteCount := some 1 }) b = (takeU8 >>= fun x => takeBytes x.toNat) b := uint1_bind _ _ b hb
      rw [vec_counted takeU8 UInt8.toNat ca _ fuel rfl (fun _ => rfl), e]
      exact counted_same takeU8 UInt8.toNat 1 takeU8_needs ca _ rfl rfl b hb
  · constructor
    · intro h
      have h := h _ (ok_zeros (n := 9) (by omega))
      have e : decVec fuel (decInt ⟨1, false⟩) ca (some { byteCountOutside := some k }) ⟨List.replicate 9 0, 0⟩ =
          (.ok [], ⟨List.replicate 9 0, k⟩) := by
        rw [vec_counted (takeUint k (getByteorder ca (some { byteCountOutside := some k }))) id ca _ fuel rfl (fun _ => rfl)]
        exact reads_zeros (uint_zeros (fun suf => Reads.pure [] suf) k hk _) (by omega) (by omega)
      have e' : decBytes ca (some { byteCountOutside := some k }) ⟨List.replicate 9 0, 0⟩ = (.ok [], ⟨List.replicate 9 0, 1⟩) :=
        reads_zeros prefix_zeros (by omega) (by omega)
      rw [e, e'] at h
      exact congrArg Buf.pos (sameRead_ok h).2
    · rintro rfl b hb
      rw [vec_counted (takeUint 1 (getByteorder ca (some { byteCountOutside := some 1 }))) id ca _ fuel rfl (fun _ => rfl), uint1_bind _ _ b hb]
      exact counted_same takeU8 UInt8.toNat 1 takeU8_needs ca _ rfl rfl b hb

/-- `count = 2` on `02 61 62`: the vector takes the first two bytes, the slice takes the `02` for its length. -/
example : decVec 0 (decInt ⟨1, false⟩) none (some { count := some 2 }) ⟨[2, 97, 98], 0⟩ = (.ok [2, 97], ⟨[2, 97, 98], 2⟩) ∧
    decBytes none (some { count := some 2 }) ⟨[2, 97, 98], 0⟩ = (.ok [97, 98], ⟨[2, 97, 98], 3⟩) := by
  decide +kernel

/-- C109 as stated is violated: with `count = 2` the message `00 00 00` is read differently by `Vec<u8>` and `&[u8]`. -/
theorem C109_violated : ¬ ∀ (fuel : Nat) (ca : Option CAttr) (fa : Option FAttr) (b : Buf), b.Ok →
    SameRead (decVec fuel (decInt ⟨1, false⟩) ca fa b) (decBytes ca fa b) := fun h =>
  (C109_same_iff 0 none).2.1 2 (by rw [isizeMax_def]; decide) fun b hb => h 0 none (some { count := some 2 }) b hb

end JBytes
