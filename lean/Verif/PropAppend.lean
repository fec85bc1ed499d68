import Verif.PropPatch
import Verif.PropSort
/-!
# C115: an encoded list can be extended where it stands
-/

namespace JBytes
open M

variable {α β V : Type}

/-! ## Specification -/

/-- The bytes that stand before the elements of a list of length `n`: the number of bytes is `byte_count_outside`, or none
under `count` and `try_count`, or one. -/
def countField (ca : Option CAttr) (fa : Option FAttr) (n : Nat) : List Byte :=
  match fa with
  | none => [UInt8.ofNat n]
  | some fr =>
    match fr.byteCountOutside with
    | some k => toBytes (effectiveOrder ca fa) k n
    | none => if fr.count.isSome || fr.tryCount.isSome then [] else [UInt8.ofNat n]

/-- The bytes that stand before the contents of a byte string of length `n`. -/
def lengthField (ca : Option CAttr) (fa : Option FAttr) (n : Nat) : List Byte :=
  match fa with
  | none => [UInt8.ofNat n]
  | some fr =>
    match fr.length, fr.byteCount with
    | some _, _ => []
    | none, some k => toBytes (effectiveOrder ca fa) k n
    | none, none => if fr.remaining then [] else [UInt8.ofNat n]

/-- `data` with `w` written over what stands at `p`. -/
def overwritten (data : List Byte) (p : Nat) (w : List Byte) : List Byte := data.take p ++ w ++ data.drop (p + w.length)

/-! ## Lemmas -/

theorem push_window {d : List Byte} {b : Buf} (hb : b.Ok) (hr : b.pos + d.length ≤ isizeMax) :
    push d b = (.ok d.length, window b d) := by
  rw [push_apply d b hr (.inr hb.1), writeAt_inside _ _ _ hb.1]
  rfl

theorem push_ran {d : List Byte} {b b' : Buf} {n : Nat} (hb : b.Ok) (h : push d b = (.ok n, b')) :
    b' = window b d ∧ b.pos + d.length ≤ isizeMax := by
  have hr : b.pos + d.length ≤ isizeMax := Nat.le_of_not_lt fun hr => push_no_room hb hr n b' h
  rw [push_window hb hr] at h
  cases h
  exact ⟨rfl, hr⟩

theorem push_zero {b : Buf} (hb : b.Ok) : push [] b = (.ok 0, b) := by
  rw [push_window hb (Nat.le_trans hb.1 hb.2), window_nil hb]
  rfl

/-- Something, a count and a list: the list is extended behind itself, and the count overwritten. -/
theorem extend_core {A : M Nat} {C : Nat → M Nat} {E : List α → M Nat} {W : Nat → List α → M Nat} {t : Nat → List Byte}
    {g : Nat → Nat → Nat → Nat} (hA : Placed Any A) (hC : ∀ n b, b.Ok → C n b = push (t n) b)
    (ht : ∀ n m, (t n).length = (t m).length) (hE : ∀ l, Placed Any (E l))
    (happ : ∀ l r b b1 b2 n k, b.Ok → E l b = (.ok n, b1) → E r b1 = (.ok k, b2) → ∃ m, E (l ++ r) b = (.ok m, b2))
    (hW : ∀ n l b, W n l b = (A >>= fun i => C n >>= fun j => E l >>= fun k => (Pure.pure (g i j k) : M Nat)) b)
    {l r : List α} {b b' b1 : Buf} {n k : Nat} (hb : b.Ok) (he : W l.length l b = (.ok n, b')) (hr : E r b' = (.ok k, b1)) :
    ∃ p, b.pos ≤ p ∧ (∃ i d, A b = (.ok i, ⟨d, p⟩)) ∧ p + (t l.length).length ≤ b'.pos ∧
      ∃ m, W (l.length + r.length) (l ++ r) b = (.ok m, ⟨overwritten b1.data p (t (l.length + r.length)), b1.pos⟩) := by
  rw [hW] at he
  obtain ⟨k1, c1, e1, e2⟩ := bind_ok he
  obtain ⟨k2, c2, e3, e4⟩ := bind_ok e2
  obtain ⟨k3, c3, e5, e6⟩ := bind_ok e4
  rw [pure_apply, Prod.mk.injEq, Out.ok.injEq] at e6
  obtain ⟨_, rfl⟩ := e6
  obtain ⟨w1, rfl, r1, _⟩ := hA.ran hb e1
  have ok1 := window_ok hb w1 r1
  rw [hC _ _ ok1] at e3
  obtain ⟨rfl, r2⟩ := push_ran ok1 e3
  have ok2 := window_ok ok1 _ r2
  obtain ⟨w2, rfl, r3, a2⟩ := (hE l).ran ok2 e5
  have ok3 := window_ok ok2 _ r3
  obtain ⟨w3, rfl, r4, a3⟩ := (hE r).ran ok3 hr
  have hlen := ht (l.length + r.length) l.length
  have hs := hC (l.length + r.length) _ ok1
  generalize t (l.length + r.length) = s at *
  generalize t l.length = s0 at *
  have r2' : b.pos + w1.length + s0.length ≤ isizeMax := r2
  have r3' : b.pos + w1.length + s0.length + w2.length ≤ isizeMax := r3
  have r4' : b.pos + w1.length + s0.length + w2.length + w3.length ≤ isizeMax := r4
  have rs : (window b w1).pos + s.length ≤ isizeMax := by simp only [window]; omega
  have ok2' := window_ok ok1 s rs
  have a2' := a2 _ ok2' (by simp only [window]; omega)
  have ok3' := window_ok ok2' w2 (by simp only [window]; omega)
  have a3' := a3 _ ok3' (by simp only [window]; omega)
  obtain ⟨m, hm⟩ := happ l r _ _ _ _ _ ok2' a2' a3'
  refine ⟨b.pos + w1.length, by omega, ⟨k1, _, e1⟩, by simp only [window]; omega, g k1 s.length m, ?_⟩
  rw [hW, bind_apply, e1]
  simp only
  rw [bind_apply, hs, push_window ok1 rs]
  simp only
  rw [bind_apply, hm]
  simp only [pure_apply]
  have hmid := window_middle b hb w1 s0 (w2 ++ w3) s hlen
  have e7 : ∀ s : List Byte, (window b w1).pos + s.length ≤ isizeMax → (window b w1).pos + s.length + w2.length ≤ isizeMax →
      window (window (window (window b w1) s) w2) w3 = window b (w1 ++ (s ++ (w2 ++ w3))) := by
    intro s h1 h2
    rw [window_window (window_ok ok1 s h1), window_window ok1, window_window hb]
  rw [e7 s rs (by simp only [window]; omega), e7 s0 r2 r3]
  have e8 : overwritten (window b (w1 ++ (s0 ++ (w2 ++ w3)))).data (b.pos + w1.length) s =
      (window b (w1 ++ (s ++ (w2 ++ w3)))).data := congrArg Buf.data hmid
  rw [e8]
  simp [window, hlen]

theorem countField_length (ca : Option CAttr) (fa : Option FAttr) (n m : Nat) :
    (countField ca fa n).length = (countField ca fa m).length := by
  unfold countField
  cases fa with
  | none => rfl
  | some fr =>
    simp only
    cases fr.byteCountOutside with
    | some k => simp [toBytes_length]
    | none => simp only; split <;> rfl

/-- No count of more than eight bytes. -/
def ShortCount (fa : Option FAttr) : Prop := ∀ k, fa.bind (·.byteCountOutside) = some k → k ≤ 8

theorem pushCount_push {ca : Option CAttr} {fa : Option FAttr} (h : ShortCount fa) (n : Nat) (b : Buf) (hb : b.Ok) :
    pushCount ca fa n b = push (countField ca fa n) b := by
  unfold pushCount countField
  cases fa with
  | none => rfl
  | some fr =>
    have h' : ∀ k, fr.byteCountOutside = some k → k ≤ 8 := h
    simp only
    cases hk : fr.byteCountOutside with
    | some k => simp only [pushUint_eq _ _ _ (h' k hk), getByteorder_eq]
    | none =>
      simp only
      cases fr.count <;> cases fr.tryCount <;>
        simp [push_zero hb, pure_apply, pushU8]

theorem pushCount_fits {ca : Option CAttr} {fa : Option FAttr} {n m : Nat} {b b' : Buf} (h : pushCount ca fa n b = (.ok m, b')) :
    ShortCount fa := by
  intro k hk
  refine Nat.le_of_not_lt fun hlt => ?_
  cases fa with
  | none => cases hk
  | some fr =>
    have hk' : fr.byteCountOutside = some k := hk
    simp only [pushCount, hk'] at h
    rw [pushUint_wide _ _ _ hlt] at h
    cases h

theorem encAll_joined (e : α → M Nat) (l r : List α) (b b1 b2 : Buf) (n k : Nat) (h1 : encAll e l b = (.ok n, b1))
    (h2 : encAll e r b1 = (.ok k, b2)) : encAll e (l ++ r) b = (.ok (n + k), b2) := by
  rw [encAll_append, bind_apply, h1]
  simp only
  rw [bind_apply, h2]
  rfl

/-! ## The property -/

/-- C115 (lists): if a list was encoded at `b` and new elements are written behind it, one after the other, then
overwriting the count with the new number gives exactly what encoding the longer list at `b` gives. -/
theorem C115_list_partial (c : Bool) (e : Enc α) (h : Encodable c α e) (ca : Option CAttr) (fa : Option FAttr)
    (hf : StartsWord fa) (hloop : fa.bind (·.loopSkipStarts) = none) (l r : List α) (b b' b1 : Buf)
    (hp : b.pos ≤ b.data.length) (hs : b.data.length ≤ isizeMax) (n k : Nat)
    (he : encVec e l ca fa b = (.ok n, b')) (hr : encArray e r ca fa b' = (.ok k, b1)) :
    b.pos + (countField ca fa (l.length + r.length)).length ≤ b'.pos ∧ ∃ m, encVec e (l ++ r) ca fa b =
      (.ok m, ⟨overwritten b1.data b.pos (countField ca fa (l.length + r.length)), b1.pos⟩) := by
  have L := Placed.logic
  have hel := fun a => h.placed a ca fa hf
  have hfit : ShortCount fa := by
    unfold encVec at he
    simp only [hloop] at he
    obtain ⟨_, _, h1, _⟩ := bind_ok he
    exact pushCount_fits h1
  obtain ⟨p, h1, ⟨i, d, h2⟩, h3, m, h4⟩ := extend_core (A := Pure.pure 0) (C := pushCount ca fa)
    (E := encAll fun a => e a ca fa) (t := countField ca fa) (g := fun _ j k => j + k)
    (W := fun x l => pushCount ca fa x >>= fun n => encAll (fun a => e a ca fa) l >>= fun m => (Pure.pure (n + m) : M Nat))
    (l := l) (r := r) (b := b) (b' := b') (b1 := b1) (n := n) (k := k)
    L.zero (pushCount_push hfit) (countField_length ca fa) (L.encAll hel)
    (fun l r b b1 b2 n k _ h1 h2 => ⟨_, encAll_joined _ l r b b1 b2 n k h1 h2⟩)
    (fun n l b => by simp only [bind_apply, pure_apply]) ⟨hp, hs⟩
    (by rw [← he]; unfold encVec; simp only [hloop]) hr
  cases h2
  refine ⟨by rw [countField_length ca fa _ l.length]; exact h3, m, ?_⟩
  rw [← h4]
  unfold encVec
  simp only [hloop, List.length_append]

/-- C115 (lists of marked elements): nothing is to be overwritten. -/
theorem C115_marked (e : Enc α) (ca : Option CAttr) (fa : Option FAttr) (s : List Byte)
    (hloop : fa.bind (·.loopSkipStarts) = some s) (l r : List α) (b b' b1 : Buf) (n k : Nat)
    (he : encVec e l ca fa b = (.ok n, b')) (hr : encVec e r ca fa b' = (.ok k, b1)) :
    encVec e (l ++ r) ca fa b = (.ok (n + k), b1) := by
  unfold encVec at *
  simp only [hloop] at *
  exact encAll_joined _ l r b b' b1 n k he hr

/-- C115 (arrays and lists whose count is elsewhere). -/
theorem C115_array (e : Enc α) (ca : Option CAttr) (fa : Option FAttr) (l r : List α) (b b' b1 : Buf) (n k : Nat)
    (he : encArray e l ca fa b = (.ok n, b')) (hr : encArray e r ca fa b' = (.ok k, b1)) :
    encArray e (l ++ r) ca fa b = (.ok (n + k), b1) :=
  encAll_joined _ l r b b' b1 n k he hr

/-- A key and its value, as the entries of a map are written. -/
def pairEnc (ek : Enc α) (ev : Enc β) : Enc (α × β) := fun x ca fa => do
  let a ← ek x.1 ca (keyFattr fa)
  let b ← ev x.2 ca (valFattr fa)
  return a + b

/-- C115 (maps): entries are written behind a map, and the count overwritten. -/
theorem C115_map_partial (c : Bool) (ek : Enc α) (ev : Enc β) (hk : Encodable c α ek) (hv : Encodable c β ev)
    (ca : Option CAttr) (fa : Option FAttr) (hfk : StartsWord (keyFattr fa)) (hfv : StartsWord (valFattr fa))
    (l r : List (α × β)) (b b' b1 : Buf) (hp : b.pos ≤ b.data.length) (hs : b.data.length ≤ isizeMax) (n k : Nat)
    (he : encMap ek ev l ca fa b = (.ok n, b')) (hr : encArray (pairEnc ek ev) r ca fa b' = (.ok k, b1)) :
    b.pos + (countField ca fa (l.length + r.length)).length ≤ b'.pos ∧ ∃ m, encMap ek ev (l ++ r) ca fa b =
      (.ok m, ⟨overwritten b1.data b.pos (countField ca fa (l.length + r.length)), b1.pos⟩) := by
  have L := Placed.logic
  have hel : ∀ x, Placed Any (pairEnc ek ev x ca fa) := fun x => L.seq (hk.placed x.1 ca _ hfk) (hv.placed x.2 ca _ hfv)
  have hfit : ShortCount fa := by
    unfold encMap at he
    obtain ⟨_, _, h1, _⟩ := bind_ok he
    exact pushCount_fits h1
  obtain ⟨p, h1, ⟨i, d, h2⟩, h3, m, h4⟩ := extend_core (A := Pure.pure 0) (C := pushCount ca fa)
    (E := encAll fun x => pairEnc ek ev x ca fa) (t := countField ca fa) (g := fun _ j k => j + k)
    (W := fun x l => pushCount ca fa x >>= fun n => encAll (fun x => pairEnc ek ev x ca fa) l >>= fun m => (Pure.pure (n + m) : M Nat))
    (l := l) (r := r) (b := b) (b' := b') (b1 := b1) (n := n) (k := k)
    L.zero (pushCount_push hfit) (countField_length ca fa) (L.encAll hel)
    (fun l r b b1 b2 n k _ h1 h2 => ⟨_, encAll_joined _ l r b b1 b2 n k h1 h2⟩)
    (fun n l b => by simp only [bind_apply, pure_apply]) ⟨hp, hs⟩ (by rw [← he]; rfl) hr
  cases h2
  refine ⟨by rw [countField_length ca fa _ l.length]; exact h3, m, ?_⟩
  rw [← h4]
  unfold encMap
  simp only [List.length_append]
  rfl

theorem lengthField_length (ca : Option CAttr) (fa : Option FAttr) (n m : Nat) :
    (lengthField ca fa n).length = (lengthField ca fa m).length := by
  unfold lengthField
  cases fa with
  | none => rfl
  | some fr =>
    simp only
    cases fr.length with
    | some _ => rfl
    | none =>
      cases fr.byteCount with
      | some k => simp [toBytes_length]
      | none => simp only; split <;> rfl

theorem encBytesPrefix_push {ca : Option CAttr} {fa : Option FAttr} (h : ∀ k, fa.bind (·.length) = none →
    fa.bind (·.byteCount) = some k → k ≤ 8) (hend : encBytesEnd fa = none) (n : Nat) (b : Buf) (hb : b.Ok) :
    encBytesPrefix ca fa n b = push (lengthField ca fa n) b := by
  unfold encBytesPrefix lengthField
  cases fa with
  | none => rfl
  | some fr =>
    have h' : ∀ k, fr.length = none → fr.byteCount = some k → k ≤ 8 := h
    simp only [encBytesEnd] at hend
    simp only
    cases hl : fr.length with
    | some _ => simp [push_zero hb, pure_apply]
    | none =>
      cases hk : fr.byteCount with
      | some k => simp only [pushUint_eq _ _ _ (h' k hl hk), getByteorder_eq]
      | none =>
        simp only [hl, hk, Option.isSome_none, Bool.false_eq_true, if_false] at hend
        cases h1 : fr.linend with
        | true => simp [h1] at hend
        | false =>
          simp only [h1, Bool.false_eq_true, if_false] at hend
          cases fr.remaining <;> simp [hend, push_zero hb, pure_apply, pushU8]

theorem pushOpt_ran {x : Option (List Byte)} {b b' : Buf} {n : Nat} (hb : b.Ok) (h : pushOpt x b = (.ok n, b')) :
    b'.Ok ∧ b'.pos = b.pos + (x.getD []).length := by
  cases x with
  | none => cases h; exact ⟨hb, rfl⟩
  | some x =>
    obtain ⟨rfl, hr⟩ := push_ran hb h
    exact ⟨window_ok hb x hr, rfl⟩

theorem encBytes_fits {ca : Option CAttr} {fa : Option FAttr} {l : List Byte} {b b' : Buf} {n : Nat}
    (he : encBytes l ca fa b = (.ok n, b')) : ∀ k, fa.bind (·.length) = none → fa.bind (·.byteCount) = some k → k ≤ 8 := by
  intro k h1 h2
  refine Nat.le_of_not_lt fun hlt => ?_
  unfold encBytes at he
  obtain ⟨_, c1, _, e2⟩ := bind_ok he
  obtain ⟨_, c2, _, e4⟩ := bind_ok e2
  obtain ⟨_, c3, e5, _⟩ := bind_ok e4
  cases fa with
  | none => cases h2
  | some fr =>
    have h1' : fr.length = none := h1
    have h2' : fr.byteCount = some k := h2
    simp only [encBytesPrefix, h1', h2'] at e5
    rw [pushUint_wide _ _ _ hlt] at e5
    cases e5

theorem encBytes_whole {ca : Option CAttr} {fa : Option FAttr} (hend : encBytesEnd fa = none) (d : List Byte) (b : Buf) :
    encBytes d ca fa b = ((pushOpt (fa.bind (·.key)) >>= fun i => pushOpt (fa.bind (·.split)) >>= fun j =>
      (Pure.pure (i + j) : M Nat)) >>= fun i => encBytesPrefix ca fa d.length >>= fun j => push d >>= fun k =>
        (Pure.pure (i + j + k + 0) : M Nat)) b := by
  unfold encBytes
  rw [hend]
  have h0 : ∀ b, pushOpt none b = (.ok 0, b) := fun _ => rfl
  simp only [bind_apply, h0, pure_apply]
  rcases pushOpt (fa.bind (·.key)) b with ⟨o, c1⟩
  cases o with
  | ok i =>
    simp only
    rcases pushOpt (fa.bind (·.split)) c1 with ⟨o, c2⟩
    cases o <;> rfl
  | _ => rfl

/-- C115 (byte strings and texts without a terminator): more bytes are written behind, and the length, which stands
behind the key and the separator, is overwritten. -/
theorem C115_bytes_partial (ca : Option CAttr) (fa : Option FAttr) (hend : encBytesEnd fa = none) (l r : List Byte)
    (b b' b1 : Buf) (hp : b.pos ≤ b.data.length) (hs : b.data.length ≤ isizeMax) (n k : Nat)
    (he : encBytes l ca fa b = (.ok n, b')) (hr : push r b' = (.ok k, b1)) :
    b.pos + ((fa.bind (·.key)).getD []).length + ((fa.bind (·.split)).getD []).length +
      (lengthField ca fa (l.length + r.length)).length ≤ b'.pos ∧
    ∃ m, encBytes (l ++ r) ca fa b = (.ok m, ⟨overwritten b1.data
      (b.pos + ((fa.bind (·.key)).getD []).length + ((fa.bind (·.split)).getD []).length)
      (lengthField ca fa (l.length + r.length)), b1.pos⟩) := by
  have hb : b.Ok := ⟨hp, hs⟩
  have L := Placed.logic
  have hO : ∀ x : Option (List Byte), Placed Any (pushOpt x) := by
    intro x
    cases x with
    | none => exact L.zero
    | some x => exact L.push x
  have hfit := encBytes_fits he
  have hwhole := encBytes_whole (ca := ca) hend
  obtain ⟨p, h1, ⟨i, d, h2⟩, h3, m, h4⟩ := extend_core
    (A := pushOpt (fa.bind (·.key)) >>= fun i => pushOpt (fa.bind (·.split)) >>= fun j => (Pure.pure (i + j) : M Nat))
    (C := encBytesPrefix ca fa) (E := push) (t := lengthField ca fa) (g := fun i j k => i + j + k + 0)
    (W := fun x l => (pushOpt (fa.bind (·.key)) >>= fun i => pushOpt (fa.bind (·.split)) >>= fun j =>
      (Pure.pure (i + j) : M Nat)) >>= fun i => encBytesPrefix ca fa x >>= fun j => push l >>= fun k =>
        (Pure.pure (i + j + k + 0) : M Nat))
    (l := l) (r := r) (b := b) (b' := b') (b1 := b1) (n := n) (k := k)
    (L.seq (hO _) (hO _)) (encBytesPrefix_push hfit hend) (lengthField_length ca fa) L.push
    (fun l r b b1 b2 n k hb h1 h2 => by
      obtain ⟨rfl, r1⟩ := push_ran hb h1
      obtain ⟨rfl, r2⟩ := push_ran (window_ok hb l r1) h2
      have r2' : b.pos + l.length + r.length ≤ isizeMax := r2
      rw [window_window hb]
      exact ⟨_, push_window hb (by rw [List.length_append]; omega)⟩)
    (fun n l b => rfl) hb (by rw [← hwhole]; exact he) hr
  have hpos : p = b.pos + ((fa.bind (·.key)).getD []).length + ((fa.bind (·.split)).getD []).length := by
    obtain ⟨_, c1, e1, e2⟩ := bind_ok h2
    obtain ⟨_, c2, e3, e4⟩ := bind_ok e2
    obtain ⟨o1, q1⟩ := pushOpt_ran hb e1
    obtain ⟨_, q2⟩ := pushOpt_ran o1 e3
    cases e4
    rw [← q1]
    exact q2
  rw [← hpos]
  refine ⟨by rw [lengthField_length ca fa _ l.length]; exact h3, m, ?_⟩
  rw [← h4, hwhole, List.length_append]

/-- C115 (structs): a list that is the last field of a struct.  The count stands where encoding the other fields alone
ends. -/
theorem C115_struct_partial (c : Bool) (S : StructDef V) (hw : S.withEncode = none) (fs : List (Field V)) (f : Field V)
    (hf : S.fields = fs ++ [f]) (hS : ∀ g ∈ fs, EncOk c g.attrs ∧ Encodable c V g.enc) (hd : Direct f.attrs)
    (ho : f.attrs.offset = none) (hv : f.attrs.valueEncode = none) (wrap : List α → V) (e : Enc α) (h : Encodable c α e)
    (hwrap : ∀ l ca fa, f.enc (wrap l) ca fa = encVec e l ca fa) (vs : List V) (hl : vs.length = fs.length)
    (ca : Option CAttr) (fa : Option FAttr) (mods : Option FAttr)
    (hm : mods = modsOf f.attrs { vars := localVars S.getVars ca, fields := vs }) (hsw : StartsWord mods)
    (hloop : mods.bind (·.loopSkipStarts) = none) (l r : List α) (b b' b1 : Buf)
    (hp : b.pos ≤ b.data.length) (hs : b.data.length ≤ isizeMax) (n k : Nat)
    (he : encStruct S (vs ++ [wrap l]) ca fa b = (.ok n, b')) (hr : encArray e r S.container mods b' = (.ok k, b1)) :
    ∃ p i d m, encStruct { S with fields := fs } vs ca fa b = (.ok i, ⟨d, p⟩) ∧
      p + (countField S.container mods (l.length + r.length)).length ≤ b'.pos ∧
      encStruct S (vs ++ [wrap (l ++ r)]) ca fa b =
        (.ok m, ⟨overwritten b1.data p (countField S.container mods (l.length + r.length)), b1.pos⟩) := by
  have L := Placed.logic
  have hel := fun a => h.placed a S.container mods hsw
  have hA := encFields_placed (c := c) fs hS S.container { vars := localVars S.getVars ca } vs
  have hwhole : ∀ l b, encStruct S (vs ++ [wrap l]) ca fa b =
      (encFields false fs S.container none { vars := localVars S.getVars ca } vs >>= fun i =>
        pushCount S.container mods l.length >>= fun j => encAll (fun a => e a S.container mods) l >>= fun k =>
          (Pure.pure (i + (j + k + 0)) : M Nat)) b := by
    intro l b
    unfold encStruct
    simp only [hw, hf]
    rw [encFields_append fs [f] _ _ vs [wrap l] hl.symm, bind_apply, bind_apply]
    rcases encFields false fs S.container none { vars := localVars S.getVars ca } vs b with ⟨o, c1⟩
    cases o with
    | ok i =>
      simp only
      rw [bind_apply, encFields_cons, bind_apply, hd.fieldEnc]
      have hm' : modsOf f.attrs (({ vars := localVars S.getVars ca } : Env V).extend vs) = mods := by
        rw [hm]; simp [Env.extend]
      simp only [padOffset, ho, handedOn, hv, hm', hwrap, bind_apply, pure_apply, encVec, hloop, encFields]
      rcases pushCount S.container mods l.length c1 with ⟨o, c2⟩
      cases o with
      | ok j =>
        simp only
        rcases encAll (fun a => e a S.container mods) l c2 with ⟨o, c3⟩
        cases o <;> rfl
      | _ => rfl
    | _ => rfl
  have hfit : ShortCount mods := by
    rw [hwhole] at he
    obtain ⟨_, _, _, e1⟩ := bind_ok he
    obtain ⟨_, _, e2, _⟩ := bind_ok e1
    exact pushCount_fits e2
  obtain ⟨p, h1, ⟨i, d, h2⟩, h3, m, h4⟩ := extend_core
    (A := encFields false fs S.container none { vars := localVars S.getVars ca } vs) (C := pushCount S.container mods)
    (E := encAll fun a => e a S.container mods) (t := countField S.container mods) (g := fun i j k => i + (j + k + 0))
    (W := fun x l => encFields false fs S.container none { vars := localVars S.getVars ca } vs >>= fun i =>
        pushCount S.container mods x >>= fun j => encAll (fun a => e a S.container mods) l >>= fun k =>
          (Pure.pure (i + (j + k + 0)) : M Nat))
    (l := l) (r := r) (b := b) (b' := b') (b1 := b1) (n := n) (k := k)
    hA (pushCount_push hfit) (countField_length _ _) (L.encAll hel)
    (fun l r b b1 b2 n k _ h1 h2 => ⟨_, encAll_joined _ l r b b1 b2 n k h1 h2⟩)
    (fun n l b => rfl) ⟨hp, hs⟩ (by rw [← hwhole]; exact he) hr
  refine ⟨p, i, d, m, ?_, by rw [countField_length _ _ _ l.length]; exact h3, ?_⟩
  · unfold encStruct
    simp only [hw]
    exact h2
  · rw [hwhole, List.length_append]
    exact h4

theorem take_window {b : Buf} (hb : b.Ok) (w w' : List Byte) : (window b (w ++ w')).data.take (b.pos + w.length) = b.data.take b.pos ++ w := by
  have h1 := hb.1
  have hp : (b.data.take b.pos).length = b.pos := by rw [List.length_take]; omega
  simp only [window]
  rw [show b.data.take b.pos ++ (w ++ w') ++ b.data.drop (b.pos + (w ++ w').length) =
    (b.data.take b.pos ++ w) ++ (w' ++ b.data.drop (b.pos + (w ++ w').length)) by simp only [List.append_assoc]]
  exact List.take_left' (by rw [List.length_append, hp])

/-- A count and a list: the list is cut, and the count overwritten. -/
theorem shrink_core {C : Nat → M Nat} {E : List α → M Nat} {t : Nat → List Byte} (hC : ∀ n b, b.Ok → C n b = push (t n) b)
    (ht : ∀ n m, (t n).length = (t m).length) (hE : ∀ l, Placed Any (E l))
    (hsplit : ∀ l r b b' n, b.Ok → E (l ++ r) b = (.ok n, b') → ∃ i c j, E l b = (.ok i, c) ∧ E r c = (.ok j, b')) {l r : List α} {b b' : Buf} {n : Nat} (hb : b.Ok)
    (he : (C (l.length + r.length) >>= fun i => E (l ++ r) >>= fun j => (Pure.pure (i + j) : M Nat)) b = (.ok n, b')) :
    ∃ m b1, (C l.length >>= fun i => E l >>= fun j => (Pure.pure (i + j) : M Nat)) b = (.ok m, b1) ∧
      b.pos + (t l.length).length ≤ b1.pos ∧ b1.pos ≤ b'.pos ∧
      b1.data.take b1.pos = (overwritten b'.data b.pos (t l.length)).take b1.pos ∧
      ∃ k, E r ⟨b'.data, b1.pos⟩ = (.ok k, b') := by
  obtain ⟨k1, c1, e1, e2⟩ := bind_ok he
  obtain ⟨k2, c2, e3, e4⟩ := bind_ok e2
  rw [pure_apply, Prod.mk.injEq, Out.ok.injEq] at e4
  obtain ⟨_, rfl⟩ := e4
  rw [hC _ _ hb] at e1
  obtain ⟨rfl, r1⟩ := push_ran hb e1
  have ok1 := window_ok hb _ r1
  obtain ⟨k3, c3, k4, e5, e7⟩ := hsplit l r _ _ _ ok1 e3
  obtain ⟨w2, rfl, r2, a2⟩ := (hE l).ran ok1 e5
  have ok2 := window_ok ok1 _ r2
  obtain ⟨w3, rfl, r3, a3⟩ := (hE r).ran ok2 e7
  have hlen := ht l.length (l.length + r.length)
  have hs := hC l.length _ hb
  generalize t (l.length + r.length) = s0 at *
  generalize t l.length = s at *
  have r2' : b.pos + s0.length + w2.length ≤ isizeMax := r2
  have r3' : b.pos + s0.length + w2.length + w3.length ≤ isizeMax := r3
  have rs : b.pos + s.length ≤ isizeMax := by omega
  have ok1' := window_ok hb s rs
  have a2' := a2 _ ok1' (by simp only [window]; omega)
  have hall : window (window (window b s0) w2) w3 = window b (s0 ++ (w2 ++ w3)) := by
    rw [window_window ok1, window_window hb]
  have okall : (window b (s0 ++ (w2 ++ w3))).Ok := window_ok hb _ (by simp only [List.length_append]; omega)
  rw [hall]
  refine ⟨s.length + k3, window b (s ++ w2), ?_, ?_, ?_, ?_, k4, ?_⟩
  · rw [bind_apply, hs, push_window hb rs]
    simp only
    rw [bind_apply, a2']
    simp only [pure_apply]
    rw [window_window hb]
  · simp only [window, List.length_append]
    omega
  · simp only [window, List.length_append]
    omega
  · have hmid := window_middle b hb [] s0 (w2 ++ w3) s hlen
    have e8 : overwritten (window b (s0 ++ (w2 ++ w3))).data b.pos s = (window b (s ++ (w2 ++ w3))).data := congrArg Buf.data hmid
    have e9 : (window b (s ++ w2)).pos = b.pos + (s ++ w2).length := rfl
    rw [e8, e9, ← List.append_assoc, take_window hb (s ++ w2) w3]
    have := take_window hb (s ++ w2) []
    rw [List.append_nil] at this
    exact this
  · have hpos : (window b (s ++ w2)).pos = b.pos + (s0 ++ w2).length := by
      simp only [window, List.length_append, hlen]
    rw [hpos]
    have hok : (⟨(window b (s0 ++ (w2 ++ w3))).data, b.pos + (s0 ++ w2).length⟩ : Buf).Ok := by
      refine ⟨?_, okall.2⟩
      have := okall.1
      simp only [window, List.length_append] at this ⊢
      omega
    rw [a3 _ hok (by simp only [List.length_append]; omega)]
    have hmid := window_middle b hb (s0 ++ w2) w3 [] w3 rfl
    rw [List.append_nil, List.append_assoc] at hmid
    rw [hmid]
    simp [window, Nat.add_assoc]

theorem encAll_split (e : α → M Nat) (l r : List α) (b b' : Buf) (n : Nat) (h : encAll e (l ++ r) b = (.ok n, b')) :
    ∃ i c j, encAll e l b = (.ok i, c) ∧ encAll e r c = (.ok j, b') := by
  rw [encAll_append] at h
  obtain ⟨i, c, e1, e2⟩ := bind_ok h
  obtain ⟨j, c', e3, e4⟩ := bind_ok e2
  rw [pure_apply, Prod.mk.injEq] at e4
  exact ⟨i, c, j, e1, by rw [e3, e4.2]⟩

/-- C115 (taking away): the last elements of an encoded list are taken away by overwriting the count and going back to
where they begin: what stands before this position is then what encoding the shorter list gives. -/
theorem C115_shrink_partial (c : Bool) (e : Enc α) (h : Encodable c α e) (ca : Option CAttr) (fa : Option FAttr)
    (hf : StartsWord fa) (hloop : fa.bind (·.loopSkipStarts) = none) (l r : List α) (b b' : Buf)
    (hp : b.pos ≤ b.data.length) (hs : b.data.length ≤ isizeMax) (n : Nat) (he : encVec e (l ++ r) ca fa b = (.ok n, b')) :
    ∃ m b1, encVec e l ca fa b = (.ok m, b1) ∧
      b.pos + (countField ca fa l.length).length ≤ b1.pos ∧ b1.pos ≤ b'.pos ∧
      b1.data.take b1.pos = (overwritten b'.data b.pos (countField ca fa l.length)).take b1.pos ∧
      ∃ k, encArray e r ca fa ⟨b'.data, b1.pos⟩ = (.ok k, b') := by
  unfold encVec at he ⊢
  simp only [hloop, List.length_append] at he ⊢
  have hfit : ShortCount fa := by
    obtain ⟨_, _, h1, _⟩ := bind_ok he
    exact pushCount_fits h1
  exact shrink_core (pushCount_push hfit) (countField_length ca fa) (Placed.logic.encAll fun a => h.placed a ca fa hf)
    (fun l r b b' n _ => encAll_split _ l r b b' n) ⟨hp, hs⟩ he

/-- C115 (taking away from maps). -/
theorem C115_shrink_map_partial (c : Bool) (ek : Enc α) (ev : Enc β) (hk : Encodable c α ek) (hv : Encodable c β ev)
    (ca : Option CAttr) (fa : Option FAttr) (hfk : StartsWord (keyFattr fa)) (hfv : StartsWord (valFattr fa))
    (l r : List (α × β)) (b b' : Buf) (hp : b.pos ≤ b.data.length) (hs : b.data.length ≤ isizeMax) (n : Nat)
    (he : encMap ek ev (l ++ r) ca fa b = (.ok n, b')) :
    ∃ m b1, encMap ek ev l ca fa b = (.ok m, b1) ∧
      b.pos + (countField ca fa l.length).length ≤ b1.pos ∧ b1.pos ≤ b'.pos ∧
      b1.data.take b1.pos = (overwritten b'.data b.pos (countField ca fa l.length)).take b1.pos ∧
      ∃ k, encArray (pairEnc ek ev) r ca fa ⟨b'.data, b1.pos⟩ = (.ok k, b') := by
  unfold encMap at he ⊢
  simp only [List.length_append] at he
  have hfit : ShortCount fa := by
    obtain ⟨_, _, h1, _⟩ := bind_ok he
    exact pushCount_fits h1
  exact shrink_core (E := encAll fun x => pairEnc ek ev x ca fa) (pushCount_push hfit) (countField_length ca fa)
    (Placed.logic.encAll fun x => Placed.logic.seq (hk.placed x.1 ca _ hfk) (hv.placed x.2 ca _ hfv))
    (fun l r b b' n _ => encAll_split _ l r b b' n) ⟨hp, hs⟩ he

/-- C115 (taking away from byte strings and texts without a terminator). -/
theorem C115_shrink_bytes_partial (ca : Option CAttr) (fa : Option FAttr) (hend : encBytesEnd fa = none) (l r : List Byte)
    (b b' : Buf) (hp : b.pos ≤ b.data.length) (hs : b.data.length ≤ isizeMax) (n : Nat)
    (he : encBytes (l ++ r) ca fa b = (.ok n, b')) :
    ∃ m b1, encBytes l ca fa b = (.ok m, b1) ∧
      b.pos + ((fa.bind (·.key)).getD []).length + ((fa.bind (·.split)).getD []).length + (lengthField ca fa l.length).length ≤ b1.pos ∧
      b1.pos ≤ b'.pos ∧
      b1.data.take b1.pos = (overwritten b'.data
        (b.pos + ((fa.bind (·.key)).getD []).length + ((fa.bind (·.split)).getD []).length) (lengthField ca fa l.length)).take b1.pos ∧
      ∃ k, push r ⟨b'.data, b1.pos⟩ = (.ok k, b') := by
  have hb : b.Ok := ⟨hp, hs⟩
  have hfit := encBytes_fits he
  rw [encBytes_whole hend] at he
  obtain ⟨i, c, h1, h2⟩ := bind_ok he
  have hc : c.Ok ∧ c.pos = b.pos + ((fa.bind (·.key)).getD []).length + ((fa.bind (·.split)).getD []).length := by
    obtain ⟨_, c1, e1, e2⟩ := bind_ok h1
    obtain ⟨_, c2, e3, e4⟩ := bind_ok e2
    obtain ⟨o1, q1⟩ := pushOpt_ran hb e1
    obtain ⟨o2, q2⟩ := pushOpt_ran o1 e3
    cases e4
    rw [← q1]
    exact ⟨o2, q2⟩
  obtain ⟨j, c2, h3, h4⟩ := bind_ok h2
  obtain ⟨k, c3, h5, h6⟩ := bind_ok h4
  rw [pure_apply, Prod.mk.injEq] at h6
  obtain ⟨_, rfl⟩ := h6
  obtain ⟨m, b1, g1, g2, g3, g4, g5⟩ := shrink_core (C := encBytesPrefix ca fa) (E := push) (t := lengthField ca fa) (l := l) (r := r)
    (n := j + k) (encBytesPrefix_push hfit hend) (lengthField_length ca fa) Placed.logic.push
    (fun l r b b' n hb h => by
      obtain ⟨rfl, r1⟩ := push_ran hb h
      rw [List.length_append] at r1
      refine ⟨l.length, window b l, r.length, push_window hb (by omega), ?_⟩
      rw [push_window (window_ok hb l (by omega)) (by simp only [window]; omega), window_window hb])
    hc.1 (by rw [List.length_append] at h3; rw [bind_apply, h3]; simp only; rw [bind_apply, h5]; rfl)
  rw [hc.2] at g2 g4
  obtain ⟨j', d2, f1, f2⟩ := bind_ok g1
  obtain ⟨k', d3, f3, f4⟩ := bind_ok f2
  rw [pure_apply, Prod.mk.injEq] at f4
  obtain ⟨_, rfl⟩ := f4
  refine ⟨i + j' + k' + 0, d3, ?_, g2, g3, g4, g5⟩
  rw [encBytes_whole hend, bind_apply, h1]
  simp only
  rw [bind_apply, f1]
  simp only
  rw [bind_apply, f3]
  rfl

/-- C115 (reading): reading `n + m` elements is reading `n` and then `m` elements, whatever the elements are and whether
it succeeds or not. -/
theorem C115_read (d : Dec α) (ca : Option CAttr) (fa : Option FAttr) (n m : Nat) (b : Buf) :
    decArray (n + m) d ca fa b = (decArray n d ca fa >>= fun l => decArray m d ca fa >>= fun r => (Pure.pure (l ++ r) : M (List α))) b := by
  unfold decArray
  induction n generalizing b with
  | zero =>
    simp only [Nat.zero_add, repeatM, bind_apply, pure_apply, List.nil_append]
    rcases repeatM (d ca fa) m b with ⟨o, b1⟩
    cases o <;> rfl
  | succ n ih =>
    rw [Nat.add_right_comm]
    simp only [repeatM, bind_apply, ih]
    rcases d ca fa b with ⟨o, b1⟩
    cases o with
    | ok a =>
      simp only
      rcases repeatM (d ca fa) n b1 with ⟨o, b2⟩
      cases o with
      | ok l =>
        simp only [pure_apply]
        rcases repeatM (d ca fa) m b2 with ⟨o, b3⟩
        cases o <;> rfl
      | _ => rfl
    | _ => rfl

/-! ## Instances -/

example (l r : List Nat) (b b' b1 : Buf) (hp : b.pos ≤ b.data.length) (hs : b.data.length ≤ isizeMax) (n k : Nat)
    (he : encVec (encInt ⟨2, false⟩) l none (some { byteCountOutside := some 2 }) b = (.ok n, b'))
    (hr : encArray (encInt ⟨2, false⟩) r none (some { byteCountOutside := some 2 }) b' = (.ok k, b1)) :=
  C115_list_partial true _ (.int ⟨2, false⟩) none (some { byteCountOutside := some 2 })
    (by intro a h; cases h; exact .inl rfl) rfl l r b b' b1 hp hs n k he hr

/-- Two numbers, then one more. -/
example : encVec (encInt ⟨2, false⟩) [1, 2] none none ⟨[9], 1⟩ = (.ok 5, ⟨[9, 2, 0, 1, 0, 2], 6⟩) ∧
    encArray (encInt ⟨2, false⟩) [3] none none ⟨[9, 2, 0, 1, 0, 2], 6⟩ = (.ok 2, ⟨[9, 2, 0, 1, 0, 2, 0, 3], 8⟩) ∧
    overwritten [9, 2, 0, 1, 0, 2, 0, 3] 1 (countField none none 3) = [9, 3, 0, 1, 0, 2, 0, 3] ∧
    encVec (encInt ⟨2, false⟩) [1, 2, 3] none none ⟨[9], 1⟩ = (.ok 7, ⟨[9, 3, 0, 1, 0, 2, 0, 3], 8⟩) := by decide +kernel

/-- The last one is taken away again. -/
example (l r : List Nat) (b b' : Buf) (hp : b.pos ≤ b.data.length) (hs : b.data.length ≤ isizeMax) (n : Nat)
    (he : encVec (encInt ⟨2, false⟩) (l ++ r) none none b = (.ok n, b')) :=
  C115_shrink_partial true _ (.int ⟨2, false⟩) none none StartsWord.none rfl l r b b' hp hs n he

example : (overwritten [9, 3, 0, 1, 0, 2, 0, 3] 1 (countField none none 2)).take 6 = [9, 2, 0, 1, 0, 2] := by decide +kernel

/-- Entries of a map. -/
example (l r : List (Nat × Nat)) (b b' : Buf) (hp : b.pos ≤ b.data.length) (hs : b.data.length ≤ isizeMax) (n : Nat)
    (he : encMap (encInt ⟨1, false⟩) (encInt ⟨2, false⟩) (l ++ r) none none b = (.ok n, b')) :=
  C115_shrink_map_partial true _ _ (.int ⟨1, false⟩) (.int ⟨2, false⟩) none none StartsWord.none StartsWord.none l r b b' hp hs n he

example : encMap (encInt ⟨1, false⟩) (encInt ⟨2, false⟩) [(1, 2), (3, 4)] none none ⟨[], 0⟩ = (.ok 7, ⟨[2, 1, 0, 2, 3, 0, 4], 7⟩) ∧
    (overwritten [2, 1, 0, 2, 3, 0, 4] 0 (countField none none 1)).take 4 = [1, 1, 0, 2] ∧
    encMap (encInt ⟨1, false⟩) (encInt ⟨2, false⟩) [(1, 2)] none none ⟨[], 0⟩ = (.ok 4, ⟨[1, 1, 0, 2], 4⟩) := by decide +kernel

/-- Bytes behind a key and a separator are taken away. -/
example (l r : List Byte) (b b' : Buf) (hp : b.pos ≤ b.data.length) (hs : b.data.length ≤ isizeMax) (n : Nat)
    (he : encBytes (l ++ r) none (some { key := some [75], split := some [58], byteCount := some 2 }) b = (.ok n, b')) :=
  C115_shrink_bytes_partial none (some { key := some [75], split := some [58], byteCount := some 2 }) rfl l r b b' hp hs n he

/-- Bytes behind a key and a separator. -/
example : encBytes [65] none (some { key := some [75], split := some [58], byteCount := some 2 }) ⟨[], 0⟩ =
      (.ok 5, ⟨[75, 58, 0, 1, 65], 5⟩) ∧
    overwritten [75, 58, 0, 1, 65, 66] 2 (lengthField none (some { key := some [75], split := some [58], byteCount := some 2 }) 2) =
      [75, 58, 0, 2, 65, 66] ∧
    encBytes [65, 66] none (some { key := some [75], split := some [58], byteCount := some 2 }) ⟨[], 0⟩ =
      (.ok 6, ⟨[75, 58, 0, 2, 65, 66], 6⟩) := by decide +kernel

/-- The entries in a value. -/
def listed : Val → List Byte
  | .bytes l => l
  | _ => []

/-- An entry is a number of 8 bits. -/
def entryEnc : Enc Byte := fun v => encInt ⟨1, false⟩ v.toNat

theorem entryEnc_encodable (c : Bool) : Encodable c Byte entryEnc :=
  Encodable.project (fun v : Byte => some v.toNat) (.int ⟨1, false⟩)

/-- A journal: its kind, and its entries behind a count of four bytes. -/
def journalList : Field Val :=
  { attrs := { isUse := true, byteCountOutside := some fun _ => 4 }
    dec := fun _ _ => Pure.pure .absent
    enc := fun v ca fa => encVec entryEnc (listed v) ca fa
    dflt := .absent
    noneV := .absent }

def journal : StructDef Val := { fields := [u16Field {}] ++ [journalList] }

/-- C115 on `journal`: entries are added at its end. -/
example (x : Nat) (l r : List Byte) (b b' b1 : Buf) (hp : b.pos ≤ b.data.length) (hs : b.data.length ≤ isizeMax) (n k : Nat)
    (he : encStruct journal ([.num x] ++ [.bytes l]) none none b = (.ok n, b'))
    (hr : encArray entryEnc r none (some { byteCountOutside := some 4 }) b' = (.ok k, b1)) :
    ∃ p i d m, encStruct { journal with fields := [u16Field {}] } [.num x] none none b = (.ok i, ⟨d, p⟩) ∧ p + 4 ≤ b'.pos ∧
      encStruct journal ([.num x] ++ [.bytes (l ++ r)]) none none b =
        (.ok m, ⟨overwritten b1.data p (countField none (some { byteCountOutside := some 4 }) (l.length + r.length)), b1.pos⟩) :=
  C115_struct_partial true journal rfl [u16Field {}] journalList rfl
    (by
      intro g hg
      rcases List.mem_singleton.1 hg with rfl
      exact ⟨encOk_plain _, numEnc_encodable _ _⟩)
    ⟨rfl, rfl, rfl, rfl, rfl, (fun _ h => nomatch h)⟩ rfl rfl (fun l => .bytes l) entryEnc
    (entryEnc_encodable true) (fun _ _ _ => rfl) [.num x] rfl none none (some { byteCountOutside := some 4 }) rfl
    (by intro a h; cases h; exact .inl rfl) rfl l r b b' b1 hp hs n k he hr

example : (encStruct journal [.num 1, .bytes [5]] none none ⟨[], 0⟩).2 = ⟨[0, 1, 0, 0, 0, 1, 5], 7⟩ ∧
    (encArray entryEnc [6] none (some { byteCountOutside := some 4 }) ⟨[0, 1, 0, 0, 0, 1, 5], 7⟩).2 = ⟨[0, 1, 0, 0, 0, 1, 5, 6], 8⟩ ∧
    (encStruct journal [.num 1, .bytes [5, 6]] none none ⟨[], 0⟩).2 = ⟨[0, 1, 0, 0, 0, 2, 5, 6], 8⟩ := by decide +kernel

/-- C115 fails where the number does not fit the count: the list of 256 elements is read as an empty one; and bytes behind
a terminator do not belong to the byte string. -/
theorem C115_violated :
    (∃ b' b1 : Buf, encVec encChar (List.replicate 255 7) none none ⟨[], 0⟩ = (.ok 256, b') ∧
      encArray encChar [7] none none b' = (.ok 1, b1) ∧
      (decVec 300 decChar none none ⟨overwritten b1.data 0 (countField none none 256), 0⟩).1 = .ok []) ∧
    encBytes [65] none (some { linend := true }) ⟨[], 0⟩ = (.ok 3, ⟨[65, 13, 10], 3⟩) ∧
    push [66] ⟨[65, 13, 10], 3⟩ = (.ok 1, ⟨[65, 13, 10, 66], 4⟩) ∧
    encBytes [65, 66] none (some { linend := true }) ⟨[], 0⟩ = (.ok 4, ⟨[65, 66, 13, 10], 4⟩) ∧
    (decBytes none (some { linend := true }) ⟨[65, 13, 10, 66], 0⟩).1 = .ok [65] := by
  refine ⟨⟨⟨255 :: List.replicate 255 7, 256⟩, ⟨255 :: List.replicate 256 7, 257⟩, ?_, ?_, ?_⟩, ?_⟩ <;> decide +kernel

end JBytes
