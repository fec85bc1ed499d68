import Verif.MutWrite
import Verif.PropWrite
/-!
# C71: writing through any implementation of `BufWrite` or `BufWriteMut`
-/

namespace JBytes

variable {σ : Type}

/-- What the methods of an implementation have to do.  `view` is the memory and the position, `Inv` an invariant.
`resize` may refuse (0) and change nothing, or provide room for `n` bytes at the position, keeping what is there. -/
structure WriteImpl.Lawful (I : WriteImpl σ) (view : σ → Buf) (Inv : σ → Prop) : Prop where
  pos : ∀ s, Inv s → I.pos s = (view s).pos
  inside : ∀ s, Inv s → (view s).pos ≤ (view s).data.length
  remaining : ∀ s, Inv s → I.remaining s = (view s).data.drop (view s).pos
  advance : ∀ s n, Inv s → (view s).pos + n ≤ (view s).data.length →
    ∃ s', I.advance n s = (.ok (), s') ∧ Inv s' ∧ view s' = ⟨(view s).data, (view s).pos + n⟩
  remainingMut : ∀ s, Inv s → I.remainingMut s = some ((view s).data.drop (view s).pos)
  setMut : ∀ s r, Inv s → (view s).pos + r.length = (view s).data.length →
    Inv (I.setMut r s) ∧ view (I.setMut r s) = ⟨(view s).data.take (view s).pos ++ r, (view s).pos⟩
  resize : ∀ s n, Inv s → n ≤ isizeMax → (view s).data.length < (view s).pos + n → ∃ o s', I.resize n s = (o, s') ∧
    (o = .panic ∨ (o = .ok 0 ∧ Inv s' ∧ view s' = view s) ∨
      ∃ m ext, m ≠ 0 ∧ o = .ok m ∧ Inv s' ∧ view s' = ⟨(view s).data ++ ext, (view s).pos⟩ ∧
        (view s).pos + n ≤ ((view s).data ++ ext).length)

theorem mimpl_bind {α β : Type} (m : MS σ α) (f : α → MS σ β) (s : σ) : (m >>= f) s = match m s with
    | (.ok a, s') => f a s'
    | (.err e, s') => (.err e, s')
    | (.panic, s') => (.panic, s')
    | (.timeout, s') => (.timeout, s') := rfl

theorem WriteImpl.room_apply (I : WriteImpl σ) (n : Nat) (s : σ) :
    I.room n s = if n > (I.remaining s).length then I.resize n s else (.ok 1, s) := rfl

/-- Every method is a `push` of its payload, or an error in place. -/
theorem WriteImpl.run_eq (I : WriteImpl σ) (op : WriteOp) (s : σ) : I.run op s = match op.payload with
    | some d => I.push d s
    | none => (.err ⟨I.pos s, .invalidByteLength⟩, s) := by
  cases op with
  | bytes d => rfl
  | byteorderArray d o => cases o <;> rfl
  | bool c => rfl
  | char c => rfl
  | scalar k v o =>
    show I.pushScalar k v o s = I.push (toBytes o k.size v) s
    cases k <;> first | rfl | (simp only [WriteImpl.pushScalar, Scalar.size, toBytes_one]; done)
  | u24 v o =>
    cases o
    · show I.push ((toBE 4 v).drop (4 - 3)) s = I.push (toBE 3 v) s
      rw [toBE_drop 4 3 v (by omega)]
    · show I.push ((toLE 4 v).take 3) s = I.push (toLE 3 v) s
      rw [toLE_take 4 3 v (by omega)]
  | uint v n o =>
    simp only [WriteImpl.run, WriteImpl.pushUint, WriteOp.payload]
    by_cases h : n ≤ 8
    · rw [if_pos h, if_pos h]
      cases o
      · show I.push ((toBE 8 v).drop (8 - n)) s = I.push (toBE n v) s
        rw [toBE_drop 8 n v h]
      · show I.push ((toLE 8 v).take n) s = I.push (toLE n v) s
        rw [toLE_take 8 n v h]
    · rw [if_neg h, if_neg h]
      rfl

theorem WriteImpl.overwrite_advance {I : WriteImpl σ} {view : σ → Buf} {Inv : σ → Prop} (hI : I.Lawful view Inv) (d : List Byte)
    (s : σ) (hs : Inv s) (h : (view s).pos + d.length ≤ (view s).data.length) :
    ∃ s', I.commit d s = (.ok d.length, s') ∧ Inv s' ∧
      view s' = ⟨(view s).data.take (view s).pos ++ d ++ (view s).data.drop ((view s).pos + d.length),
        (view s).pos + d.length⟩ := by
  have h1 : I.overwrite d s = (.ok (), I.setMut (d ++ ((view s).data.drop (view s).pos).drop d.length) s) := by
    unfold WriteImpl.overwrite
    rw [hI.remainingMut s hs]
    simp only
    rw [if_pos (by rw [List.length_drop]; omega)]
  obtain ⟨i1, v1⟩ := hI.setMut s (d ++ ((view s).data.drop (view s).pos).drop d.length) hs (by
    simp only [List.length_append, List.length_drop]; omega)
  obtain ⟨s', a1, i2, v2⟩ := hI.advance _ d.length i1 (by rw [v1]; simp; omega)
  refine ⟨s', ?_, i2, ?_⟩
  · unfold WriteImpl.commit
    rw [mimpl_bind, h1]
    simp only
    rw [mimpl_bind, a1]
    rfl
  · rw [v2, v1]
    simp [List.drop_drop, List.append_assoc]

/-- A write succeeded: its bytes stand at the position, everything before and after them that was there is kept (`ext` is
memory added at the end, none if there was room), and the position is behind them. -/
def Wrote (b b' : Buf) (d : List Byte) : Prop := ∃ ext, (b.pos + d.length ≤ b.data.length → ext = []) ∧
  b' = ⟨b.data.take b.pos ++ d ++ (b.data ++ ext).drop (b.pos + d.length), b.pos + d.length⟩

/-- C71: a method of `BufWrite` or `BufWriteMut`, over any implementation that does what its methods have to do, either
writes the bytes it is documented to write at the position and returns their number; or, when the implementation refuses
to provide room, returns `PushFail` and leaves everything as it was; or, when the width is too large, `InvalidByteLength`,
likewise; it panics only if `resize` does. -/
theorem C71_write (I : WriteImpl σ) (view : σ → Buf) (Inv : σ → Prop) (hI : I.Lawful view Inv) (op : WriteOp) (s : σ)
    (hs : Inv s) (hd : ∀ d, op.payload = some d → d.length ≤ isizeMax) : ∃ o s', I.run op s = (o, s') ∧
      match op.payload with
      | none => o = .err ⟨(view s).pos, .invalidByteLength⟩ ∧ s' = s
      | some d => (o = .ok d.length ∧ Inv s' ∧ Wrote (view s) (view s') d) ∨
          (o = .err ⟨(view s).pos, .pushFail⟩ ∧ Inv s' ∧ view s' = view s ∧
            (view s).data.length < (view s).pos + d.length ∧ (I.resize d.length s).1 = .ok 0) ∨
          (o = .panic ∧ (view s).data.length < (view s).pos + d.length ∧ (I.resize d.length s).1 = .panic) := by
  refine ⟨(I.run op s).1, (I.run op s).2, rfl, ?_⟩
  rw [I.run_eq]
  cases hpay : op.payload with
  | none => exact ⟨by rw [hI.pos s hs], rfl⟩
  | some d =>
    simp only
    have hd := hd d hpay
    have hin := hI.inside s hs
    have hlen : (I.remaining s).length = (view s).data.length - (view s).pos := by
      rw [hI.remaining s hs, List.length_drop]
    by_cases h : (view s).pos + d.length ≤ (view s).data.length
    · obtain ⟨s', e, i, v⟩ := WriteImpl.overwrite_advance hI d s hs h
      have hp : I.push d s = (.ok d.length, s') := by
        unfold WriteImpl.push
        rw [mimpl_bind, I.room_apply, if_neg (by rw [hlen]; omega)]
        exact e
      rw [hp]
      refine .inl ⟨rfl, i, [], fun _ => rfl, ?_⟩
      rw [List.append_nil]
      exact v
    · obtain ⟨o, s1, hr, hc⟩ := hI.resize s d.length hs hd (by omega)
      have hp : I.room d.length s = (o, s1) := by
        rw [I.room_apply, if_pos (by rw [hlen]; omega), hr]
      unfold WriteImpl.push
      rw [mimpl_bind, hr, hp]
      rcases hc with rfl | ⟨rfl, i, v⟩ | ⟨m, ext, hm, rfl, i, v, hl⟩
      · exact .inr (.inr ⟨rfl, by omega, rfl⟩)
      · refine .inr (.inl ⟨?_, i, v, by omega, rfl⟩)
        show Out.err ⟨I.pos s1, .pushFail⟩ = _
        rw [hI.pos s1 i, v]
      · simp only
        rw [if_neg hm]
        obtain ⟨s', e, i', v'⟩ := WriteImpl.overwrite_advance hI d s1 i (by rw [v]; exact hl)
        rw [e]
        refine .inl ⟨rfl, i', ext, fun h' => absurd h' h, ?_⟩
        rw [v', v]
        simp only
        rw [List.take_append_of_le_length hin]

/-- The bytes of a write, if it succeeded. -/
def written (op : WriteOp) : Out Nat → List Byte
  | .ok _ => op.payload.getD []
  | _ => []

/-- Run a history of writes, going on after errors; collects the payloads of those that succeeded. -/
def WriteImpl.runAll (I : WriteImpl σ) : List WriteOp → σ → List Byte × σ
  | [], s => ([], s)
  | op :: ops, s =>
    let r := I.run op s
    let rest := I.runAll ops r.2
    (written op r.1 ++ rest.1, rest.2)

/-- C71, histories: over any lawful implementation that does not panic, whichever writes it refuses, what stands before the
position at the end is what stood there at the beginning and then the bytes of the successful writes, in order. -/
theorem C71_history (I : WriteImpl σ) (view : σ → Buf) (Inv : σ → Prop) (hI : I.Lawful view Inv)
    (hp : ∀ s n, Inv s → (I.resize n s).1 ≠ .panic) (ops : List WriteOp)
    (hd : ∀ op ∈ ops, ∀ d, op.payload = some d → d.length ≤ isizeMax) (s : σ) (hs : Inv s) :
    let r := I.runAll ops s
    Inv r.2 ∧ (view r.2).data.take (view r.2).pos = (view s).data.take (view s).pos ++ r.1 := by
  induction ops generalizing s with
  | nil => exact ⟨hs, by simp [WriteImpl.runAll]⟩
  | cons op ops ih =>
    obtain ⟨o, s', e, h⟩ := C71_write I view Inv hI op s hs (hd op (by simp))
    have key : Inv s' ∧ (view s').data.take (view s').pos =
        (view s).data.take (view s).pos ++ written op o := by
      have hin := hI.inside s hs
      cases hpay : op.payload with
      | none =>
        rw [hpay] at h
        obtain ⟨rfl, rfl⟩ := h
        exact ⟨hs, by simp [written]⟩
      | some d =>
        rw [hpay] at h
        rcases h with ⟨rfl, i, ext, _, v⟩ | ⟨rfl, i, v, _⟩ | ⟨_, _, h⟩
        · refine ⟨i, ?_⟩
          rw [v]
          simp only [written, hpay, Option.getD_some]
          rw [List.take_append_of_le_length (by simp; omega), List.take_of_length_le (by simp; omega)]
        · exact ⟨i, by rw [v]; simp [written]⟩
        · exact absurd h (hp s _ hs)
    obtain ⟨i2, v2⟩ := ih (fun o ho => hd o (by simp [ho])) s' key.1
    simp only [WriteImpl.runAll, e]
    refine ⟨i2, ?_⟩
    rw [v2, key.2, List.append_assoc]

/-- `Buffer` is lawful while the position is inside the data and nothing exceeds the address space. -/
theorem bufferImpl_lawful : bufferImpl.Lawful id Buf.Ok where
  pos _ _ := rfl
  inside _ h := h.1
  remaining b h := if_pos h.1
  advance b n h hn := by
    have := isizeMax_lt
    refine ⟨⟨b.data, b.pos + n⟩, ?_, ⟨hn, h.2⟩, rfl⟩
    have h2 := h.2
    simp only [id] at hn
    simp only [bufferImpl]
    rw [wadd_eq (by omega)]
  remainingMut b h := if_pos h.1
  setMut b r h hr := by
    have h1 := h.1
    have h2 := h.2
    simp only [id] at hr
    refine ⟨⟨?_, ?_⟩, rfl⟩
    · simp [bufferImpl]; omega
    · simp [bufferImpl]; omega
  resize b n h hn hr := by
    have h1 := h.1
    have h2 := h.2
    have h3 : isizeMax + isizeMax < usizeMod := by rw [isizeMax_def, usizeMod_def]; decide
    simp only [id] at hr
    have e : bufferImpl.resize n b = if b.pos + n ≤ isizeMax then
        (.ok (b.pos + n), { b with data := b.data.take (b.pos + n) ++ List.replicate (b.pos + n - b.data.length) 0 })
        else (.panic, b) := by
      simp only [bufferImpl]
      rw [wadd_eq (by omega)]
    rw [e]
    by_cases hm : b.pos + n ≤ isizeMax
    · rw [if_pos hm]
      refine ⟨_, _, rfl, ?_⟩
      refine .inr (.inr ⟨b.pos + n, List.replicate (b.pos + n - b.data.length) 0, by omega, rfl, ?_, ?_, ?_⟩)
      · exact ⟨by simp; omega, by simp; omega⟩
      · simp only [id]
        rw [List.take_of_length_le (by omega)]
      · simp; omega
    · rw [if_neg hm]
      exact ⟨_, _, rfl, .inl rfl⟩

/-- Memory of a fixed size is lawful. -/
theorem fixedImpl_lawful : fixedImpl.Lawful id (fun b => b.pos ≤ b.data.length) where
  pos _ _ := rfl
  inside _ h := h
  remaining _ _ := rfl
  advance b n h hn := ⟨⟨b.data, b.pos + n⟩, rfl, hn, rfl⟩
  remainingMut _ _ := rfl
  setMut b r h hr := by
    simp only [id] at hr
    exact ⟨by simp [fixedImpl]; omega, rfl⟩
  resize b n h _ _ := ⟨_, _, rfl, .inr (.inl ⟨rfl, h, rfl⟩)⟩

/-- C71, the write methods of `Buffer` are those of the trait at its implementation, in every state. -/
theorem C71_buffer (op : WriteOp) (b : Buf) : bufferImpl.run op b = op.run b := by
  rw [WriteImpl.run_eq, run_eq]
  cases op.payload with
  | none => rfl
  | some d =>
    have hc : ∀ b, bufferImpl.commit d b = (do
        overwrite d
        M.advance d.length
        return d.length : M Nat) b := by
      intro b
      unfold WriteImpl.commit
      rw [mimpl_bind, bind_apply]
      by_cases h : b.pos ≤ b.data.length
      · by_cases h' : d.length ≤ b.data.length - b.pos
        · have e1 : bufferImpl.overwrite d b = (.ok (), ⟨b.data.take b.pos ++ (d ++ (b.data.drop b.pos).drop d.length), b.pos⟩) := by
            simp only [WriteImpl.overwrite, bufferImpl, if_pos h, List.length_drop, if_pos h']
          have e2 : overwrite d b = (.ok (), ⟨b.data.take b.pos ++ (d ++ (b.data.drop b.pos).drop d.length), b.pos⟩) := by
            simp only [overwrite, h, h', and_self, if_true, List.drop_drop, List.append_assoc]
          rw [e1, e2]
          rfl
        · have e1 : bufferImpl.overwrite d b = (.panic, b) := by
            simp only [WriteImpl.overwrite, bufferImpl, if_pos h, List.length_drop, if_neg h']
          have e2 : overwrite d b = (.panic, b) := by
            simp only [overwrite, h, h', and_false, if_false]
          rw [e1, e2]
      · have e1 : bufferImpl.overwrite d b = (.panic, b) := by
          simp only [WriteImpl.overwrite, bufferImpl, if_neg h]
        have e2 : overwrite d b = (.panic, b) := by
          simp only [overwrite, h, false_and, if_false]
        rw [e1, e2]
    have hr : bufferImpl.room d.length b = (do
        let r ← remainingLen
        if d.length > r then bufResize d.length else Pure.pure 1 : M Nat) b := by
      rw [WriteImpl.room_apply]
      show _ = (if d.length > (bufferImpl.remaining b).length then bufResize d.length else Pure.pure 1 : M Nat) b
      by_cases h : d.length > (bufferImpl.remaining b).length
      · rw [if_pos h, if_pos h]
        unfold bufResize
        rw [bind_apply, getPos_apply]
        simp only
        rw [bind_apply]
        by_cases h' : wadd b.pos d.length ≤ isizeMax
        · have e1 : vecResize (wadd b.pos d.length) b = (.ok (), { b with data := b.data.take (wadd b.pos d.length) ++ List.replicate (wadd b.pos d.length - b.data.length) 0 }) := if_pos h'
          rw [e1]
          exact if_pos h'
        · have e1 : vecResize (wadd b.pos d.length) b = (.panic, b) := if_neg h'
          rw [e1]
          exact if_neg h'
      · rw [if_neg h, if_neg h]
        rfl
    have e : JBytes.push d b = ((do
        let r ← remainingLen
        if d.length > r then bufResize d.length else Pure.pure 1 : M Nat) >>= fun m =>
        if m = 0 then M.fail .pushFail else do
          overwrite d
          M.advance d.length
          return d.length) b := rfl
    simp only
    rw [e, bind_apply, ← hr]
    unfold WriteImpl.push
    rw [mimpl_bind]
    rcases bufferImpl.room d.length b with ⟨o, b1⟩
    cases o with
    | ok m =>
      simp only
      by_cases hm : m = 0
      · rw [if_pos hm, if_pos hm]
        rfl
      · rw [if_neg hm, if_neg hm]
        exact hc b1
    | _ => rfl

/-- C71, fixed memory: a history of writes into `n` zero bytes leaves the bytes of the writes that fitted, in order. -/
theorem C71_fixed (n : Nat) (ops : List WriteOp) (hd : ∀ op ∈ ops, ∀ d, op.payload = some d → d.length ≤ isizeMax) :
    let r := fixedImpl.runAll ops ⟨List.replicate n 0, 0⟩
    r.2.data.take r.2.pos = r.1 := by
  have := (C71_history fixedImpl id _ fixedImpl_lawful (fun s k _ h => by cases h) ops hd
    ⟨List.replicate n 0, 0⟩ (Nat.zero_le _)).2
  simpa using this

/-- The second write does not fit, the third does. -/
example : fixedImpl.runAll [.scalar .u16 258 .be, .scalar .u32 7 .be, .uint 9 1 .le, .uint 1 9 .be] ⟨[0, 0, 0, 0], 0⟩ =
    ([1, 2, 9], ⟨[1, 2, 9, 0], 3⟩) ∧
    (fixedImpl.run (.scalar .u32 7 .be) ⟨[1, 2, 0, 0], 2⟩).1 = .err ⟨2, .pushFail⟩ := by decide +kernel

/-- An overwriting write and one that makes the buffer grow. -/
example : bufferImpl.runAll [.scalar .u16 258 .be, .scalar .u16 772 .be] ⟨[7, 8, 9], 1⟩ = ([1, 2, 3, 4], ⟨[7, 1, 2, 3, 4], 5⟩) := by
  decide +kernel

end JBytes
