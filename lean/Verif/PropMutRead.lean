import Verif.MutRead
import Verif.PropRead
/-!
# Properties of the mutable readers: C17 (slices), C18 (cursors)
-/

namespace JBytes
open M

theorem ms_bind_apply {σ α β : Type} (m : MS σ α) (f : α → MS σ β) (s : σ) :
    (m >>= f) s = (match m s with
      | (.ok a, s') => f a s'
      | (.err e, s') => (.err e, s')
      | (.panic, s') => (.panic, s')
      | (.timeout, s') => (.timeout, s')) := rfl

theorem ms_pure_apply {σ α : Type} (a : α) (s : σ) : (Pure.pure a : MS σ α) s = (.ok a, s) := rfl

/-! ## C18 -/

theorem cursor_takeBytes (n : Nat) (b : Buf) : cursorImpl.takeBytes n b = takeBytes n b := by
  unfold takeBytes
  simp only [bind_apply, remainingLen_apply, ite_apply', fail_apply, advance_apply, getPos_apply,
    slice_apply]
  simp only [cursorImpl, MutImpl.defaultTakeBytes]
  have e : (if b.pos ≤ b.data.length then List.drop b.pos b.data else []).length
      = b.data.length - b.pos := by split <;> simp <;> omega
  rw [e]

theorem cursor_map {α β : Type} (f : α → β) (m : MS Buf α) (m' : M α) (h : ∀ b, m b = m' b) (b : Buf) :
    cursorImpl.map f m b = mapM' f m' b := by
  rw [mapM'_apply, ← h]
  unfold MutImpl.map
  rw [ms_bind_apply]
  rcases m b with ⟨o, b'⟩
  cases o <;> rfl

theorem cursor_index {β : Type} (f : Byte → β) (m : MS Buf (List Byte)) (m' : M (List Byte))
    (h : ∀ b, m b = m' b) (b : Buf) :
    (m >>= fun v => cursorImpl.index0 v >>= fun x => (Pure.pure (f x) : MS Buf β)) b
      = (m' >>= fun v => index0 v >>= fun x => (Pure.pure (f x) : M β)) b := by
  rw [ms_bind_apply, bind_apply, ← h]
  rcases m b with ⟨o, b'⟩
  cases o with
  | ok v => cases v <;> rfl
  | _ => rfl

theorem cursor_pureMap {α β : Type} (f : α → β) (m : MS Buf α) (m' : M α) (h : ∀ b, m b = m' b) (b : Buf) :
    (m >>= fun a => (Pure.pure (f a) : MS Buf β)) b = (m' >>= fun a => (Pure.pure (f a) : M β)) b :=
  cursor_map f m m' h b

theorem cursor_takeU8 (b : Buf) : cursorImpl.takeU8 b = takeU8 b := by
  unfold MutImpl.takeU8 takeU8
  rw [ms_bind_apply, bind_apply, cursor_takeBytes]
  rcases takeBytes 1 b with ⟨o, b'⟩
  cases o with
  | ok v => cases v <;> rfl
  | _ => rfl

theorem cursor_takeN (o : ByteOrder) (s n : Nat) (b : Buf) : cursorImpl.takeN o s n b = takeN o s n b := by
  cases o
  · simp only [MutImpl.takeN, takeN, takeBeN]
    split
    · exact cursor_pureMap _ _ _ (cursor_takeBytes n) b
    · rfl
  · simp only [MutImpl.takeN, takeN, takeLeN]
    by_cases hn : n ≤ s
    all_goals simp only [hn, if_true, if_false, reduceIte]
    · exact cursor_pureMap _ _ _ (cursor_takeBytes n) b
    · rfl

theorem cursor_takeArray (n : Nat) (b : Buf) : cursorImpl.takeArray n b = takeArray n b := by
  unfold MutImpl.takeArray takeArray
  simp only [bind_apply, remaining_apply, ite_apply']
  rfl

theorem cursor_untakeBytes (n : Nat) (b : Buf) : cursorImpl.untakeBytes n b = untakeBytes n b := by
  unfold MutImpl.untakeBytes untakeBytes
  simp only [bind_apply, remainingLen_apply, ite_apply', fail_apply, getPos_apply]
  have e : (cursorImpl.remaining b).length = b.data.length - b.pos := by
    simp only [cursorImpl]
    split <;> simp <;> omega
  rw [e]
  rfl

theorem cursor_untakeN (o : ByteOrder) (s n : Nat) (b : Buf) :
    MutImpl.untake.untakeN cursorImpl o s n b = untakeN o s n b := by
  cases o
  · simp only [MutImpl.untake.untakeN, untakeN, untakeBeN]
    split
    · exact cursor_pureMap _ _ _ (cursor_untakeBytes n) b
    · rfl
  · simp only [MutImpl.untake.untakeN, untakeN, untakeLeN]
    by_cases hn : n ≤ s
    all_goals simp only [hn, if_true, if_false, reduceIte]
    · exact cursor_pureMap _ _ _ (cursor_untakeBytes n) b
    · rfl

/-- C18, the part that holds: in every state, every read on a `Cursor` does what it does on `Bytes` (result
and new position), and so does every peek; `take_be_uint(n)`/`take_le_uint(n)` honour their width.  Missing
from the full statement: `take_byteorder_uint`/`take_byteorder_int` (`C18_byteorder_uint_violated`). -/
theorem C18_cursor_eq_bytes_partial (b : Buf) :
    (∀ op : ReadOp, cursorImpl.run op b = op.run b) ∧
    (∀ op : PeekOp, cursorImpl.untake op b = op.untake b) := by
  constructor
  · intro op
    cases op with
    | bytes n => exact cursor_map _ _ _ (cursor_takeBytes n) b
    | array n => exact cursor_map _ _ _ (cursor_takeArray n) b
    | byteorderArray n o =>
      exact cursor_map _ _ _ (fun b => cursor_pureMap _ _ _ (cursor_takeArray n) b) b
    | starts p =>
      refine cursor_map _ _ _ (fun b => ?_) b
      unfold MutImpl.takeBytesStarts takeBytesStarts
      simp only [bind_apply, remaining_apply, ite_apply']
      rfl
    | bool => exact cursor_map _ _ _ (fun b => cursor_index _ _ _ (cursor_takeBytes 1) b) b
    | char => exact cursor_map _ _ _ (fun b => cursor_index _ _ _ (cursor_takeBytes 1) b) b
    | scalar s o =>
      refine cursor_map _ _ _ (fun b => ?_) b
      cases s <;> first
        | exact cursor_pureMap _ _ _ cursor_takeU8 b
        | exact cursor_pureMap _ _ _ (cursor_takeBytes _) b
    | u24 o => exact cursor_map _ _ _ (cursor_takeN o 4 3) b
    | uint n o => exact cursor_map _ _ _ (cursor_takeN o 8 n) b
    | find p =>
      refine cursor_map _ _ _ (fun b => ?_) b
      unfold MutImpl.findSubsequence findSubsequence
      simp only [bind_apply, getPos_apply, remaining_apply]
      show (match findSub p (if b.pos ≤ b.data.length then b.data.drop b.pos else []) with
        | some i => _
        | none => _) = _
      cases findSub p (if b.pos ≤ b.data.length then b.data.drop b.pos else []) <;> rfl
    | findNeedle p c =>
      refine cursor_map _ _ _ (fun b => ?_) b
      unfold MutImpl.findSubsequenceNeedle findSubsequenceNeedle
      simp only [bind_apply, getPos_apply, remaining_apply]
      show (match findSub p (if b.pos ≤ b.data.length then b.data.drop b.pos else []) with
        | some i => _
        | none => _) = _
      cases findSub p (if b.pos ≤ b.data.length then b.data.drop b.pos else []) <;> rfl
    | finds p =>
      refine cursor_map _ _ _ (fun b => ?_) b
      unfold MutImpl.findSubsequences findSubsequences
      simp only [bind_apply, getPos_apply, remaining_apply]
      show (match acFind p (if b.pos ≤ b.data.length then b.data.drop b.pos else []) with
        | some (s, e) => _
        | none => _) = _
      cases acFind p (if b.pos ≤ b.data.length then b.data.drop b.pos else []) <;> rfl
    | findsNeedle p c =>
      refine cursor_map _ _ _ (fun b => ?_) b
      unfold MutImpl.findSubsequencesNeedle findSubsequencesNeedle
      simp only [bind_apply, getPos_apply, remaining_apply]
      show (match acFind p (if b.pos ≤ b.data.length then b.data.drop b.pos else []) with
        | some (s, e) => _
        | none => _) = _
      cases acFind p (if b.pos ≤ b.data.length then b.data.drop b.pos else []) <;> rfl
  · intro op
    cases op with
    | bytes n => exact cursor_map _ _ _ (cursor_untakeBytes n) b
    | bool => exact cursor_map _ _ _ (fun b => cursor_index _ _ _ (cursor_untakeBytes 1) b) b
    | char => exact cursor_map _ _ _ (fun b => cursor_index _ _ _ (cursor_untakeBytes 1) b) b
    | scalar s o =>
      refine cursor_map _ _ _ (fun b => ?_) b
      have h1 : ∀ b, (do let v ← cursorImpl.untakeBytes 1; let x ← cursorImpl.index0 v
                         return x.toNat : MS Buf Nat) b
          = (do let x ← untakeU8; return x.toNat : M Nat) b := by
        intro b
        rw [cursor_index UInt8.toNat _ _ (cursor_untakeBytes 1) b]
        unfold untakeU8
        rw [bind_apply, bind_apply, bind_apply]
        rcases untakeBytes 1 b with ⟨o, b'⟩
        cases o with
        | ok v => cases v <;> rfl
        | _ => rfl
      cases s <;> first
        | exact h1 b
        | exact cursor_pureMap _ _ _ (cursor_untakeBytes _) b
    | u24 o => exact cursor_map _ _ _ (cursor_untakeN o 4 3) b
    | uint n o => exact cursor_map _ _ _ (cursor_untakeN o 8 n) b

/-- C18 is violated by `take_byteorder_uint`: it has no width argument and reads 8 bytes, so no call of it can
read the 3-byte integer that `Bytes::take_byteorder_uint(3, order)` reads. -/
theorem C18_byteorder_uint_violated : ∀ o,
    (takeUint 3 o ⟨[1, 2, 3], 0⟩).1 ≠ (cursorImpl.takeByteorderUint o ⟨[1, 2, 3], 0⟩).1 ∧
    (takeUint 3 o ⟨[1, 2, 3, 4, 5, 6, 7, 8], 0⟩).1
      ≠ (cursorImpl.takeByteorderUint o ⟨[1, 2, 3, 4, 5, 6, 7, 8], 0⟩).1 := by
  intro o
  cases o <;> decide +kernel

/-- C18, exactly what `take_byteorder_uint(order)` of a `Cursor` does: it reads eight bytes in that order. -/
theorem C18_byteorder_uint_eight (o : ByteOrder) (d : List Byte) (p : Nat) (hp : p ≤ d.length)
    (hd : d.length ≤ isizeMax) :
    (8 ≤ d.length - p → ∃ v, cursorImpl.takeByteorderUint o ⟨d, p⟩ = (.ok v, ⟨d, p + 8⟩) ∧
      IsValueOf o ((d.drop p).take 8) v) ∧
    (d.length - p < 8 → cursorImpl.takeByteorderUint o ⟨d, p⟩ = (.err ⟨p, .invalidByteLength⟩, ⟨d, p⟩)) := by
  have e : cursorImpl.takeByteorderUint o ⟨d, p⟩ = takeScalar .usize o ⟨d, p⟩ :=
    cursor_pureMap _ _ _ (cursor_takeBytes _) _
  rw [e]
  exact C03_scalar_value .usize o d p hp hd

example : cursorImpl.run (.scalar .u16 .be) ⟨[1, 2, 3], 1⟩ = (.ok (.num 0x0203), ⟨[1, 2, 3], 3⟩) := by
  decide +kernel

/-! ## C17 -/

/-- Outcome of the slice reader against the `Bytes` reader: same value, or an error of the same kind (the
slice reader reports position 0), or both panic. -/
def SameOut {α : Type} : Out α → Out α → Prop
  | .ok a, .ok b => a = b
  | .err e, .err f => e.code = f.code
  | .panic, .panic => True
  | .timeout, .timeout => True
  | _, _ => False

/-- The searches. -/
def ReadOp.IsSearch : ReadOp → Prop
  | .find _ | .findNeedle _ _ | .finds _ | .findsNeedle _ _ => True
  | _ => False

/-- The slice reader holding the rest of `d` from `p` simulates `Bytes` at `p`. -/
def Sim {α : Type} (m : MS (List Byte) α) (m' : M α) : Prop := ∀ (d : List Byte) (p : Nat),
  p ≤ d.length → d.length ≤ isizeMax →
    SameOut (m (d.drop p)).1 (m' ⟨d, p⟩).1 ∧
    (m (d.drop p)).2 = d.drop (m' ⟨d, p⟩).2.pos ∧
    (m' ⟨d, p⟩).2.data = d ∧ (m' ⟨d, p⟩).2.pos ≤ d.length

theorem sim_takeBytes (n : Nat) : Sim (sliceImpl.takeBytes n) (takeBytes n) := by
  intro d p hp hd
  rw [takeBytes_apply n _ ⟨hp, hd⟩]
  simp only [sliceImpl, List.length_drop]
  by_cases hn : n ≤ d.length - p
  · rw [if_pos hn, if_neg (by omega)]
    exact ⟨rfl, by simp, rfl, by simp only; omega⟩
  · rw [if_neg hn, if_pos (by omega)]
    exact ⟨rfl, rfl, rfl, hp⟩

theorem sim_pureMap {α β : Type} {f : α → β} {m : MS (List Byte) α} {m' : M α} (h : Sim m m') :
    Sim (m >>= fun a => (Pure.pure (f a) : MS (List Byte) β)) (m' >>= fun a => (Pure.pure (f a) : M β)) := by
  intro d p hp hd
  obtain ⟨h1, h2, h3, h4⟩ := h d p hp hd
  rw [ms_bind_apply, bind_apply]
  rcases hm : m (d.drop p) with ⟨o, s⟩
  rcases hm' : m' ⟨d, p⟩ with ⟨o', b⟩
  rw [hm, hm'] at h1
  rw [hm, hm'] at h2
  rw [hm'] at h3 h4
  cases o <;> cases o' <;> first
    | exact h1.elim
    | exact ⟨h1, h2, h3, h4⟩
    | exact ⟨congrArg f h1, h2, h3, h4⟩

theorem sim_map {α β : Type} {f : α → β} {m : MS (List Byte) α} {m' : M α} (h : Sim m m') :
    Sim (sliceImpl.map f m) (mapM' f m') := sim_pureMap h

theorem sim_index {m : MS (List Byte) (List Byte)} {m' : M (List Byte)} (h : Sim m m') :
    Sim (m >>= fun v => sliceImpl.index0 v) (m' >>= fun v => index0 v) := by
  intro d p hp hd
  obtain ⟨h1, h2, h3, h4⟩ := h d p hp hd
  rw [ms_bind_apply, bind_apply]
  rcases hm : m (d.drop p) with ⟨o, s⟩
  rcases hm' : m' ⟨d, p⟩ with ⟨o', b⟩
  rw [hm, hm'] at h1
  rw [hm, hm'] at h2
  rw [hm'] at h3 h4
  cases o <;> cases o' <;> first
    | exact h1.elim
    | exact ⟨h1, h2, h3, h4⟩
    | (rename_i v v'
       have h1 : v = v' := h1
       subst h1
       cases v <;> exact ⟨by first | rfl | trivial, h2, h3, h4⟩)

theorem sim_assoc {β : Type} {f : Byte → β} {m : MS (List Byte) (List Byte)} {m' : M (List Byte)} (h : Sim m m') :
    Sim (m >>= fun v => sliceImpl.index0 v >>= fun x => (Pure.pure (f x) : MS (List Byte) β))
      (m' >>= fun v => index0 v >>= fun x => (Pure.pure (f x) : M β)) := by
  have := sim_pureMap (f := f) (sim_index h)
  intro d p hp hd
  have := this d p hp hd
  have e1 : ∀ s, (m >>= fun v => sliceImpl.index0 v >>= fun x => (Pure.pure (f x) : MS (List Byte) β)) s
      = ((m >>= fun v => sliceImpl.index0 v) >>= fun x => (Pure.pure (f x) : MS (List Byte) β)) s := by
    intro s
    simp only [ms_bind_apply]
    rcases m s with ⟨o, s'⟩
    cases o <;> rfl
  have e2 : ∀ s, (m' >>= fun v => index0 v >>= fun x => (Pure.pure (f x) : M β)) s
      = ((m' >>= fun v => index0 v) >>= fun x => (Pure.pure (f x) : M β)) s := by
    intro s
    simp only [bind_apply]
    rcases m' s with ⟨o, s'⟩
    cases o <;> rfl
  rw [e1, e2]
  exact this

theorem sim_takeN (o : ByteOrder) (s n : Nat) : Sim (sliceImpl.takeN o s n) (takeN o s n) := by
  cases o
  · simp only [MutImpl.takeN, takeN, takeBeN]
    split
    · exact sim_pureMap (sim_takeBytes n)
    · intro d p hp hd
      exact ⟨rfl, rfl, rfl, hp⟩
  · simp only [MutImpl.takeN, takeN, takeLeN]
    by_cases hn : n ≤ s
    all_goals simp only [hn, if_true, if_false, reduceIte]
    · exact sim_pureMap (sim_takeBytes n)
    · intro d p hp hd
      exact ⟨trivial, rfl, rfl, hp⟩

theorem sim_takeArray (n : Nat) : Sim (sliceImpl.takeArray n) (takeArray n) := by
  intro d p hp hd
  rw [takeArray_apply n _ ⟨hp, hd⟩, takeBytes_apply n _ ⟨hp, hd⟩]
  have e : ∀ l : List Byte, sliceImpl.takeArray n l = if n ≤ l.length then (.ok (l.take n), l.drop n)
      else (.err ⟨0, .invalidByteLength⟩, l) := by
    intro l
    unfold MutImpl.takeArray
    by_cases hn : n ≤ l.length
    · have : sliceImpl.advance n l = (.ok (), l.drop n) := by simp [sliceImpl, hn]
      rw [if_pos hn, ms_bind_apply, this]
      show (if n ≤ l.length then _ else _) = _
      rw [if_pos hn]
      rfl
    · rw [if_neg hn]
      show (if n ≤ l.length then _ else _) = _
      rw [if_neg hn]
      rfl
  rw [e]
  simp only [List.length_drop]
  by_cases hn : n ≤ d.length - p
  · rw [if_pos hn, if_neg (by omega)]
    exact ⟨rfl, by simp, rfl, by simp only; omega⟩
  · rw [if_neg hn, if_pos (by omega)]
    exact ⟨rfl, rfl, rfl, hp⟩

theorem sim_starts (q : List Byte) : Sim (sliceImpl.takeBytesStarts q) (takeBytesStarts q) := by
  intro d p hp hd
  rw [takeBytesStarts_apply q _ ⟨hp, hd⟩]
  unfold MutImpl.takeBytesStarts
  simp only [sliceImpl, List.length_drop]
  by_cases hn : d.length - p < q.length
  · rw [if_pos hn, if_pos hn]
    exact ⟨rfl, rfl, rfl, hp⟩
  · rw [if_neg hn, if_neg hn]
    split
    · rw [if_pos (by omega)]
      exact ⟨rfl, by simp, rfl, by simp only; omega⟩
    · exact ⟨rfl, rfl, rfl, hp⟩

theorem sim_untakeBytes (n : Nat) : Sim (sliceImpl.untakeBytes n) (untakeBytes n) := by
  intro d p hp hd
  have h3 := isizeMax_lt
  rw [untakeBytes_apply n _ ⟨hp, hd⟩]
  unfold MutImpl.untakeBytes MutImpl.slice
  simp only [sliceImpl, List.length_drop]
  by_cases hn : d.length - p < n
  · rw [if_pos hn, if_pos hn]
    exact ⟨rfl, rfl, rfl, hp⟩
  · rw [if_neg hn, if_neg hn, wadd_eq (by omega), if_pos (by omega)]
    refine ⟨?_, rfl, rfl, hp⟩
    simp [SameOut]

/-- C17, the part that holds: every read that is not a search, and every peek, gives the same value (or an
error of the same kind) on a slice as on `Bytes` positioned at the same point, and leaves the same remaining
bytes.  Missing from the full statement: the searches (`C17_search_violated`). -/
theorem C17_slice_sim_partial (d : List Byte) (p : Nat) (hp : p ≤ d.length) (hd : d.length ≤ isizeMax) :
    (∀ op : ReadOp, ¬ op.IsSearch →
      SameOut (sliceImpl.run op (d.drop p)).1 (op.run ⟨d, p⟩).1 ∧
      (sliceImpl.run op (d.drop p)).2 = d.drop (op.run ⟨d, p⟩).2.pos) ∧
    (∀ op : PeekOp,
      SameOut (sliceImpl.untake op (d.drop p)).1 (op.untake ⟨d, p⟩).1 ∧
      (sliceImpl.untake op (d.drop p)).2 = d.drop p) := by
  have keyT : ∀ op : ReadOp, ¬ op.IsSearch → Sim (sliceImpl.run op) op.run := by
    intro op hop
    cases op with
    | bytes n => exact sim_map (sim_takeBytes n)
    | array n => exact sim_map (sim_takeArray n)
    | byteorderArray n o => exact sim_map (sim_pureMap (sim_takeArray n))
    | starts q => exact sim_map (sim_starts q)
    | bool => exact sim_map (sim_assoc (sim_takeBytes 1))
    | char => exact sim_map (sim_assoc (sim_takeBytes 1))
    | scalar s o =>
      refine sim_map ?_
      cases s <;> first
        | exact sim_pureMap (sim_index (sim_takeBytes 1))
        | exact sim_pureMap (sim_takeBytes _)
    | u24 o => exact sim_map (sim_takeN o 4 3)
    | uint n o => exact sim_map (sim_takeN o 8 n)
    | find p => exact (hop trivial).elim
    | findNeedle p c => exact (hop trivial).elim
    | finds p => exact (hop trivial).elim
    | findsNeedle p c => exact (hop trivial).elim
  have keyN : ∀ (o : ByteOrder) (s n : Nat), Sim (MutImpl.untake.untakeN sliceImpl o s n) (untakeN o s n) := by
    intro o s n
    cases o
    · simp only [MutImpl.untake.untakeN, untakeN, untakeBeN]
      split
      · exact sim_pureMap (sim_untakeBytes n)
      · intro d p hp hd
        exact ⟨rfl, rfl, rfl, hp⟩
    · simp only [MutImpl.untake.untakeN, untakeN, untakeLeN]
      by_cases hn : n ≤ s
      all_goals simp only [hn, if_true, if_false, reduceIte]
      · exact sim_pureMap (sim_untakeBytes n)
      · intro d p hp hd
        exact ⟨trivial, rfl, rfl, hp⟩
  have keyU : ∀ op : PeekOp, Sim (sliceImpl.untake op) op.untake := by
    intro op
    cases op with
    | bytes n => exact sim_map (sim_untakeBytes n)
    | bool => exact sim_map (sim_assoc (sim_untakeBytes 1))
    | char => exact sim_map (sim_assoc (sim_untakeBytes 1))
    | scalar s o =>
      refine sim_map ?_
      have h8 : Sim (do let v ← sliceImpl.untakeBytes 1; let x ← sliceImpl.index0 v
                        return x.toNat : MS (List Byte) Nat)
          (do let x ← untakeU8; return x.toNat : M Nat) := by
        intro d p hp hd
        have e : (do let x ← untakeU8; return x.toNat : M Nat) ⟨d, p⟩
            = (untakeBytes 1 >>= fun v => index0 v >>= fun x => (Pure.pure x.toNat : M Nat)) ⟨d, p⟩ := by
          unfold untakeU8
          simp only [bind_apply]
          rcases untakeBytes 1 ⟨d, p⟩ with ⟨o, b'⟩
          cases o <;> rfl
        rw [e]
        exact sim_assoc (sim_untakeBytes 1) d p hp hd
      cases s <;> first
        | exact h8
        | exact sim_pureMap (sim_untakeBytes _)
    | u24 o => exact sim_map (keyN o 4 3)
    | uint n o => exact sim_map (keyN o 8 n)
  constructor
  · intro op hop
    have := keyT op hop d p hp hd
    exact ⟨this.1, this.2.1⟩
  · intro op
    have := keyU op d p hp hd
    refine ⟨this.1, ?_⟩
    rw [this.2.1, C05_untake_eq_take op d p hd (by have := isizeMax_lt; omega)]

/-- C17 is violated by the searches: on the slice `a b c`, searching `b` returns `c` instead of `a`; on `a b`
it panics. -/
theorem C17_search_violated :
    (findSubsequence [98] ⟨[97, 98, 99], 0⟩).1 = .ok [97] ∧
    (sliceImpl.findSubsequence [98] [97, 98, 99]).1 = .ok [99] ∧
    (findSubsequence [98] ⟨[97, 98], 0⟩).1 = .ok [97] ∧
    (sliceImpl.findSubsequence [98] [97, 98]).1 = .panic := by
  decide +kernel

example : ¬ (ReadOp.scalar .u32 .le).IsSearch ∧
    (sliceImpl.run (.scalar .u32 .le) [1, 0, 0, 0, 9]) = (.ok (.num 1), [9]) := by
  refine ⟨by simp [ReadOp.IsSearch], by decide +kernel⟩

/-- A search on a slice: advance past `j` bytes, then index `i` of what is left. -/
theorem slice_search_some (i j : Nat) (l : List Byte) (hj : j ≤ l.length) (hi : i < usizeMod) :
    (do sliceImpl.advance j; sliceImpl.slice (sliceImpl.pos l) (wadd (sliceImpl.pos l) i) : MS _ (List Byte)) l =
      (if i ≤ (l.drop j).length then (.ok ((l.drop j).take i)) else .panic, l.drop j) := by
  rw [ms_bind_apply]
  have e : sliceImpl.advance j l = (.ok (), l.drop j) := by simp [sliceImpl, hj]
  rw [e]
  show (if 0 ≤ wadd 0 i ∧ wadd 0 i ≤ (l.drop j).length then _ else _) = _
  rw [wadd_eq (by omega)]
  by_cases h : i ≤ (l.drop j).length
  · rw [if_pos ⟨Nat.zero_le _, by omega⟩, if_pos h]
    have e0 : wadd 0 i = i := by rw [wadd_eq (by omega)]; omega
    simp [sliceImpl, e0]
  · rw [if_neg (by omega), if_neg h]

/-- What a search does on `Bytes` and what it does on a slice, side by side. -/
def SearchPair (op : ReadOp) (d : List Byte) (p : Nat) : Prop :=
  (∃ i j, i ≤ j ∧ p + j ≤ d.length ∧ op.run ⟨d, p⟩ = (.ok (.bytes ((d.drop p).take i)), ⟨d, p + j⟩) ∧
    sliceImpl.run op (d.drop p) =
      (if i ≤ (d.drop (p + j)).length then (.ok (.bytes ((d.drop (p + j)).take i))) else .panic, d.drop (p + j))) ∨
  (op.run ⟨d, p⟩ = (.err ⟨p, .fail⟩, ⟨d, p⟩) ∧ sliceImpl.run op (d.drop p) = (.err ⟨0, .fail⟩, d.drop p))

theorem slice_map_search {m : MS (List Byte) (List Byte)} {l l' : List Byte} {i : Nat}
    (h : m l = (if i ≤ l'.length then (.ok (l'.take i)) else .panic, l')) :
    sliceImpl.map RVal.bytes m l =
      (if i ≤ l'.length then (.ok (.bytes (l'.take i))) else .panic, l') := by
  unfold MutImpl.map
  rw [ms_bind_apply, h]
  by_cases hi : i ≤ l'.length
  · rw [if_pos hi, if_pos hi]; rfl
  · rw [if_neg hi, if_neg hi]

theorem slice_map_err {m : MS (List Byte) (List Byte)} {l : List Byte} {e : JErr}
    (h : m l = (.err e, l)) : sliceImpl.map RVal.bytes m l = (.err e, l) := by
  unfold MutImpl.map
  rw [ms_bind_apply, h]

theorem searchPair (op : ReadOp) (hop : op.IsSearch) (d : List Byte) (p : Nat) (hp : p ≤ d.length)
    (hd : d.length ≤ isizeMax) : SearchPair op d p := by
  have h3 := isizeMax_lt
  have hl : (d.drop p).length = d.length - p := List.length_drop
  cases op with
  | find q =>
    show SearchPair (.find q) d p
    have hB := findSubsequence_apply q ⟨d, p⟩ ⟨hp, hd⟩
    simp only at hB
    cases hf : findSub q (d.drop p) with
    | none =>
      right
      refine ⟨?_, slice_map_err ?_⟩
      · show mapM' RVal.bytes _ _ = _
        rw [mapM'_apply, hB, hf]
      · show (match findSub q (d.drop p) with | some i => _ | none => _) = _
        rw [hf]
        rfl
    | some i =>
      left
      have hle := findSub_le hf
      refine ⟨i, i + q.length, by omega, by omega, ?_, ?_⟩
      · show mapM' RVal.bytes _ _ = _
        rw [mapM'_apply, hB, hf]
      · rw [← List.drop_drop]
        refine slice_map_search ?_
        show (match findSub q (d.drop p) with | some i => _ | none => _) = _
        rw [hf]
        exact slice_search_some i _ _ (by omega) (by omega)
  | findNeedle q c =>
    have hB := findSubsequenceNeedle_apply q c ⟨d, p⟩ ⟨hp, hd⟩
    simp only at hB
    cases hf : findSub q (d.drop p) with
    | none =>
      right
      refine ⟨?_, slice_map_err ?_⟩
      · show mapM' RVal.bytes _ _ = _
        rw [mapM'_apply, hB, hf]
      · show (match findSub q (d.drop p) with | some i => _ | none => _) = _
        rw [hf]
        rfl
    | some i =>
      left
      have hle := findSub_le hf
      have hj : (if c = true then i + q.length else i) ≤ i + q.length := by split <;> omega
      refine ⟨if c = true then i + q.length else i, if c = true then i + q.length else i, by omega, by omega, ?_, ?_⟩
      · show mapM' RVal.bytes _ _ = _
        rw [mapM'_apply, hB, hf]
      · rw [← List.drop_drop]
        refine slice_map_search ?_
        show (match findSub q (d.drop p) with | some i => _ | none => _) = _
        rw [hf]
        exact slice_search_some _ _ _ (by omega) (by omega)
  | finds ns =>
    have hB := findSubsequences_apply ns ⟨d, p⟩ ⟨hp, hd⟩
    simp only at hB
    cases hf : acFind ns (d.drop p) with
    | none =>
      right
      refine ⟨?_, slice_map_err ?_⟩
      · show mapM' RVal.bytes _ _ = _
        rw [mapM'_apply, hB, hf]
      · show (match acFind ns (d.drop p) with | some (a, e) => _ | none => _) = _
        rw [hf]
        rfl
    | some se =>
      obtain ⟨s, e⟩ := se
      left
      obtain ⟨g1, ⟨n, _, _, g3⟩, _⟩ := acFind_some hf
      refine ⟨s, e, by omega, by omega, ?_, ?_⟩
      · show mapM' RVal.bytes _ _ = _
        rw [mapM'_apply, hB, hf]
      · rw [← List.drop_drop]
        refine slice_map_search ?_
        show (match acFind ns (d.drop p) with | some (a, e) => _ | none => _) = _
        rw [hf]
        exact slice_search_some _ _ _ (by omega) (by omega)
  | findsNeedle ns c =>
    have hB := findSubsequencesNeedle_apply ns c ⟨d, p⟩ ⟨hp, hd⟩
    simp only at hB
    cases hf : acFind ns (d.drop p) with
    | none =>
      right
      refine ⟨?_, slice_map_err ?_⟩
      · show mapM' RVal.bytes _ _ = _
        rw [mapM'_apply, hB, hf]
      · show (match acFind ns (d.drop p) with | some (a, e) => _ | none => _) = _
        rw [hf]
        rfl
    | some se =>
      obtain ⟨s, e⟩ := se
      left
      obtain ⟨g1, ⟨n, _, _, g3⟩, _⟩ := acFind_some hf
      have hj : (if c = true then e else s) ≤ e := by split <;> omega
      refine ⟨if c = true then e else s, if c = true then e else s, by omega, by omega, ?_, ?_⟩
      · show mapM' RVal.bytes _ _ = _
        rw [mapM'_apply, hB, hf]
      · rw [← List.drop_drop]
        refine slice_map_search ?_
        show (match acFind ns (d.drop p) with | some (a, e) => _ | none => _) = _
        rw [hf]
        exact slice_search_some _ _ _ (by omega) (by omega)
  | bytes _ | array _ | byteorderArray _ _ | starts _ | bool | char | scalar _ _ | u24 _ | uint _ _ => exact hop.elim

/-- C17 for the searches, what a slice does instead: it moves as `Bytes` does, but answers with as many bytes
taken from *behind* the point it has moved to, and panics when there are too few of them.  A search that fails
on `Bytes` fails on the slice with the same kind of error, in place. -/
theorem C17_search_exact (op : ReadOp) (hop : op.IsSearch) (d : List Byte) (p : Nat) (hp : p ≤ d.length)
    (hd : d.length ≤ isizeMax) :
    (∃ v p', op.run ⟨d, p⟩ = (.ok (.bytes v), ⟨d, p'⟩) ∧
      (v.length ≤ d.length - p' →
        sliceImpl.run op (d.drop p) = (.ok (.bytes ((d.drop p').take v.length)), d.drop p')) ∧
      (d.length - p' < v.length → sliceImpl.run op (d.drop p) = (.panic, d.drop p'))) ∨
    (op.run ⟨d, p⟩ = (.err ⟨p, .fail⟩, ⟨d, p⟩) ∧
      sliceImpl.run op (d.drop p) = (.err ⟨0, .fail⟩, d.drop p)) := by
  rcases searchPair op hop d p hp hd with ⟨i, j, hij, hj, h1, h2⟩ | h
  · left
    have hl : ((d.drop p).take i).length = i := by rw [List.length_take, List.length_drop]; omega
    refine ⟨_, _, h1, ?_, ?_⟩
    · intro hv
      rw [hl] at hv ⊢
      rw [h2, if_pos (by rw [List.length_drop]; exact hv)]
    · intro hv
      rw [hl] at hv
      rw [h2, if_neg (by rw [List.length_drop]; omega)]
  · exact Or.inr h

/-- C17 for the searches, exactly when it holds: a slice and `Bytes` give the same answer precisely when the
bytes found are repeated right behind the point the search moves to.  Either way they are left with the same
remaining bytes. -/
theorem C17_search_iff (op : ReadOp) (hop : op.IsSearch) (d : List Byte) (p : Nat) (hp : p ≤ d.length)
    (hd : d.length ≤ isizeMax) :
    (SameOut (sliceImpl.run op (d.drop p)).1 (op.run ⟨d, p⟩).1 ↔
      ∀ v, (op.run ⟨d, p⟩).1 = .ok (.bytes v) → v <+: d.drop (op.run ⟨d, p⟩).2.pos) ∧
    (sliceImpl.run op (d.drop p)).2 = d.drop (op.run ⟨d, p⟩).2.pos := by
  rcases C17_search_exact op hop d p hp hd with ⟨v, p', h1, h2, h3⟩ | ⟨h1, h2⟩
  · rw [h1]
    by_cases hv : v.length ≤ d.length - p'
    · rw [h2 hv]
      refine ⟨⟨?_, ?_⟩, rfl⟩
      · intro h w hw
        cases hw
        have h : RVal.bytes ((d.drop p').take v.length) = .bytes v := h
        injection h with h
        rw [List.prefix_iff_eq_take]
        exact h.symm
      · intro h
        have h := List.prefix_iff_eq_take.1 (h v rfl)
        show RVal.bytes _ = .bytes v
        simp only at h
        rw [← h]
    · rw [h3 (by omega)]
      refine ⟨⟨fun h => h.elim, ?_⟩, rfl⟩
      intro h
      have h := (h v rfl).length_le
      simp only [List.length_drop] at h
      omega
  · rw [h1, h2]
    exact ⟨⟨fun _ v hv => (by cases hv), fun _ => rfl⟩, rfl⟩

/-- Looking for `,` in `a,b`: found on `Bytes`, `b` on the slice.  In `a,ab` both answer `a`. -/
example : (ReadOp.find [44]).IsSearch ∧
    (ReadOp.find [44]).run ⟨[97, 44, 98], 0⟩ = (.ok (.bytes [97]), ⟨[97, 44, 98], 2⟩) ∧
    sliceImpl.run (.find [44]) [97, 44, 98] = (.ok (.bytes [98]), [98]) ∧
    sliceImpl.run (.find [44]) [97, 44, 97, 98] = (.ok (.bytes [97]), [97, 98]) := by
  refine ⟨trivial, ?_, ?_, ?_⟩ <;> decide +kernel

end JBytes
