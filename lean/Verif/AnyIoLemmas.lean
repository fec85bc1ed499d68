import Verif.AnyIo
import Verif.IoSim
import Verif.PropMutWrite
import Verif.SearchLemmas
import Verif.Recursive
/-!
# Helper lemmas for C93
-/

namespace JBytes

variable {σ α β V : Type}

/-- What a reader has to do.  `view` is its data and its position, `Inv` an invariant; it need not be able to stand
anywhere but between the first byte and the end. -/
structure Required.Reads (I : Required σ) (view : σ → Buf) (Inv : σ → Prop) : Prop where
  pos : ∀ s, Inv s → I.pos s = (view s).pos
  data : ∀ s, Inv s → I.data s = (view s).data
  ok : ∀ s, Inv s → (view s).Ok
  setPos : ∀ s p, Inv s → p ≤ (view s).data.length →
    ∃ s', I.setPos p s = (.ok (), s') ∧ Inv s' ∧ view s' = ⟨(view s).data, p⟩
  advance : ∀ s n, Inv s → (view s).pos + n ≤ (view s).data.length →
    ∃ s', I.advance n s = (.ok (), s') ∧ Inv s' ∧ view s' = ⟨(view s).data, (view s).pos + n⟩

/-- A reader over the data `D`, compared with `Bytes` over the same data. -/
def readCmp (view : σ → Buf) (Inv : σ → Prop) (D : List Byte) : Cmp σ where
  R s b := Inv s ∧ view s = b ∧ b.data = D
  P := False
  Q p := p ≤ D.length
  W _ := True
  free := False
  back := False

theorem SimAt.congr {T : Cmp σ} {s : σ} {b : Buf} {m1 m2 : MS σ α} {n1 n2 : M α} (e1 : m1 s = m2 s) (e2 : n1 b = n2 b)
    (h : SimAt T s b m2 n2) : SimAt T s b m1 n1 := by
  unfold SimAt
  rw [e1, e2]
  exact h

namespace Required.Reads
variable {I : Required σ} {view : σ → Buf} {Inv : σ → Prop} (hI : I.Reads view Inv) {D : List Byte}
include hI

theorem rem (s : σ) (hs : Inv s) : I.remaining s = (view s).data.drop (view s).pos := by
  unfold Required.remaining
  rw [hI.pos s hs, hI.data s hs, if_pos (hI.ok s hs).1]

theorem takeBytes (n : Nat) : Simul (readCmp view Inv D) (I.toRead.takeBytes n) (JBytes.takeBytes n) := by
  rintro s b ⟨hs, rfl, rfl⟩
  have hok := hI.ok s hs
  refine .inr ?_
  rw [takeBytes_apply n _ hok]
  show _ = _ ∧ Inv _ ∧ _
  have e : I.toRead.takeBytes n s = MutImpl.defaultTakeBytes I.pos I.data I.advance I.remaining n s := rfl
  rw [e]
  unfold MutImpl.defaultTakeBytes
  rw [hI.rem s hs, List.length_drop]
  by_cases h : (view s).data.length - (view s).pos < n
  · rw [if_pos h, if_pos h, hI.pos s hs]
    exact ⟨rfl, hs, rfl, rfl⟩
  · obtain ⟨s', e, i, v⟩ := hI.advance s n hs (by have := hok.1; omega)
    rw [if_neg h, if_neg h, e]
    dsimp only
    rw [hI.pos s' i, hI.data s' i, v]
    dsimp only
    rw [wsub_add, if_pos (by have := hok.1; omega)]
    exact ⟨by simp, i, v, rfl⟩

omit hI in
theorem index0 (v : List Byte) : Simul (readCmp view Inv D) (I.toRead.index0 v) (M.index0 v) := by
  cases v
  · exact Simul.panic
  · exact Simul.pure _

theorem fail (c : ErrCode) : Simul (readCmp view Inv D) (I.toRead.fail c : MS σ α) (M.fail c : M α) := by
  rintro s b ⟨hs, rfl, rfl⟩
  refine .inr ⟨?_, hs, rfl, rfl⟩
  show Out.err ⟨I.pos s, c⟩ = _
  rw [hI.pos s hs]
  rfl

theorem adv (n : Nat) (s : σ) (b : Buf) (h : (readCmp view Inv D).R s b) (hn : n ≤ b.data.length - b.pos) :
    SimAt (readCmp view Inv D) s b (I.advance n) (M.advance n) := by
  obtain ⟨hs, rfl, rfl⟩ := h
  have hok := hI.ok s hs
  have h3 := isizeMax_lt
  obtain ⟨s', e, i, v⟩ := hI.advance s n hs (by have := hok.1; omega)
  refine .inr ?_
  rw [e, advance_apply, wadd_eq (by have := hok.1; have := hok.2; omega)]
  exact ⟨rfl, i, v, rfl⟩

theorem starts (p : List Byte) : Simul (readCmp view Inv D) (I.toRead.takeBytesStarts p) (JBytes.takeBytesStarts p) := by
  intro s b h
  have hr : I.toRead.remaining s = b.data.drop b.pos := by
    rw [← h.2.1]
    exact hI.rem s h.1
  have e : JBytes.takeBytesStarts p b = if (b.data.drop b.pos).length < p.length then M.fail .invalidByteLength b
      else if p.isPrefixOf (b.data.drop b.pos) then M.advance p.length b else M.fail .fail b := by
    unfold JBytes.takeBytesStarts
    simp only [bind_apply, remaining_apply', ite_apply']
  have e' : I.toRead.takeBytesStarts p s = if (b.data.drop b.pos).length < p.length
      then I.toRead.fail .invalidByteLength s
      else if p.isPrefixOf (b.data.drop b.pos) then I.advance p.length s else I.toRead.fail .fail s := by
    rw [← hr]
    rfl
  by_cases h1 : (b.data.drop b.pos).length < p.length
  · rw [if_pos h1] at e e'
    exact (hI.fail _ s b h).congr e' e
  · rw [if_neg h1] at e e'
    by_cases h2 : p.isPrefixOf (b.data.drop b.pos)
    · rw [if_pos h2] at e e'
      exact (hI.adv _ s b h (by rw [List.length_drop] at h1; omega)).congr e' e
    · rw [if_neg h2] at e e'
      exact (hI.fail _ s b h).congr e' e

/-- A search that has found what it looks for: move past `j` bytes, and return the first `i`. -/
theorem search (i j : Nat) (s : σ) (b : Buf) (h : (readCmp view Inv D).R s b) (hj : j ≤ b.data.length - b.pos)
    (hi : i ≤ j) : SimAt (readCmp view Inv D) s b
      (do I.advance j; I.toRead.slice (I.pos s) (wadd (I.pos s) i) : MS σ (List Byte))
      (do M.advance j; M.slice b.pos (wadd b.pos i) : M (List Byte)) := by
  refine (hI.adv j s b h hj).bind fun _ s' b' e h' => ?_
  rw [advance_apply] at e
  cases e
  obtain ⟨hs, rfl, rfl⟩ := h
  obtain ⟨hs', hv', hd'⟩ := h'
  have h3 := isizeMax_lt
  have hok := hI.ok s hs
  have hd : I.toRead.data s' = (view s).data := by
    show I.data s' = _
    rw [hI.data s' hs', hv']
  have hp : wadd (view s).pos i = (view s).pos + i := wadd_eq (by have := hok.1; have := hok.2; omega)
  have hb : (view s).pos ≤ (view s).pos + i ∧ (view s).pos + i ≤ (view s).data.length := by have := hok.1; omega
  have e1 : I.toRead.slice (I.pos s) (wadd (I.pos s) i) s' =
      (.ok (((view s).data.drop (view s).pos).take ((view s).pos + i - (view s).pos)), s') := by
    unfold MutImpl.slice
    simp only [hd, hI.pos s hs, hp]
    rw [if_pos hb]
  refine .inr ?_
  rw [slice_apply, e1, hp]
  dsimp only
  rw [if_pos hb]
  exact ⟨rfl, hs', hv', rfl⟩

theorem find (x : List Byte) : Simul (readCmp view Inv D) (I.toRead.findSubsequence x) (JBytes.findSubsequence x) := by
  intro s b h
  have hr : I.toRead.remaining s = b.data.drop b.pos := by
    rw [← h.2.1]
    exact hI.rem s h.1
  have e : JBytes.findSubsequence x b = match findSub x (b.data.drop b.pos) with
      | some i => (do M.advance (i + x.length); M.slice b.pos (wadd b.pos i) : M (List Byte)) b
      | none => M.fail .fail b := by
    unfold JBytes.findSubsequence
    simp only [bind_apply, getPos_apply, remaining_apply']
    cases findSub x (b.data.drop b.pos) <;> rfl
  have e' : I.toRead.findSubsequence x s = match findSub x (b.data.drop b.pos) with
      | some i => (do I.advance (i + x.length); I.toRead.slice (I.pos s) (wadd (I.pos s) i) : MS σ (List Byte)) s
      | none => I.toRead.fail .fail s := by
    rw [← hr]
    rfl
  cases hf : findSub x (b.data.drop b.pos) with
  | none =>
    rw [hf] at e e'
    exact (hI.fail _ s b h).congr e' e
  | some i =>
    rw [hf] at e e'
    have hle := findSub_le hf
    rw [List.length_drop] at hle
    exact (hI.search _ _ s b h hle (by omega)).congr e' e

theorem findNeedle (x : List Byte) (incl : Bool) :
    Simul (readCmp view Inv D) (I.toRead.findSubsequenceNeedle x incl) (JBytes.findSubsequenceNeedle x incl) := by
  intro s b h
  have hr : I.toRead.remaining s = b.data.drop b.pos := by
    rw [← h.2.1]
    exact hI.rem s h.1
  have e : JBytes.findSubsequenceNeedle x incl b = match findSub x (b.data.drop b.pos) with
      | some i => (do M.advance (if incl then i + x.length else i)
                      M.slice b.pos (wadd b.pos (if incl then i + x.length else i)) : M (List Byte)) b
      | none => M.fail .fail b := by
    unfold JBytes.findSubsequenceNeedle
    simp only [bind_apply, getPos_apply, remaining_apply']
    cases findSub x (b.data.drop b.pos) <;> rfl
  have e' : I.toRead.findSubsequenceNeedle x incl s = match findSub x (b.data.drop b.pos) with
      | some i => (do I.advance (if incl then i + x.length else i)
                      I.toRead.slice (I.pos s) (wadd (I.pos s) (if incl then i + x.length else i)) : MS σ (List Byte)) s
      | none => I.toRead.fail .fail s := by
    rw [← hr]
    rfl
  cases hf : findSub x (b.data.drop b.pos) with
  | none =>
    rw [hf] at e e'
    exact (hI.fail _ s b h).congr e' e
  | some i =>
    rw [hf] at e e'
    have hle := findSub_le hf
    rw [List.length_drop] at hle
    exact (hI.search _ _ s b h (by cases incl <;> simp <;> omega) (by omega)).congr e' e

theorem finds (x : List (List Byte)) :
    Simul (readCmp view Inv D) (I.toRead.findSubsequences x) (JBytes.findSubsequences x) := by
  intro s b h
  have hr : I.toRead.remaining s = b.data.drop b.pos := by
    rw [← h.2.1]
    exact hI.rem s h.1
  have e : JBytes.findSubsequences x b = match acFind x (b.data.drop b.pos) with
      | some (a, k) => (do M.advance k; M.slice b.pos (wadd b.pos a) : M (List Byte)) b
      | none => M.fail .fail b := by
    unfold JBytes.findSubsequences
    simp only [bind_apply, getPos_apply, remaining_apply']
    cases acFind x (b.data.drop b.pos) <;> rfl
  have e' : I.toRead.findSubsequences x s = match acFind x (b.data.drop b.pos) with
      | some (a, k) => (do I.advance k; I.toRead.slice (I.pos s) (wadd (I.pos s) a) : MS σ (List Byte)) s
      | none => I.toRead.fail .fail s := by
    rw [← hr]
    rfl
  cases hf : acFind x (b.data.drop b.pos) with
  | none =>
    rw [hf] at e e'
    exact (hI.fail _ s b h).congr e' e
  | some y =>
    obtain ⟨a, k⟩ := y
    rw [hf] at e e'
    obtain ⟨h1, ⟨_, _, _, h2⟩, _⟩ := acFind_some hf
    rw [List.length_drop] at h1
    exact (hI.search _ _ s b h h1 (by omega)).congr e' e

theorem takeU8 : Simul (readCmp view Inv D) I.toRead.takeU8 JBytes.takeU8 := (hI.takeBytes 1).bind fun v => index0 v

theorem takeN (o : ByteOrder) (k n : Nat) : Simul (readCmp view Inv D) (I.toRead.takeN o k n) (JBytes.takeN o k n) := by
  by_cases h : n ≤ k
  · have h1 : Simul (readCmp view Inv D) (I.toRead.takeN o k n) (match o with
        | .be => (do let v ← JBytes.takeBytes n; return beVal (List.replicate (k - n) 0 ++ v) : M Nat)
        | .le => (do let v ← JBytes.takeBytes n; return leVal (v ++ List.replicate (k - n) 0) : M Nat)) := by
      cases o
      · simp only [MutImpl.takeN, if_pos h]
        exact (hI.takeBytes n).bind fun _ => Simul.pure _
      · simp only [MutImpl.takeN, h, reduceIte]
        exact (hI.takeBytes n).bind fun _ => Simul.pure _
    cases o
    · simp only [JBytes.takeN, takeBeN, if_pos h]
      exact h1
    · simp only [JBytes.takeN, takeLeN, if_pos h]
      exact h1
  · cases o
    · simp only [MutImpl.takeN, JBytes.takeN, takeBeN, if_neg h]
      exact hI.fail _
    · simp only [MutImpl.takeN, JBytes.takeN, takeLeN, h, if_false, reduceIte]
      exact Simul.panic

theorem lawful (D : List Byte) : I.io.Lawful (readCmp view Inv D) where
  pos s b h := ⟨s, by
    show (Out.ok (I.pos s), s) = _
    rw [hI.pos s h.1, h.2.1], h, by
    obtain ⟨hs, rfl, rfl⟩ := h
    exact (hI.ok s hs).1⟩
  setPos p hp := by
    rintro s b ⟨hs, rfl, rfl⟩
    obtain ⟨s', e, i, v⟩ := hI.setPos s p hs hp
    refine .inr ?_
    show (I.setPos p s).1 = _ ∧ _
    refine ⟨by rw [e]; rfl, ?_⟩
    show Inv (I.setPos p s).2 ∧ view (I.setPos p s).2 = _ ∧ _
    rw [e]
    exact ⟨i, v, rfl⟩
  step n s b h hn := hI.adv n s b h hn
  advance h := h.elim
  remaining := by
    rintro s b ⟨hs, rfl, rfl⟩
    refine .inr ⟨?_, hs, rfl, rfl⟩
    show Out.ok (I.remaining s) = _
    rw [hI.rem s hs, remaining_apply']
  takeBytes := hI.takeBytes
  starts := hI.starts
  takeU8 := hI.takeU8
  takeBool := (hI.takeBytes 1).bind fun v => (index0 v).bind fun _ => Simul.pure _
  takeChar := (hI.takeBytes 1).bind fun v => (index0 v).bind fun _ => Simul.pure _
  scalar s o _ := by
    cases s <;> first
      | exact hI.takeU8.bind fun _ => Simul.pure _
      | exact (hI.takeBytes _).bind fun _ => Simul.pure _
  uint n o := hI.takeN o 8 n
  find := hI.find
  findNeedle := hI.findNeedle
  finds := hI.finds
  cast _ _ _ _ _ _ _ := rfl

end Required.Reads

/-! ### Writers -/

/-- What a writer has to do: `resize` either panics (no memory) or provides the room asked for, possibly more. -/
structure Required.Writes (I : Required σ) (view : σ → Buf) (Inv : σ → Prop) : Prop where
  write : I.toWrite.Lawful view Inv
  size : ∀ s, Inv s → (view s).data.length ≤ isizeMax
  grows : ∀ s n, Inv s → (I.resize n s).1 ≠ .ok 0

/-- A writer compared with `Buffer`: the same position, and the same bytes before it. -/
def writeCmp (I : Required σ) (view : σ → Buf) (Inv : σ → Prop) : Cmp σ where
  R s b := Inv s ∧ b.Ok ∧ (view s).pos = b.pos ∧ (view s).data.take b.pos = b.data.take b.pos
  P := ∃ s n, Inv s ∧ (I.resize n s).1 = .panic
  Q _ := True
  W _ := True
  free := False
  back := False

namespace Required.Writes
variable {I : Required σ} {view : σ → Buf} {Inv : σ → Prop} (hI : I.Writes view Inv)
include hI

theorem fail (c : ErrCode) : Simul (writeCmp I view Inv) (I.toWrite.fail c) (M.fail c) := by
  rintro s b ⟨hs, hb, hp, ht⟩
  refine .inr ⟨?_, hs, hb, hp, ht⟩
  show Out.err ⟨I.toWrite.pos s, c⟩ = _
  rw [hI.write.pos s hs, hp]
  rfl

theorem push (d : List Byte) (hd : d.length ≤ isizeMax) : Simul (writeCmp I view Inv) (I.toWrite.push d) (JBytes.push d) := by
  rintro s b ⟨hs, hb, hp, ht⟩
  obtain ⟨o, s', e, hc⟩ := C71_write I.toWrite view Inv hI.write (.bytes d) s hs (by rintro _ ⟨⟩; exact hd)
  have e : I.toWrite.push d s = (o, s') := e
  rcases hc with ⟨rfl, hi, ext, _, hv⟩ | ⟨_, _, _, _, hz⟩ | ⟨rfl, _, hz⟩
  · refine .inr ?_
    have h1 := hI.size s' hi
    have h2 := hI.write.inside s' hi
    rw [hv] at h1 h2
    dsimp only at h1 h2
    rw [e, push_apply d b (by omega) (.inr hb.1), writeAt_inside _ _ _ hb.1]
    refine ⟨rfl, hi, ?_, ?_, ?_⟩
    · refine ⟨?_, ?_⟩
      · simp only [List.length_append, List.length_take]
        have := hb.1
        omega
      · have h5 := hb.1
        have h6 := hb.2
        simp only [List.length_append, List.length_take, List.length_drop]
        omega
    · rw [hv, hp]
    · rw [hv, hp]
      dsimp only
      have h5 := hb.1
      have h6 := hI.write.inside s hs
      rw [ht]
      have hl : (b.data.take b.pos ++ d).length = b.pos + d.length := by
        rw [List.length_append, List.length_take]
        omega
      rw [← hl, List.take_left', List.take_left'] <;> rfl
  · exact absurd hz (hI.grows s _ hs)
  · exact .inl ⟨⟨s, d.length, hs, hz⟩, by rw [e]⟩

theorem run (op : WriteOp) (hd : ∀ d, op.payload = some d → d.length ≤ isizeMax) :
    Simul (writeCmp I view Inv) (I.toWrite.run op) op.run := by
  intro s b h
  have e1 := I.toWrite.run_eq op s
  have e2 := run_eq op b
  cases hp : op.payload with
  | none =>
    rw [hp] at e1 e2
    exact (hI.fail .invalidByteLength s b h).congr e1 e2
  | some d =>
    rw [hp] at e1 e2
    exact (hI.push d (hd d hp) s b h).congr e1 e2

theorem lawful : I.io.LawfulW (writeCmp I view Inv) isizeMax where
  pos s b h := ⟨s, by
    show (Out.ok (I.pos s), s) = _
    rw [show I.pos s = _ from hI.write.pos s h.1, h.2.2.1], h, trivial⟩
  push d hd := hI.push d hd
  array d o hd := hI.run (.byteorderArray d o) (by
    intro x hx
    cases o
    · cases hx
      exact hd
    · cases hx
      rw [List.length_reverse]
      exact hd)
  pushU8 x := hI.push [x] (by rw [isizeMax_def, List.length_singleton]; decide)
  pushBool x := hI.run (.bool x) (by rintro _ ⟨⟩; rw [isizeMax_def, List.length_singleton]; decide)
  pushChar x := hI.run (.char x) (by rintro _ ⟨⟩; rw [isizeMax_def, List.length_singleton]; decide)
  pushScalar k v o _ := hI.run (.scalar k v o) (by
    rintro _ ⟨⟩
    rw [toBytes_length, isizeMax_def]
    cases k <;> decide)
  pushUint v n o := hI.run (.uint v n o) (by
    intro d hd
    have hd : (if n ≤ 8 then some (toBytes o n v) else none) = some d := hd
    split at hd
    · cases hd
      rw [toBytes_length, isizeMax_def]
      omega
    · cases hd)
  back h := h.elim

end Required.Writes

/-! ### The implementation of the crate -/

/-- `Bytes` and `Buffer` compared with themselves. -/
def selfCmp : Cmp Buf where
  R s b := s = b
  P := False
  Q _ := True
  W _ := True
  free := True
  back := True

theorem Simul.self (m : M α) : Simul selfCmp m m := by
  rintro s b rfl
  exact .inr ⟨rfl, rfl⟩

theorem bufIo_lawful : bufIo.Lawful selfCmp where
  pos s b h := ⟨s, by cases h; rfl, h, trivial⟩
  setPos _ _ := Simul.self _
  step _ s b h _ := Simul.self _ s b h
  advance _ _ := Simul.self _
  remaining := Simul.self _
  takeBytes _ := Simul.self _
  starts _ := Simul.self _
  takeU8 := Simul.self _
  takeBool := Simul.self _
  takeChar := Simul.self _
  scalar _ _ _ := Simul.self _
  uint _ _ := Simul.self _
  find _ := Simul.self _
  findNeedle _ _ := Simul.self _
  finds _ := Simul.self _
  cast _ _ _ _ _ _ _ := rfl

theorem bufIo_lawfulW (N : Nat) : bufIo.LawfulW selfCmp N where
  pos s b h := ⟨s, by cases h; rfl, h, trivial⟩
  push _ _ := Simul.self _
  array _ _ _ := Simul.self _
  pushU8 _ := Simul.self _
  pushBool _ := Simul.self _
  pushChar _ := Simul.self _
  pushScalar _ _ _ _ := Simul.self _
  pushUint _ _ _ := Simul.self _
  back _ := ⟨fun _ _ => Simul.self _, fun _ _ => Simul.self _, fun _ _ _ => ⟨trivial, Simul.self _⟩⟩

/-! ### Every definition has a decoder and an encoder at every implementation -/

theorem lift_list {A B : Type} {Rel : A → B → Prop} (l : List B) (h : ∀ b ∈ l, ∃ a, Rel a b) :
    ∃ l' : List (A × B), l'.map (·.2) = l ∧ ∀ x ∈ l', Rel x.1 x.2 := by
  induction l with
  | nil => exact ⟨[], rfl, by simp⟩
  | cons b l ih =>
    obtain ⟨a, ha⟩ := h b (by simp)
    obtain ⟨l', e, hl⟩ := ih fun x hx => h x (by simp [hx])
    refine ⟨(a, b) :: l', by rw [List.map_cons, e], ?_⟩
    intro x hx
    rcases List.mem_cons.mp hx with rfl | hx
    · exact ha
    · exact hl x hx

theorem FaIn.any {T : Cmp σ} (hW : ∀ k, T.W k) (fa : Option FAttr) : FaIn T fa :=
  fun _ _ => ⟨fun k _ => hW k, fun k _ => hW k⟩

theorem AttrsIn.ofOk {T : Cmp σ} (hW : ∀ k, T.W k) {L : Limits} (hf : L.noOffset = true ∨ T.free) {a : FieldAttrs V}
    (h : AttrsOk L a) : AttrsIn T a :=
  ⟨h.custom, hf.imp (fun h' => h.offset h') id, fun _ _ => FaIn.any hW _⟩

/-- A field with its codec at another implementation. -/
def Field.atDec (f : Field V) (d : DecS σ V) : FieldS σ V := ⟨f.attrs, d, fun _ _ _ => MS.panic, f.dflt, f.noneV⟩

/-- A field with its encoder at another implementation. -/
def Field.atEnc (f : Field V) (e : EncS σ V) : FieldS σ V := ⟨f.attrs, fun _ _ => MS.panic, e, f.dflt, f.noneV⟩

theorem exists_twin (I : Io σ) (T : Cmp σ) (hw : I.word = 8) (hW : ∀ k, T.W k) (L : Limits) (hf : L.noOffset = true ∨ T.free)
    (Γ : (α : Type) → (Nat → DecS σ α) → (Nat → Dec α) → Prop) (Δ : (α : Type) → (Nat → Dec α) → Prop)
    (hΔ : ∀ α d, Δ α d → ∃ d', Γ α d' d) {d : Nat → Dec α} (h : DerivableIn L Δ α d) : ∃ d', Twin I T Γ α d' d := by
  have hfields : ∀ {V : Type} (ds : List ((Nat → DecS σ V) × (Nat → Dec V))) (n : Nat) (fields : List (Field V)),
      (∀ f ∈ fields, AttrsOk L f.attrs ∧ ∃ d ∈ ds.map (·.2), f.dec = d n) →
      ∃ fs : List (FieldS σ V × Field V), fs.map (·.2) = fields ∧ ∀ x ∈ fs, FieldIn T x.1 x.2 ∧
        ∃ d ∈ ds, x.1.dec = d.1 n ∧ x.2.dec = d.2 n := by
    intro V ds n fields hfs
    refine lift_list (Rel := fun (x : FieldS σ V) (f : Field V) => FieldIn T x f ∧
      ∃ d ∈ ds, x.dec = d.1 n ∧ f.dec = d.2 n) fields fun f hf' => ?_
    obtain ⟨ha, d, hd, e⟩ := hfs f hf'
    obtain ⟨x, hx, rfl⟩ := List.mem_map.mp hd
    exact ⟨f.atDec (x.1 n), ⟨rfl, rfl, rfl, AttrsIn.ofOk hW hf ha⟩, x, hx, rfl, e⟩
  induction h with
  | var h => exact (hΔ _ _ h).imp fun _ => .var
  | int k _ => exact ⟨_, .int k⟩
  | f32 => exact ⟨_, .f32⟩
  | f64 => exact ⟨_, .f64⟩
  | bool => exact ⟨_, .bool⟩
  | char => exact ⟨_, .char⟩
  | bytes => exact ⟨_, .bytes⟩
  | str => exact ⟨_, .str⟩
  | ipv4 => exact ⟨_, .ipv4⟩
  | ipv6 => exact ⟨_, .ipv6⟩
  | ip => exact ⟨_, .ip⟩
  | mac => exact ⟨_, .mac⟩
  | net => exact ⟨_, .net hw⟩
  | unit => exact ⟨_, .unit⟩
  | vec _ ih => exact ih.elim fun _ h => ⟨_, .vec h⟩
  | array k _ ih => exact ih.elim fun _ h => ⟨_, .array k h⟩
  | tuple ds _ ih =>
    obtain ⟨ds', rfl, h⟩ := lift_list ds ih
    have := Twin.tuple ds' h
    simp only [List.map_map]
    exact ⟨_, this⟩
  | option _ _ ih => exact ih.elim fun _ h => ⟨_, .option h⟩
  | set _ ih => exact ih.elim fun _ h => ⟨_, .set h⟩
  | map _ _ ih1 ih2 => exact ih1.elim fun _ h1 => ih2.elim fun _ h2 => ⟨_, .map h1 h2⟩
  | inject f _ ih => exact ih.elim fun _ h => ⟨_, .inject f h⟩
  | struct S ds _ hS hfs ih =>
    obtain ⟨ds', rfl, hds⟩ := lift_list ds ih
    obtain ⟨fs, h⟩ := Classical.skolem.mp fun n => hfields ds' n _ (hfs n)
    exact ⟨_, .struct (fun n => ⟨S n, (fs n).map (·.1)⟩) S fs ds' hds
      (fun n => ⟨hS n, rfl, rfl, (h n).1.symm⟩) fun n x hx => (h n).2 x hx⟩
  | @enum V E ds _ hE _ _ hvs hfs ih =>
    obtain ⟨ds', rfl, hds⟩ := lift_list ds ih
    have key : ∀ n (i : Nat), ∃ fs : List (FieldS σ V × Field V), ∀ v : Variant V, (E n).variants[i]? = some v → v.fields = fs.map (·.2) ∧
        ∀ x ∈ fs, FieldIn T x.1 x.2 ∧ ∃ d ∈ ds', x.1.dec = d.1 n ∧ x.2.dec = d.2 n := by
      intro n i
      cases hv : (E n).variants[i]? with
      | none => exact ⟨[], fun v h => by cases h⟩
      | some v =>
        obtain ⟨fs, h1, h2⟩ := hfields ds' n _ (hfs n v (List.mem_of_getElem? hv))
        exact ⟨fs, fun w hw => by cases hw; exact ⟨h1.symm, h2⟩⟩
    obtain ⟨fs, h⟩ := Classical.skolem.mp fun n => Classical.skolem.mp (key n)
    exact ⟨_, .enum (fun n => ⟨E n, fun i => (fs n i).map (·.1)⟩) E fs ds' hds
      (fun n => ⟨rfl, hE n, fun _ k _ _ => hW k, fun v hv => AttrsIn.ofOk hW hf (hvs n v hv), fun _ => rfl,
        fun i v e => (h n i v e).1, fun i v e x hx => ((h n i v e).2 x hx).1⟩)
      fun n i v e x hx => ((h n i v e).2 x hx).2⟩

theorem FaOut.ofFits {T : Cmp σ} {N : Nat} {fr : FAttr} (h : FaFits N true fr) : FaOut T N fr :=
  ⟨h.key, h.split, h.linend, h.loops, (h.bits rfl).imp id .inl⟩

theorem exists_encTwin (I : Io σ) (T : Cmp σ) (hw : I.word = 8) (N : Nat) {P : α → Prop} {e : Enc α}
    (h : Storable N true α P e) : ∃ e', EncTwin I T N (fun _ P _ _ => ∀ v, ¬ P v) α P e' e := by
  have hattrs : ∀ {V : Type} (a : FieldAttrs V), AttrsFit N true a → AttrsOut T N a :=
    fun a ha => ⟨ha.custom, fun o env => FaOut.ofFits (ha.passed o env)⟩
  have hfields : ∀ {V : Type} (fields : List (Field V)) (P : Field V → V → Prop),
      (∀ f ∈ fields, AttrsFit N true f.attrs) →
      (∀ f ∈ fields, ∃ e', EncTwin I T N (fun _ P _ _ => ∀ v, ¬ P v) V (P f) e' f.enc) →
      ∃ fs : List (FieldS σ V × Field V), fs.map (·.2) = fields ∧ ∀ x ∈ fs, (x.1.attrs = x.2.attrs ∧ AttrsOut T N x.2.attrs) ∧
        EncTwin I T N (fun _ P _ _ => ∀ v, ¬ P v) V (P x.2) x.1.enc x.2.enc := by
    intro V fields P ha he
    refine lift_list (Rel := fun (x : FieldS σ V) (f : Field V) => (x.attrs = f.attrs ∧ AttrsOut T N f.attrs) ∧
      EncTwin I T N (fun _ P _ _ => ∀ v, ¬ P v) V (P f) x.enc f.enc) fields fun f hf => ?_
    obtain ⟨e', h⟩ := he f hf
    exact ⟨f.atEnc e', ⟨rfl, hattrs _ (ha f hf)⟩, h⟩
  have hzip : ∀ {A B C : Type} (fs : List (A × B)) (vs : List C) (y : (A × B) × C), y ∈ fs.zip vs →
      (y.1.2, y.2) ∈ (fs.map (·.2)).zip vs := by
    intro A B C fs
    induction fs with
    | nil => intro vs y hy; simp at hy
    | cons x fs ih =>
      intro vs y hy
      cases vs with
      | nil => simp at hy
      | cons v vs =>
        simp only [List.zip_cons_cons, List.mem_cons, List.map_cons] at hy ⊢
        rcases hy with rfl | hy
        · exact .inl rfl
        · exact .inr (ih vs y hy)
  induction h with
  | stop => exact ⟨fun _ _ _ => MS.timeout, .var fun _ h => h⟩
  | int k _ => exact ⟨_, .int k⟩
  | f32 => exact ⟨_, .f32⟩
  | f64 => exact ⟨_, .f64⟩
  | bool => exact ⟨_, .bool⟩
  | char => exact ⟨_, .char⟩
  | bytes => exact ⟨_, .bytes⟩
  | ip => exact ⟨_, .ip⟩
  | ipAddr => exact ⟨_, .ipAddr⟩
  | mac => exact ⟨_, .mac⟩
  | net => exact ⟨_, .net hw⟩
  | unit => exact ⟨_, .unit⟩
  | vec _ ih => exact ih.elim fun _ h => ⟨_, .vec h⟩
  | array _ ih => exact ih.elim fun _ h => ⟨_, .array h⟩
  | tuple es P _ ih =>
    obtain ⟨es', rfl, h⟩ := lift_list es ih
    exact ⟨_, .fewer (fun vs hv y hy => hv _ (hzip es' vs y hy)) (.tuple es' (fun x => P x.2) h)⟩
  | option _ ih => exact ih.elim fun _ h => ⟨_, .option h⟩
  | map _ _ ih1 ih2 => exact ih1.elim fun _ h1 => ih2.elim fun _ h2 => ⟨_, .map h1 h2⟩
  | project g _ ih => exact ih.elim fun _ h => ⟨_, .project g h⟩
  | @struct V S P hS ha _ ih =>
    obtain ⟨fs, h1, h2⟩ := hfields S.fields P ha ih
    refine ⟨_, .fewer ?_ (.struct ⟨S, fs.map (·.1)⟩ S fs (fun x => P x.2) hS rfl rfl h1.symm (fun x hx => (h2 x hx).1)
      fun x hx => (h2 x hx).2)⟩
    intro vs hv y hy
    exact hv (y.1.2, y.2) (by rw [← h1]; exact hzip fs vs y hy)
  | @enum V E P hv hword ha _ ih =>
    have key : ∀ i : Nat, ∃ fs : List (FieldS σ V × Field V), ((∀ v : Variant V, E.variants[i]? = some v → v.fields = fs.map (·.2) ∧
        ∀ x ∈ fs, (x.1.attrs = x.2.attrs ∧ AttrsOut T N x.2.attrs) ∧
          EncTwin I T N (fun _ P _ _ => ∀ v, ¬ P v) _ (P x.2) x.1.enc x.2.enc) ∧ (E.variants[i]? = none → fs = [])) := by
      intro i
      cases hi : E.variants[i]? with
      | none => exact ⟨[], fun v h => (by cases h), fun _ => rfl⟩
      | some v =>
        have hm := List.mem_of_getElem? hi
        obtain ⟨fs, h1, h2⟩ := hfields v.fields P (ha v hm) (ih v hm)
        exact ⟨fs, fun w hw => (by cases hw; exact ⟨h1.symm, h2⟩), fun h => by cases h⟩
    obtain ⟨fs, h⟩ := Classical.skolem.mp key
    refine ⟨_, .fewer ?_ (.enum ⟨E, fun i => (fs i).map (·.1)⟩ E fs (fun x => P x.2)
      ⟨rfl, fun v hm => ⟨hattrs _ (hv v hm), hword v hm⟩, fun _ => rfl, fun i v e => ((h i).1 v e).1,
        fun i v e x hx => (((h i).1 v e).2 x hx).1⟩ fun i v e x hx => (((h i).1 v e).2 x hx).2)⟩
    intro x hx y hy
    cases hi : E.variants[x.1]? with
    | none =>
      rw [(h x.1).2 hi] at hy
      simp at hy
    | some v =>
      exact hx v hi (y.1.2, y.2) (by rw [((h x.1).1 v hi).1]; exact hzip _ _ y hy)

/-! ### The comparison matters only in what it allows -/

theorem FaIn.to {T T' : Cmp σ} (hW : ∀ k, T.W k → T'.W k) {fa : Option FAttr} (h : FaIn T fa) : FaIn T' fa :=
  fun fr e => ⟨fun k hk => hW k ((h fr e).1 k hk), fun k hk => hW k ((h fr e).2 k hk)⟩

theorem AttrsIn.to {T T' : Cmp σ} (hW : ∀ k, T.W k → T'.W k) (hf : T.free → T'.free) {a : FieldAttrs V}
    (h : AttrsIn T a) : AttrsIn T' a := ⟨h.dec, h.offset.imp id hf, fun o env => (h.passed o env).to hW⟩

theorem FieldIn.to {T T' : Cmp σ} (hW : ∀ k, T.W k → T'.W k) (hf : T.free → T'.free) {f' : FieldS σ V} {f : Field V}
    (h : FieldIn T f' f) : FieldIn T' f' f := ⟨h.attrs, h.dflt, h.noneV, h.ok.to hW hf⟩

theorem Twin.to {I : Io σ} {T T' : Cmp σ} (hW : ∀ k, T.W k → T'.W k) (hf : T.free → T'.free)
    {Γ : (α : Type) → (Nat → DecS σ α) → (Nat → Dec α) → Prop} {d' : Nat → DecS σ α} {d : Nat → Dec α}
    (h : Twin I T Γ α d' d) : Twin I T' Γ α d' d := by
  induction h with
  | var h => exact .var h
  | int k => exact .int k
  | usize s hw => exact .usize s hw
  | f32 => exact .f32
  | f64 => exact .f64
  | bool => exact .bool
  | char => exact .char
  | bytes => exact .bytes
  | str => exact .str
  | ipv4 => exact .ipv4
  | ipv6 => exact .ipv6
  | ip => exact .ip
  | mac => exact .mac
  | net hw => exact .net hw
  | unit => exact .unit
  | vec _ ih => exact .vec ih
  | array k _ ih => exact .array k ih
  | tuple ds _ ih => exact .tuple ds ih
  | option _ ih => exact .option ih
  | set _ ih => exact .set ih
  | map _ _ ih1 ih2 => exact .map ih1 ih2
  | inject f _ ih => exact .inject f ih
  | struct S' S fs ds _ hS hfs ih =>
    exact .struct S' S fs ds ih hS fun n x hx => ⟨(hfs n x hx).1.to hW hf, (hfs n x hx).2⟩
  | enum E' E fs ds _ hE hfs ih =>
    exact .enum E' E fs ds ih (fun n => ⟨(hE n).base, (hE n).custom, fun c k h1 h2 => hW k ((hE n).container c k h1 h2),
      fun v hv => ((hE n).attrs v hv).to hW hf, (hE n).arms, (hE n).fields,
      fun i v e x hx => ((hE n).ok i v e x hx).to hW hf⟩) hfs

end JBytes
