import Verif.AnyIoLemmas
import Verif.PropChecked
import Verif.PropAnyIo
/-!
# C89: decoders and encoders of all types with overflow checks

`checkedIo` is `Bytes` and `Buffer` with the method bodies of `Checked`; with it the codecs of `IoCodecs` are those of a
build with `overflow-checks = true`.
-/

namespace JBytes

variable {α : Type}

/-- `Bytes` and `Buffer` with overflow checks: src/buf_traits.rs:11-1993, src/bytes.rs:47-75, src/buffer.rs:96-138 (the
definitions of Checked.lean, which cite each method). -/
def checkedIo : Io Buf where
  pos := M.getPos
  setPos := M.setPos
  advance := advanceC
  remaining := M.remaining
  takeBytes := takeBytesC
  takeBytesStarts := takeBytesStartsC
  takeU8 := takeU8C
  takeBool := takeBoolC
  takeChar := takeCharC
  takeScalar := takeScalarC
  takeUint n o := takeNC o 8 n
  findSubsequence := findSubsequenceC
  findSubsequenceNeedle := findSubsequenceNeedleC
  findSubsequences := findSubsequencesC
  push := pushC
  pushByteorderArray d o := (WriteOp.byteorderArray d o).runC
  pushU8 x := pushC [x]
  pushBool x := (WriteOp.bool x).runC
  pushChar x := (WriteOp.char x).runC
  pushScalar s v o := (WriteOp.scalar s v o).runC
  pushUint v n o := (WriteOp.uint v n o).runC
  asUsize v := v
  word := 8
  sub := subC

/-- With overflow checks and without, from a state a buffer can be in. -/
def saneCmp (P free back : Prop) : Cmp Buf where
  R s b := s = b ∧ b.Sane
  P := P
  Q p := p < usizeMod
  W _ := True
  free := free
  back := back

/-- From a possible state to a possible state. -/
def KeepsSane (m : M α) : Prop := ∀ b, b.Sane → (m b).2.Sane

namespace KeepsSane
variable {β : Type}

theorem bind {m : M α} {f : α → M β} (hm : KeepsSane m) (hf : ∀ a, KeepsSane (f a)) : KeepsSane (m >>= f) := by
  intro b hb
  have h := hm b hb
  rw [bind_apply]
  rcases hx : m b with ⟨o, b'⟩
  rw [hx] at h
  cases o with
  | ok a => exact hf a b' h
  | err e => exact h
  | panic => exact h
  | timeout => exact h

theorem still {m : M α} (h : ∀ b, (m b).2 = b) : KeepsSane m := fun b hb => by rw [h b]; exact hb
theorem pure (a : α) : KeepsSane (Pure.pure a : M α) := still fun _ => rfl
theorem fail (c : ErrCode) : KeepsSane (M.fail c : M α) := still fun _ => rfl
theorem failAt (p : Nat) (c : ErrCode) : KeepsSane (M.failAt p c : M α) := still fun _ => rfl
theorem panic : KeepsSane (M.panic : M α) := still fun _ => rfl
theorem getPos : KeepsSane M.getPos := still fun _ => rfl
theorem remaining : KeepsSane M.remaining := still fun _ => rfl
theorem slice (a c : Nat) : KeepsSane (M.slice a c) := still fun b => by
  unfold M.slice
  split <;> rfl
theorem index0 (v : List Byte) : KeepsSane (M.index0 v) := by
  cases v
  · exact panic
  · exact pure _

theorem advance (n : Nat) : KeepsSane (M.advance n) := fun b hb =>
  ⟨hb.1, Nat.mod_lt _ (by rw [usizeMod_def]; decide)⟩

theorem remainingLen : KeepsSane JBytes.remainingLen := remaining.bind fun _ => pure _

theorem takeBytes (n : Nat) : KeepsSane (JBytes.takeBytes n) := by
  refine remainingLen.bind fun r => ?_
  split
  · exact fail _
  · exact (advance n).bind fun _ => getPos.bind fun _ => slice _ _

theorem takeN (o : ByteOrder) (k n : Nat) : KeepsSane (JBytes.takeN o k n) := by
  cases o
  · unfold JBytes.takeN takeBeN
    dsimp only
    split
    · exact (takeBytes n).bind fun _ => pure _
    · exact fail _
  · unfold JBytes.takeN takeLeN
    dsimp only
    split
    · exact (takeBytes n).bind fun _ => pure _
    · exact panic

theorem takeScalar (s : Scalar) (o : ByteOrder) : KeepsSane (JBytes.takeScalar s o) := by
  cases s <;> first
    | exact ((takeBytes 1).bind fun v => index0 v).bind fun _ => pure _
    | exact (takeBytes _).bind fun _ => pure _

theorem starts (p : List Byte) : KeepsSane (JBytes.takeBytesStarts p) := by
  refine remaining.bind fun r => ?_
  split
  · exact fail _
  · split
    · exact advance _
    · exact fail _

theorem find (x : List Byte) : KeepsSane (JBytes.findSubsequence x) := by
  refine getPos.bind fun p => remaining.bind fun r => ?_
  cases findSub x r with
  | none => exact failAt _ _
  | some i => exact (advance _).bind fun _ => slice _ _

theorem findNeedle (x : List Byte) (i : Bool) : KeepsSane (JBytes.findSubsequenceNeedle x i) := by
  refine getPos.bind fun p => remaining.bind fun r => ?_
  cases findSub x r with
  | none => exact failAt _ _
  | some i => exact (advance _).bind fun _ => slice _ _

theorem finds (x : List (List Byte)) : KeepsSane (JBytes.findSubsequences x) := by
  refine getPos.bind fun p => remaining.bind fun r => ?_
  cases acFind x r with
  | none => exact failAt _ _
  | some i => exact (advance _).bind fun _ => slice _ _

theorem push (d : List Byte) : KeepsSane (JBytes.push d) := by
  refine remainingLen.bind fun r => ?_
  refine KeepsSane.bind ?_ fun m => ?_
  · split
    · refine getPos.bind fun p => KeepsSane.bind ?_ fun _ => pure _
      intro b hb
      unfold vecResize
      split
      · rename_i hn
        refine ⟨?_, hb.2⟩
        simp only [List.length_append, List.length_take, List.length_replicate]
        omega
      · exact hb
    · exact pure _
  · split
    · exact fail _
    · refine KeepsSane.bind ?_ fun _ => (advance _).bind fun _ => pure _
      intro b hb
      unfold overwrite
      split
      · rename_i hn
        refine ⟨?_, hb.2⟩
        have := hb.1
        simp only [List.length_append, List.length_take, List.length_drop]
        omega
      · exact hb

end KeepsSane

variable {P free back : Prop}

theorem Simul.ofSane {m' m : M α} (h : ∀ b, b.Sane → m' b = m b) (hk : KeepsSane m) : Simul (saneCmp P free back) m' m := by
  rintro s b ⟨rfl, hb⟩
  refine .inr ?_
  rw [h s hb]
  exact ⟨rfl, rfl, hk s hb⟩

theorem advanceC_cases (n : Nat) (b : Buf) : (advanceC n b).1 = .panic ∨ advanceC n b = M.advance n b := by
  by_cases h : b.pos + n < usizeMod
  · exact .inr (advanceC_ok n b h)
  · left
    unfold advanceC
    rw [bind_apply, getPos_apply]
    show ((addC b.pos n >>= M.setPos) b).1 = _
    have e : addC b.pos n = M.panic := if_neg h
    rw [e]
    rfl

theorem checked_lawful (hP : free → P) : checkedIo.Lawful (saneCmp P free back) where
  pos s b h := ⟨s, by rw [h.1]; rfl, h, h.2.2⟩
  setPos p hp := by
    rintro s b ⟨rfl, hb⟩
    exact .inr ⟨rfl, rfl, hb.1, hp⟩
  step n s b h hn := by
    obtain ⟨rfl, hb⟩ := h
    refine .inr ?_
    have e : advanceC n s = M.advance n s := by
      by_cases h0 : n = 0
      · subst h0
        exact advanceC_ok 0 s hb.2
      · have := hb.1
        have := isizeMax_lt
        exact advanceC_ok n s (by omega)
    show (advanceC n s).1 = _ ∧ (advanceC n s).2 = _ ∧ _
    rw [e]
    exact ⟨rfl, rfl, KeepsSane.advance n s hb⟩
  advance hf n := by
    rintro s b ⟨rfl, hb⟩
    rcases advanceC_cases n s with h | h
    · exact .inl ⟨hP hf, h⟩
    · refine .inr ?_
      show (advanceC n s).1 = _ ∧ (advanceC n s).2 = _ ∧ _
      rw [h]
      exact ⟨rfl, rfl, KeepsSane.advance n s hb⟩
  remaining := .ofSane (fun _ _ => rfl) .remaining
  takeBytes n := .ofSane (takeBytesC_eq n) (.takeBytes n)
  starts p := .ofSane (takeBytesStartsC_eq p) (.starts p)
  takeU8 := .ofSane (fun b h => bind_same (takeBytesC_eq 1 b h) _) ((KeepsSane.takeBytes 1).bind fun v => .index0 v)
  takeBool := .ofSane (fun b h => bind_same (takeBytesC_eq 1 b h) _)
    ((KeepsSane.takeBytes 1).bind fun v => (KeepsSane.index0 v).bind fun _ => .pure _)
  takeChar := .ofSane (fun b h => bind_same (takeBytesC_eq 1 b h) _)
    ((KeepsSane.takeBytes 1).bind fun v => (KeepsSane.index0 v).bind fun _ => .pure _)
  scalar s o _ := .ofSane (takeScalarC_eq s o) (.takeScalar s o)
  uint n o := .ofSane (takeNC_eq o 8 n) (.takeN o 8 n)
  find x := .ofSane (findSubsequenceC_eq x) (.find x)
  findNeedle x i := .ofSane (findSubsequenceNeedleC_eq x i) (.findNeedle x i)
  finds x := .ofSane (findSubsequencesC_eq x) (.finds x)
  cast _ _ _ _ _ _ _ := rfl

theorem checked_push (hP : P) (d : List Byte) (hd : d.length ≤ isizeMax) :
    Simul (saneCmp P free back) (pushC d) (JBytes.push d) := by
  rintro s b ⟨rfl, hb⟩
  by_cases h : s.pos + d.length < usizeMod
  · refine .inr ?_
    rw [pushC_eq d s h]
    exact ⟨rfl, rfl, KeepsSane.push d s hb⟩
  · exact .inl ⟨hP, (push_overflow d s hb hd (by omega)).1⟩

theorem checked_run (hP : P) (op : WriteOp) (hd : ∀ d, op.payload = some d → d.length ≤ isizeMax) :
    Simul (saneCmp P free back) op.runC op.run := by
  intro s b h
  have e1 := runC_eq op s
  have e2 := run_eq op b
  cases hp : op.payload with
  | none =>
    rw [hp] at e1 e2
    exact SimAt.congr (m2 := M.fail .invalidByteLength) (n2 := M.fail .invalidByteLength) e1 e2
      (Simul.ofSane (fun _ _ => rfl) (.fail _) s b h)
  | some d =>
    rw [hp] at e1 e2
    exact (checked_push hP d (hd d hp) s b h).congr e1 e2

theorem payload_array {d x : List Byte} {o : ByteOrder} {N : Nat} (hd : d.length ≤ N)
    (hx : (WriteOp.byteorderArray d o).payload = some x) : x.length ≤ N := by
  cases o
  · cases hx
    exact hd
  · cases hx
    rw [List.length_reverse]
    exact hd

theorem payload_scalar {s : Scalar} {v : Nat} {o : ByteOrder} {x : List Byte}
    (hx : (WriteOp.scalar s v o).payload = some x) : x.length ≤ 16 := by
  cases hx
  rw [toBytes_length]
  cases s <;> decide

theorem payload_uint {v n : Nat} {o : ByteOrder} {x : List Byte}
    (hx : (WriteOp.uint v n o).payload = some x) : x.length ≤ 16 := by
  have hx : (if n ≤ 8 then some (toBytes o n v) else none) = some x := hx
  split at hx
  · cases hx
    rw [toBytes_length]
    omega
  · cases hx

theorem payload_bool {v : Bool} {x : List Byte} (hx : (WriteOp.bool v).payload = some x) : x.length ≤ 16 := by
  cases hx
  rw [List.length_singleton]
  decide

theorem payload_char {v : Nat} {x : List Byte} (hx : (WriteOp.char v).payload = some x) : x.length ≤ 16 := by
  cases hx
  rw [List.length_singleton]
  decide

theorem sixteen_le : 16 ≤ isizeMax := by rw [isizeMax_def]; decide

theorem checked_lawfulW (hP : P) : checkedIo.LawfulW (saneCmp P free back) isizeMax where
  pos s b h := ⟨s, by rw [h.1]; rfl, h, h.2.2⟩
  push := checked_push hP
  array d o hd := checked_run hP (.byteorderArray d o) fun x hx => payload_array hd hx
  pushU8 x := checked_push hP [x] (by have := sixteen_le; rw [List.length_singleton]; omega)
  pushBool x := checked_run hP (.bool x) fun _ hx => Nat.le_trans (payload_bool hx) sixteen_le
  pushChar x := checked_run hP (.char x) fun _ hx => Nat.le_trans (payload_char hx) sixteen_le
  pushScalar s v o _ := checked_run hP (.scalar s v o) fun _ hx => Nat.le_trans (payload_scalar hx) sixteen_le
  pushUint v n o := checked_run hP (.uint v n o) fun _ hx => Nat.le_trans (payload_uint hx) sixteen_le
  back _ := by
    refine ⟨fun p hp => ?_, fun n o => .ofSane (takeNC_eq o 8 n) (.takeN o 8 n), fun p n hp => ⟨?_, ?_⟩⟩
    · rintro s b ⟨rfl, hb⟩
      exact .inr ⟨rfl, rfl, hb.1, hp⟩
    · have hp : p < usizeMod := hp
      show wsub p n < usizeMod
      unfold wsub
      split <;> omega
    · rintro s b ⟨rfl, hb⟩
      show (_ ∧ (subC p n s).1 = _) ∨ ((subC p n s).1 = _ ∧ (subC p n s).2 = _ ∧ _)
      unfold subC
      split
      · rename_i h
        refine .inr ⟨?_, rfl, hb⟩
        show Out.ok (p - n) = Out.ok (wsub p n)
        unfold wsub
        rw [if_pos h]
      · exact .inl ⟨hP, rfl⟩

/-- With overflow checks and without, from inside the data. -/
def insideCmp : Cmp Buf where
  R s b := s = b ∧ b.Ok
  P := False
  Q _ := True
  W _ := True
  free := False
  back := False

theorem inside_push (d : List Byte) (hd : d.length ≤ isizeMax) : Simul insideCmp (pushC d) (JBytes.push d) := by
  rintro s b ⟨rfl, hb⟩
  refine .inr ?_
  have h1 := hb.1
  have h2 := hb.2
  have h3 := isize_twice
  rw [pushC_eq d s (by omega)]
  refine ⟨rfl, rfl, ?_⟩
  rcases push_cases d hd s hb with ⟨h, e⟩ | ⟨_, e⟩
  · rw [e]
    refine ⟨?_, ?_⟩
    · simp only [window, List.length_append, List.length_take, List.length_drop]
      omega
    · simp only [window, List.length_append, List.length_take, List.length_drop]
      omega
  · rw [e]
    exact hb

theorem inside_run (op : WriteOp) (hd : ∀ d, op.payload = some d → d.length ≤ isizeMax) :
    Simul insideCmp op.runC op.run := by
  intro s b h
  have e1 := runC_eq op s
  have e2 := run_eq op b
  cases hp : op.payload with
  | none =>
    rw [hp] at e1 e2
    obtain ⟨rfl, hb⟩ := h
    exact .inr ⟨by rw [e1, e2], by rw [e1, e2], by rw [e2]; exact hb⟩
  | some d =>
    rw [hp] at e1 e2
    exact (inside_push d (hd d hp) s b h).congr e1 e2

theorem inside_lawfulW : checkedIo.LawfulW insideCmp isizeMax where
  pos s b h := ⟨s, by rw [h.1]; rfl, h, trivial⟩
  push := inside_push
  array d o hd := inside_run (.byteorderArray d o) fun x hx => payload_array hd hx
  pushU8 x := inside_push [x] (by have := sixteen_le; rw [List.length_singleton]; omega)
  pushBool x := inside_run (.bool x) fun _ hx => Nat.le_trans (payload_bool hx) sixteen_le
  pushChar x := inside_run (.char x) fun _ hx => Nat.le_trans (payload_char hx) sixteen_le
  pushScalar s v o _ := inside_run (.scalar s v o) fun _ hx => Nat.le_trans (payload_scalar hx) sixteen_le
  pushUint v n o := inside_run (.uint v n o) fun _ hx => Nat.le_trans (payload_uint hx) sixteen_le
  back h := h.elim

/-- C89: the decoder of every type definition without `offset` does the same with overflow checks as without. -/
theorem C89_decode (d' : Nat → DecS Buf α) (d : Nat → Dec α)
    (h : Twin checkedIo (saneCmp False False False) (fun _ _ _ => False) α d' d) (fuel : Nat) (ca : Option CAttr)
    (fa : Option FAttr) (b : Buf) (hb : b.Sane) : d' fuel ca fa b = d fuel ca fa b := by
  rcases h.sim (checked_lawful id) (fun _ _ _ h => h.elim) fuel ca fa (FaIn.any (fun _ => trivial) fa) b b ⟨rfl, hb⟩ with
    ⟨h, _⟩ | ⟨h1, h2, _⟩
  · exact h.elim
  · exact Prod.ext h1 h2

/-- C89: with `offset` too, it does the same or panics (`C89_offset_iff`: it panics when the position overflows). -/
theorem C89_decode_offset (d' : Nat → DecS Buf α) (d : Nat → Dec α)
    (h : Twin checkedIo (saneCmp True True False) (fun _ _ _ => False) α d' d) (fuel : Nat) (ca : Option CAttr)
    (fa : Option FAttr) (b : Buf) (hb : b.Sane) :
    (d' fuel ca fa b).1 = .panic ∨ d' fuel ca fa b = d fuel ca fa b := by
  rcases h.sim (checked_lawful id) (fun _ _ _ h => h.elim) fuel ca fa (FaIn.any (fun _ => trivial) fa) b b ⟨rfl, hb⟩ with
    ⟨_, h⟩ | ⟨h1, h2, _⟩
  · exact .inl h
  · exact .inr (Prod.ext h1 h2)

/-- C89: every type definition without user-written codecs has a decoder with overflow checks. -/
theorem C89_decoder_exists (L : Limits) (d : Nat → Dec α) (h : Derivable L α d) :
    (L.noOffset = true → ∃ d', Twin checkedIo (saneCmp False False False) (fun _ _ _ => False) α d' d) ∧
    ∃ d', Twin checkedIo (saneCmp True True False) (fun _ _ _ => False) α d' d :=
  ⟨fun hL => exists_twin checkedIo _ rfl (fun _ => trivial) L (.inl hL) _ _ (fun _ _ h => h.elim) h,
    exists_twin checkedIo _ rfl (fun _ => trivial) L (.inr trivial) _ _ (fun _ _ h => h.elim) h⟩

/-- C89: the encoder of every type definition with `bits` only on the first member of a word does the same with overflow
checks as without, from a position inside the buffer. -/
theorem C89_encode (V : α → Prop) (e' : EncS Buf α) (e : Enc α)
    (h : EncTwin checkedIo insideCmp isizeMax (fun _ P _ _ => ∀ v, ¬ P v) α V e' e) (v : α) (hv : V v) (ca : Option CAttr)
    (fa : Option FAttr) (hfa : FaOut? insideCmp isizeMax fa) (b : Buf) (hb : b.Ok) : e' v ca fa b = e v ca fa b := by
  rcases h.sim inside_lawfulW (by have := sixteen_le; omega) (fun _ _ _ _ h v hv => absurd hv (h v)) v hv ca fa hfa b b
    ⟨rfl, hb⟩ with ⟨h, _⟩ | ⟨h1, h2, _⟩
  · exact h.elim
  · exact Prod.ext h1 h2

/-- C89: with any `bits`, and from any position, it does the same or panics. -/
theorem C89_encode_bits (V : α → Prop) (e' : EncS Buf α) (e : Enc α)
    (h : EncTwin checkedIo (saneCmp True False True) isizeMax (fun _ P _ _ => ∀ v, ¬ P v) α V e' e) (v : α) (hv : V v)
    (ca : Option CAttr) (fa : Option FAttr) (hfa : FaOut? (saneCmp True False True) isizeMax fa) (b : Buf) (hb : b.Sane) :
    (e' v ca fa b).1 = .panic ∨ e' v ca fa b = e v ca fa b := by
  rcases h.sim (checked_lawfulW trivial) (by have := sixteen_le; omega) (fun _ _ _ _ h v hv => absurd hv (h v)) v hv ca fa
    hfa b b ⟨rfl, hb⟩ with ⟨_, h⟩ | ⟨h1, h2, _⟩
  · exact .inl h
  · exact .inr (Prod.ext h1 h2)

/-- C89: every type definition of C93 has an encoder with overflow checks. -/
theorem C89_encoder_exists (V : α → Prop) (e : Enc α) (h : Storable isizeMax true α V e) :
    ∃ e', EncTwin checkedIo insideCmp isizeMax (fun _ P _ _ => ∀ v, ¬ P v) α V e' e :=
  exists_encTwin checkedIo insideCmp rfl isizeMax h

/-- C89: the struct `message` (C49). -/
example : ∃ d' : Nat → DecS Buf (List Part), ∀ (fuel : Nat) (data : List Byte), data.length ≤ isizeMax →
    d' fuel none none ⟨data, 0⟩ = decStruct (message fuel) none none ⟨data, 0⟩ := by
  obtain ⟨d', h⟩ := (C89_decoder_exists strict _ message_derivable).1 rfl
  exact ⟨d', fun fuel data hd => C89_decode d' _ h fuel none none ⟨data, 0⟩ ⟨hd, by
    have := isizeMax_lt
    show 0 < usizeMod
    omega⟩⟩

unseal isizeMax usizeMod in
/-- C89: a list of `u16` read and written with overflow checks. -/
example : checkedIo.decVec 9 (checkedIo.decInt ⟨2, false⟩) none none ⟨[2, 0, 1, 0, 2, 77], 0⟩ =
    (.ok [1, 2], ⟨[2, 0, 1, 0, 2, 77], 5⟩) ∧
  checkedIo.encVec (checkedIo.encInt ⟨2, false⟩) [1, 2] none none ⟨[9, 8], 2⟩ = (.ok 5, ⟨[9, 8, 2, 0, 1, 0, 2], 7⟩) := by
  decide +kernel

unseal isizeMax usizeMod in
/-- C89: a second member of a bit-field word at the beginning of a buffer panics with overflow checks. -/
example : (checkedIo.encInt ⟨1, false⟩ 1 none (some { bits := some 15, bitsStart := false }) ⟨[], 0⟩).1 = .panic := by
  decide +kernel

end JBytes
