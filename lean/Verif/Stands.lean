import Verif.Recursive
import Verif.WriteOps
import Verif.WriteLemmas
/-!
# Helper lemmas: the position in an error is the position of the buffer
-/

namespace JBytes
open M

variable {α β V : Type}

/-- When `m` fails, the position in the error is the one where the buffer stands afterwards. -/
def Stands (m : M α) : Prop := ∀ b e b', m b = (.err e, b') → e.position = b'.pos

theorem Stands.bind {m : M α} {f : α → M β} (hm : Stands m) (hf : ∀ a, Stands (f a)) : Stands (m >>= f) := by
  intro b e b' h
  rw [bind_apply] at h
  rcases hx : m b with ⟨o, b1⟩
  rw [hx] at h
  cases o with
  | ok a => exact hf a b1 e b' h
  | err x => cases h; exact hm b e b' hx
  | panic => cases h
  | timeout => cases h

theorem Stands.quiet {m : M α} (h : ∀ b e, (m b).1 ≠ .err e) : Stands m := by
  intro b e b' he
  exact absurd (by rw [he]) (h b e)

theorem Stands.pure (a : α) : Stands (Pure.pure a : M α) := Stands.quiet fun _ _ h => by cases h
theorem Stands.panic : Stands (M.panic : M α) := Stands.quiet fun _ _ h => by cases h
theorem Stands.timeout : Stands (M.timeout : M α) := Stands.quiet fun _ _ h => by cases h
theorem Stands.getPos : Stands getPos := Stands.quiet fun _ _ h => by cases h
theorem Stands.setPos (p : Nat) : Stands (setPos p) := Stands.quiet fun _ _ h => by cases h
theorem Stands.advance (n : Nat) : Stands (advance n) := Stands.quiet fun _ _ h => by cases h
theorem Stands.remaining : Stands remaining := Stands.quiet fun _ _ h => by cases h

theorem Stands.fail (c : ErrCode) : Stands (M.fail c : M α) := by
  intro b e b' h
  cases h
  rfl

theorem Stands.attempt (m : M α) : Stands (M.attempt m) := by
  refine Stands.quiet fun b e h => ?_
  unfold M.attempt at h
  split at h <;> cases h

theorem Stands.slice (i j : Nat) : Stands (slice i j) := by
  refine Stands.quiet fun b e h => ?_
  unfold M.slice at h
  split at h <;> cases h

theorem Stands.index0 (l : List Byte) : Stands (index0 l) := by
  cases l with
  | nil => exact Stands.panic
  | cons x xs => exact Stands.pure x

theorem Stands.vecResize (n : Nat) : Stands (vecResize n) := by
  refine Stands.quiet fun b e h => ?_
  unfold JBytes.vecResize at h
  split at h <;> cases h

theorem Stands.overwrite (d : List Byte) : Stands (overwrite d) := by
  refine Stands.quiet fun b e h => ?_
  unfold JBytes.overwrite at h
  split at h <;> cases h

/-- Failing at a position saved when nothing had moved yet. -/
theorem Stands.saved {f : Nat → List Byte → M α}
    (h : ∀ b r e b', f b.pos r b = (.err e, b') → e.position = b'.pos) :
    Stands (do
      let p ← M.getPos
      let r ← M.remaining
      f p r) := by
  intro b e b' he
  exact h b _ e b' he

/-- Go through the statements of a function. -/
macro "stands" : tactic => `(tactic| repeat' first
  | assumption
  | exact Stands.pure _ | exact Stands.fail _ | exact Stands.panic | exact Stands.timeout | exact Stands.getPos
  | exact Stands.setPos _ | exact Stands.advance _ | exact Stands.remaining | exact Stands.attempt _
  | exact Stands.slice _ _ | exact Stands.index0 _ | exact Stands.vecResize _ | exact Stands.overwrite _
  | refine Stands.bind ?_ fun _ => ?_
  | split
  | (intro _; skip))

theorem Stands.remainingLen : Stands remainingLen := by unfold JBytes.remainingLen; stands
theorem Stands.takeBytes (n : Nat) : Stands (takeBytes n) := by
  unfold JBytes.takeBytes
  refine Stands.remainingLen.bind fun _ => ?_
  stands
theorem Stands.untakeBytes (n : Nat) : Stands (untakeBytes n) := by
  unfold JBytes.untakeBytes
  refine Stands.remainingLen.bind fun _ => ?_
  stands
theorem Stands.takeArray (n : Nat) : Stands (takeArray n) := by unfold JBytes.takeArray; stands
theorem Stands.takeByteorderArray (n : Nat) (o : ByteOrder) : Stands (takeByteorderArray n o) :=
  (Stands.takeArray n).bind fun _ => Stands.pure _
theorem Stands.takeBytesStarts (p : List Byte) : Stands (takeBytesStarts p) := by unfold JBytes.takeBytesStarts; stands
theorem Stands.takeU8 : Stands takeU8 := (Stands.takeBytes 1).bind fun _ => Stands.index0 _
theorem Stands.takeBool : Stands takeBool :=
  (Stands.takeBytes 1).bind fun _ => (Stands.index0 _).bind fun _ => Stands.pure _
theorem Stands.takeChar : Stands takeChar :=
  (Stands.takeBytes 1).bind fun _ => (Stands.index0 _).bind fun _ => Stands.pure _
theorem Stands.takeFixed (o : ByteOrder) (n : Nat) : Stands (takeFixed o n) := (Stands.takeBytes n).bind fun _ => Stands.pure _

theorem Stands.takeScalar (s : Scalar) (o : ByteOrder) : Stands (takeScalar s o) := by
  unfold JBytes.takeScalar
  split
  · exact Stands.takeU8.bind fun _ => Stands.pure _
  · exact Stands.takeU8.bind fun _ => Stands.pure _
  · exact Stands.takeFixed _ _

theorem Stands.takeN (o : ByteOrder) (size n : Nat) : Stands (takeN o size n) := by
  unfold JBytes.takeN
  split
  · unfold takeBeN
    split
    · exact (Stands.takeBytes n).bind fun _ => Stands.pure _
    · exact Stands.fail _
  · unfold takeLeN
    split
    · exact (Stands.takeBytes n).bind fun _ => Stands.pure _
    · exact Stands.panic

theorem Stands.takeUint (n : Nat) (o : ByteOrder) : Stands (takeUint n o) := Stands.takeN o 8 n

theorem Stands.untakeN (o : ByteOrder) (size n : Nat) : Stands (untakeN o size n) := by
  unfold JBytes.untakeN
  split
  · unfold untakeBeN
    split
    · exact (Stands.untakeBytes n).bind fun _ => Stands.pure _
    · exact Stands.fail _
  · unfold untakeLeN
    split
    · exact (Stands.untakeBytes n).bind fun _ => Stands.pure _
    · exact Stands.panic

theorem Stands.untakeScalar (s : Scalar) (o : ByteOrder) : Stands (untakeScalar s o) := by
  unfold JBytes.untakeScalar
  have hu : Stands untakeU8 := (Stands.untakeBytes 1).bind fun _ => Stands.index0 _
  split
  · exact hu.bind fun _ => Stands.pure _
  · exact hu.bind fun _ => Stands.pure _
  · exact (Stands.untakeBytes _).bind fun _ => Stands.pure _

theorem Stands.findSubsequence (x : List Byte) : Stands (findSubsequence x) := by
  refine Stands.saved fun b r e b' h => ?_
  rcases hx : findSub x r with _ | i
  · simp only [hx] at h
    cases h
    rfl
  · simp only [hx] at h
    exact ((Stands.advance _).bind fun _ => Stands.slice _ _) b e b' h

theorem Stands.findNeedle (x : List Byte) (incl : Bool) : Stands (findSubsequenceNeedle x incl) := by
  refine Stands.saved fun b r e b' h => ?_
  rcases hx : findSub x r with _ | i
  · simp only [hx] at h
    cases h
    rfl
  · simp only [hx] at h
    exact ((Stands.advance _).bind fun _ => Stands.slice _ _) b e b' h

theorem Stands.findSubsequences (ns : List (List Byte)) : Stands (findSubsequences ns) := by
  refine Stands.saved fun b r e b' h => ?_
  rcases hx : acFind ns r with _ | i
  · simp only [hx] at h
    cases h
    rfl
  · simp only [hx] at h
    exact ((Stands.advance _).bind fun _ => Stands.slice _ _) b e b' h

theorem Stands.findNeedles (ns : List (List Byte)) (incl : Bool) : Stands (findSubsequencesNeedle ns incl) := by
  refine Stands.saved fun b r e b' h => ?_
  rcases hx : acFind ns r with _ | i
  · simp only [hx] at h
    cases h
    rfl
  · simp only [hx] at h
    exact ((Stands.advance _).bind fun _ => Stands.slice _ _) b e b' h

theorem Stands.map {m : M α} (f : α → β) (h : Stands m) : Stands (mapM' f m) := h.bind fun _ => Stands.pure _

theorem Stands.bufResize (n : Nat) : Stands (bufResize n) := by unfold JBytes.bufResize; stands

theorem Stands.push (d : List Byte) : Stands (push d) := by
  unfold JBytes.push
  refine Stands.remainingLen.bind fun _ => ?_
  have := Stands.bufResize d.length
  stands

theorem Stands.pushScalar (s : Scalar) (v : Nat) (o : ByteOrder) : Stands (pushScalar s v o) := by
  rw [pushScalar_eq]
  exact Stands.push _

theorem Stands.pushUint (v n : Nat) (o : ByteOrder) : Stands (pushUint v n o) := by
  unfold JBytes.pushUint
  split
  · unfold pushBeUint
    split
    · exact Stands.push _
    · exact Stands.fail _
  · unfold pushLeUint
    split
    · exact Stands.push _
    · exact Stands.fail _

theorem Stands.write (op : WriteOp) : Stands op.run := by
  cases op <;> unfold WriteOp.run <;> simp only
  · exact Stands.push _
  · unfold pushByteorderArray
    split <;> exact Stands.push _
  · exact Stands.push _
  · exact Stands.push _
  · exact Stands.pushScalar _ _ _
  · unfold pushU24
    split <;> exact Stands.push _
  · exact Stands.pushUint _ _ _

theorem Stands.read (op : ReadOp) : Stands op.run := by
  cases op <;> unfold ReadOp.run <;> simp only <;> refine Stands.map _ ?_
  · exact Stands.takeBytes _
  · exact Stands.takeArray _
  · exact Stands.takeByteorderArray _ _
  · exact Stands.takeBytesStarts _
  · exact Stands.takeBool
  · exact Stands.takeChar
  · exact Stands.takeScalar _ _
  · exact Stands.takeN _ _ _
  · exact Stands.takeUint _ _
  · exact Stands.findSubsequence _
  · exact Stands.findNeedle _ _
  · exact Stands.findSubsequences _
  · exact Stands.findNeedles _ _

theorem Stands.peek (op : PeekOp) : Stands op.untake := by
  cases op <;> unfold PeekOp.untake <;> simp only <;> refine Stands.map _ ?_
  · exact Stands.untakeBytes _
  · exact (Stands.untakeBytes 1).bind fun _ => (Stands.index0 _).bind fun _ => Stands.pure _
  · exact (Stands.untakeBytes 1).bind fun _ => (Stands.index0 _).bind fun _ => Stands.pure _
  · exact Stands.untakeScalar _ _
  · exact Stands.untakeN _ _ _
  · exact Stands.untakeN _ _ _

/-! ## Decoders -/

theorem Stands.repeatM {m : M α} (h : Stands m) (n : Nat) : Stands (repeatM m n) := by
  induction n with
  | zero => exact Stands.pure _
  | succ n ih => exact h.bind fun _ => ih.bind fun _ => Stands.pure _

theorem Stands.tryRepeatM (m : M α) (n : Nat) : Stands (tryRepeatM m n) := by
  induction n with
  | zero => exact Stands.pure _
  | succ n ih =>
    refine (Stands.attempt m).bind fun o => ?_
    cases o
    · exact Stands.pure _
    · exact ih.bind fun _ => Stands.pure _

theorem Stands.whileStarts (p : List Byte) {m : M α} (h : Stands m) (n : Nat) : Stands (whileStarts p m n) := by
  induction n with
  | zero => exact Stands.timeout
  | succ n ih =>
    refine (Stands.attempt _).bind fun o => ?_
    cases o
    · exact Stands.pure _
    · exact h.bind fun _ => ih.bind fun _ => Stands.pure _

theorem Stands.decInt (k : IntKind) (ca : Option CAttr) (fa : Option FAttr) : Stands (decInt k ca fa) := by
  unfold JBytes.decInt
  refine Stands.bind ?_ fun _ => ?_
  · unfold decWord
    split
    · split
      · exact Stands.fail _
      · exact (Stands.takeUint _ _).bind fun _ => Stands.pure _
    · exact Stands.takeScalar _ _
  · split <;> exact Stands.pure _

theorem Stands.skipNeedle (o : Option (List Byte)) : Stands (skipNeedle o) := by
  cases o with
  | none => exact Stands.pure _
  | some x => exact (Stands.findNeedle x true).bind fun _ => Stands.pure _

theorem Stands.takePrefixed : Stands takePrefixed := Stands.takeU8.bind fun _ => Stands.takeBytes _

theorem Stands.decBytes (ca : Option CAttr) (fa : Option FAttr) : Stands (decBytes ca fa) := by
  unfold JBytes.decBytes
  split
  · exact Stands.takePrefixed
  · refine (Stands.skipNeedle _).bind fun _ => (Stands.skipNeedle _).bind fun _ => ?_
    split
    · exact Stands.takeBytes _
    · split
      · exact (Stands.takeUint _ _).bind fun _ => Stands.takeBytes _
      · split
        · exact Stands.findSubsequences _
        · split
          · exact Stands.findSubsequence _
          · split
            · exact Stands.remainingLen.bind fun _ => Stands.takeBytes _
            · exact Stands.takePrefixed

theorem Stands.decStr (ca : Option CAttr) (fa : Option FAttr) : Stands (decStr ca fa) := by
  refine (Stands.decBytes ca fa).bind fun _ => ?_
  split
  · exact Stands.pure _
  · exact Stands.fail _

theorem Stands.decIpv4 (ca : Option CAttr) (fa : Option FAttr) : Stands (decIpv4 ca fa) :=
  (Stands.takeScalar _ _).bind fun _ => Stands.pure _
theorem Stands.decIpv6 (ca : Option CAttr) (fa : Option FAttr) : Stands (decIpv6 ca fa) :=
  (Stands.takeScalar _ _).bind fun _ => Stands.pure _
theorem Stands.decMac (ca : Option CAttr) (fa : Option FAttr) : Stands (decMac ca fa) :=
  (Stands.takeUint _ _).bind fun _ => Stands.pure _

theorem Stands.decIpAddr (ca : Option CAttr) (fa : Option FAttr) : Stands (decIpAddr ca fa) := by
  unfold JBytes.decIpAddr
  have h4 := Stands.decIpv4 ca fa
  have h6 := Stands.decIpv6 ca fa
  stands

theorem Stands.decNet (ca : Option CAttr) (fa : Option FAttr) : Stands (decNet ca fa) := by
  unfold JBytes.decNet
  have h4 := Stands.decIpv4 ca fa
  have h6 := Stands.decIpv6 ca fa
  have hm := Stands.decMac ca fa
  have hi := Stands.decInt ⟨8, false⟩ ca fa
  stands

theorem Stands.getCount (ca : Option CAttr) (fa : Option FAttr) : Stands (getCount ca fa) := by
  unfold JBytes.getCount
  have h8 := Stands.takeU8
  have hu := fun k o => Stands.takeUint k o
  repeat' first
    | exact hu _ _
    | exact h8
    | exact Stands.pure _
    | refine Stands.bind ?_ fun _ => ?_
    | split

theorem Stands.counted {m : M α} (ca : Option CAttr) (fa : Option FAttr) (h : Stands m) : Stands (do
    let (n, t) ← JBytes.getCount ca fa
    match t with
    | some t => JBytes.tryRepeatM m t
    | none => JBytes.repeatM m n) := by
  refine (Stands.getCount ca fa).bind fun x => ?_
  obtain ⟨n, t⟩ := x
  cases t with
  | none => exact h.repeatM n
  | some t => exact Stands.tryRepeatM m t

theorem Stands.decTuple : ∀ (ds : List (Dec α)) {ca : Option CAttr} {fa : Option FAttr},
    (∀ d ∈ ds, Stands (d ca fa)) → Stands (decTuple ds ca fa) := by
  intro ds ca fa
  induction ds with
  | nil => intro _; exact Stands.pure _
  | cons d ds ih =>
    intro h
    exact (h d (by simp)).bind fun _ => (ih fun e he => h e (by simp [he])).bind fun _ => Stands.pure _

theorem Stands.toCode (a : FieldAttrs V) (env : Env V) : Stands (a.toCode env) := by
  unfold FieldAttrs.toCode
  split
  · refine Stands.bind ?_ fun _ => Stands.pure _
    unfold orderCode
    stands
  · exact Stands.pure _

theorem Stands.finishValue (a : FieldAttrs V) (env : Env V) (v : V) : Stands (finishValue a env v) := by
  unfold JBytes.finishValue
  cases a.valueDecode <;> cases a.checkValue <;> simp only <;> stands

theorem Stands.skipOffset (a : FieldAttrs V) (env : Env V) : Stands (skipOffset a env) := by
  unfold JBytes.skipOffset
  stands

/-- A field: its own codec, or the one written by the user, keeps to the rule. -/
def StandsField (f : Field V) : Prop :=
  (∀ ca fa, Stands (f.dec ca fa)) ∧ ∀ g, f.attrs.withDecode = some g → ∀ env ca fa, Stands (g env ca fa)

theorem Stands.decField {f : Field V} (h : StandsField f) (env : Env V) (ca : Option CAttr) (fa : Option FAttr) :
    Stands (decField f env ca fa) := by
  refine (Stands.skipOffset _ _).bind fun _ => ?_
  split
  · rename_i g hg
    exact h.2 g hg env ca fa
  · split
    · exact Stands.pure _
    · split
      · refine (Stands.decStr ca fa).bind fun s => ?_
        stands
      · unfold decPlain
        have hc : Stands (decCond f env ca fa) := by
          have := h.1 ca fa
          unfold decCond
          stands
        refine Stands.getPos.bind fun _ => hc.bind fun _ => ?_
        split
        · exact (Stands.setPos _).bind fun _ => Stands.finishValue _ _ _
        · exact Stands.finishValue _ _ _

theorem Stands.decFields (keep : Bool) : ∀ (fs : List (Field V)) (ca : Option CAttr) (old : Option FAttr) (env : Env V),
    (∀ f ∈ fs, StandsField f) → Stands (decFields keep fs ca old env) := by
  intro fs
  induction fs with
  | nil => intro ca old env _; exact Stands.pure _
  | cons f fs ih =>
    intro ca old env hf
    refine Stands.bind ?_ fun fa => (Stands.decField (hf f (by simp)) env ca fa).bind fun v =>
      (ih _ _ _ fun g hg => hf g (by simp [hg])).bind fun _ => Stands.pure _
    split
    · exact Stands.pure _
    · exact Stands.toCode _ _

theorem Stands.decVariant (own : Option CAttr) (env : Env V) (i : Nat) (v : Variant V)
    (hf : ∀ f ∈ v.fields, StandsField f) : Stands (decVariant own env i v) :=
  (Stands.toCode _ _).bind fun _ => (Stands.skipOffset _ _).bind fun _ =>
    (Stands.decFields _ _ _ _ _ hf).bind fun _ => Stands.pure _

theorem Stands.decTag (own ca : Option CAttr) (fa : Option FAttr) : Stands (decTag own ca fa) := by
  unfold JBytes.decTag
  have h8 := Stands.takeU8
  have hu := fun k o => Stands.takeUint k o
  repeat' first
    | exact hu _ _
    | exact h8
    | exact Stands.pure _
    | refine Stands.bind ?_ fun _ => ?_
    | split

theorem findWord_mem' {V : Type} (data : List Byte) : ∀ (vs : List (Variant V)) (k i : Nat) (v : Variant V),
    findWord data k vs = some (i, v) → v ∈ vs := by
  intro vs
  induction vs with
  | nil => intro k i v h; cases h
  | cons w ws ih =>
    intro k i v h
    unfold findWord at h
    split at h
    · cases h; simp
    · exact List.mem_cons_of_mem _ (ih _ _ _ h)

theorem Stands.decEnum (E : EnumDef V) (ca : Option CAttr) (fa : Option FAttr)
    (hw : ∀ g, E.withDecode = some g → Stands (g ca fa)) (hf : ∀ v ∈ E.variants, ∀ f ∈ v.fields, StandsField f) :
    Stands (decEnum E ca fa) := by
  have harm : ∀ env g, Stands (decArm E env g) := by
    intro env g
    unfold decArm
    split
    · rename_i i v h
      obtain ⟨n, hn⟩ := findArm_mem _ _ _ _ _ h
      exact Stands.decVariant _ _ _ _ (hf v (List.of_mem_zip hn).1)
    · exact Stands.fail _
  unfold JBytes.decEnum
  split
  · rename_i g hg
    exact hw g hg
  · split
    · refine Stands.remaining.bind fun data => ?_
      split
      · rename_i i v h
        have hv := Stands.decVariant E.container { vars := localVars E.getVars ca } i v (hf v (findWord_mem' _ _ _ _ _ h))
        split
        · exact hv
        · exact (Stands.advance _).bind fun _ => hv
      · exact Stands.fail _
    · exact (Stands.takeBytes _).bind fun _ => harm _ _
    · exact (Stands.decTag _ ca fa).bind fun _ => harm _ _

/-- Every decoder keeps to the rule, if those it is built from do. -/
theorem DerivableIn.stands {L : Limits} {Γ : (α : Type) → (Nat → Dec α) → Prop} {d : Nat → Dec α}
    (h : DerivableIn L Γ α d) (n : Nat) (hΓ : ∀ β e, Γ β e → ∀ ca fa, Stands (e n ca fa)) :
    ∀ (ca : Option CAttr) (fa : Option FAttr), Stands (d n ca fa) := by
  induction h with
  | var h => exact hΓ _ _ h
  | int k hk => exact Stands.decInt k
  | f32 => intro ca fa; exact Stands.takeScalar _ _
  | f64 => intro ca fa; exact Stands.takeScalar _ _
  | bool => intro ca fa; exact Stands.takeBool
  | char => intro ca fa; exact Stands.takeChar
  | bytes => exact Stands.decBytes
  | str => exact Stands.decStr
  | ipv4 => exact Stands.decIpv4
  | ipv6 => exact Stands.decIpv6
  | ip => exact Stands.decIpAddr
  | mac => exact Stands.decMac
  | net => exact Stands.decNet
  | unit => intro ca fa; exact Stands.pure _
  | vec _ ih =>
    intro ca fa
    show Stands (decVec _ _ ca fa)
    unfold decVec
    split
    · exact Stands.whileStarts _ (ih ca fa) n
    · exact Stands.counted ca fa (ih ca fa)
  | array k _ ih => intro ca fa; exact (ih ca fa).repeatM k
  | tuple ds _ ih =>
    intro ca fa
    refine Stands.decTuple _ fun d hd => ?_
    obtain ⟨d', hd', rfl⟩ := List.mem_map.mp hd
    exact ih d' hd' ca fa
  | option hno _ ih =>
    intro ca fa
    show Stands (decOption _ ca fa)
    unfold decOption
    split
    · exact Stands.pure _
    · exact Stands.attempt _
  | set _ ih => intro ca fa; exact (Stands.counted ca fa (ih ca fa)).bind fun _ => Stands.pure _
  | map _ _ ihk ihv =>
    intro ca fa
    exact (Stands.counted ca fa ((ihk ca _).bind fun _ => (ihv ca _).bind fun _ => Stands.pure _)).bind fun _ =>
      Stands.pure _
  | inject f _ ih => intro ca fa; exact (ih ca fa).bind fun _ => Stands.pure _
  | struct S ds _ hw hf ih =>
    intro ca fa
    show Stands (decStruct (S n) ca fa)
    unfold decStruct
    rw [hw n]
    refine Stands.decFields _ _ _ _ _ fun f hfm => ?_
    obtain ⟨ha, d, hd, he⟩ := hf n f hfm
    exact ⟨fun ca fa => by rw [he]; exact ih d hd ca fa, fun g hg => by rw [ha.custom] at hg; cases hg⟩
  | enum E ds _ hw _ _ _ hf ih =>
    intro ca fa
    refine Stands.decEnum (E n) ca fa (fun g hg => by rw [hw n] at hg; cases hg) fun v hvm f hfm => ?_
    obtain ⟨ha, d, hd, he⟩ := hf n v hvm f hfm
    exact ⟨fun ca fa => by rw [he]; exact ih d hd ca fa, fun g hg => by rw [ha.custom] at hg; cases hg⟩

/-! ## Encoders -/

theorem Stands.encAll {e : α → M Nat} (h : ∀ a, Stands (e a)) (l : List α) : Stands (encAll e l) := by
  induction l with
  | nil => exact Stands.pure _
  | cons a as ih => exact (h a).bind fun _ => ih.bind fun _ => Stands.pure _

theorem Stands.encInt (k : IntKind) (v : Nat) (ca : Option CAttr) (fa : Option FAttr) : Stands (encInt k v ca fa) := by
  unfold JBytes.encInt
  refine Stands.bind ?_ fun _ => ?_
  · unfold encBits
    have hu := Stands.takeUint k.size (getByteorder ca fa)
    split
    · exact Stands.pure _
    · split
      · exact Stands.pure _
      · simp only
        stands
  · split
    · split
      · exact Stands.fail _
      · exact Stands.pushUint _ _ _
    · exact Stands.pushScalar _ _ _

theorem Stands.pushOpt (o : Option (List Byte)) : Stands (pushOpt o) := by
  cases o with
  | none => exact Stands.pure _
  | some x => exact Stands.push x

theorem Stands.encBytes (d : List Byte) (ca : Option CAttr) (fa : Option FAttr) : Stands (encBytes d ca fa) := by
  have h : Stands (encBytesPrefix ca fa d.length) := by
    unfold encBytesPrefix
    repeat' first
      | exact Stands.push _
      | exact Stands.pushUint _ _ _
      | exact Stands.pure _
      | split
  exact (Stands.pushOpt _).bind fun _ => (Stands.pushOpt _).bind fun _ => h.bind fun _ => (Stands.push _).bind fun _ =>
    (Stands.pushOpt _).bind fun _ => Stands.pure _

theorem Stands.encIp (d : List Byte) (ca : Option CAttr) (fa : Option FAttr) : Stands (encIp d ca fa) := by
  unfold JBytes.encIp pushByteorderArray
  split <;> exact Stands.push _

theorem Stands.pushCount (ca : Option CAttr) (fa : Option FAttr) (n : Nat) : Stands (pushCount ca fa n) := by
  unfold JBytes.pushCount
  repeat' first
    | exact Stands.push _
    | exact Stands.pushUint _ _ _
    | exact Stands.pure _
    | split

theorem Stands.encVec {e : Enc α} (h : ∀ a ca fa, Stands (e a ca fa)) (l : List α) (ca : Option CAttr)
    (fa : Option FAttr) : Stands (encVec e l ca fa) := by
  unfold JBytes.encVec
  split
  · exact Stands.encAll (fun a => (Stands.push _).bind fun _ => (h a ca fa).bind fun _ => Stands.pure _) l
  · exact (Stands.pushCount _ _ _).bind fun _ => (Stands.encAll (fun a => h a ca fa) l).bind fun _ => Stands.pure _

theorem Stands.encTuple : ∀ (es : List (Enc α)) (l : List α) (ca : Option CAttr) (fa : Option FAttr),
    (∀ e ∈ es, ∀ a ca fa, Stands (e a ca fa)) → Stands (encTuple es l ca fa) := by
  intro es
  induction es with
  | nil => intro l ca fa _; exact Stands.pure _
  | cons e es ih =>
    intro l ca fa h
    cases l with
    | nil => exact Stands.pure _
    | cons a as =>
      exact (h e (by simp) a ca fa).bind fun _ => (ih as ca fa fun x hx => h x (by simp [hx])).bind fun _ =>
        Stands.pure _

theorem Stands.padOffset (a : FieldAttrs V) (env : Env V) : Stands (padOffset a env) := by
  unfold JBytes.padOffset
  split
  · rename_i e _
    generalize e env = n
    induction n with
    | zero => exact Stands.pure _
    | succ n ih => exact (Stands.push _).bind fun _ => ih
  · exact Stands.pure _

/-- A field: its own encoder, or the one written by the user, keeps to the rule. -/
def StandsFieldE (f : Field V) : Prop :=
  (∀ v ca fa, Stands (f.enc v ca fa)) ∧ ∀ g, f.attrs.withEncode = some g → ∀ env v ca fa, Stands (g env v ca fa)

theorem Stands.encField {f : Field V} (h : StandsFieldE f) (env : Env V) (v : V) (ca : Option CAttr)
    (fa : Option FAttr) : Stands (encField f env v ca fa) := by
  unfold JBytes.encField
  split
  · rename_i g hg
    exact h.2 g hg env v ca fa
  · split
    · exact Stands.pure _
    · have ht : Stands (encText f.attrs v ca fa) := by
        unfold encText
        split
        · exact Stands.encBytes _ _ _
        · exact Stands.pure _
      refine ht.bind fun n => ?_
      split
      · refine Stands.bind ?_ fun _ => Stands.pure _
        unfold encPlain
        refine (Stands.padOffset _ _).bind fun _ => ?_
        split <;> exact h.1 _ _ _
      · exact Stands.pure _

theorem Stands.encFields (keep : Bool) : ∀ (fs : List (Field V)) (ca : Option CAttr) (old : Option FAttr) (env : Env V)
    (vs : List V), (∀ f ∈ fs, StandsFieldE f) → Stands (encFields keep fs ca old env vs) := by
  intro fs
  induction fs with
  | nil => intro ca old env vs _; exact Stands.pure _
  | cons f fs ih =>
    intro ca old env vs hf
    cases vs with
    | nil => exact Stands.pure _
    | cons v vs =>
      refine Stands.bind ?_ fun fa => (Stands.encField (hf f (by simp)) env v ca fa).bind fun _ =>
        (ih _ _ _ _ fun g hg => hf g (by simp [hg])).bind fun _ => Stands.pure _
      split
      · exact Stands.pure _
      · exact Stands.toCode _ _

theorem Stands.encEnum (E : EnumDef V) (x : Nat × List V) (ca : Option CAttr) (fa : Option FAttr)
    (hf : ∀ v ∈ E.variants, ∀ f ∈ v.fields, StandsFieldE f) : Stands (encEnum E x ca fa) := by
  unfold JBytes.encEnum
  split
  · rename_i v num h
    have hv : v ∈ E.variants := (List.of_mem_zip (List.mem_of_getElem? h)).1
    have ht : Stands (encTagMode E v num ca fa) := by
      unfold encTagMode encTag encTagByte
      repeat' first
        | exact Stands.push _
        | exact Stands.pushUint _ _ _
        | exact Stands.pure _
        | split
    unfold encVariant
    exact (Stands.toCode _ _).bind fun _ => ht.bind fun _ => (Stands.padOffset _ _).bind fun _ =>
      (Stands.encFields _ _ _ _ _ _ (hf v hv)).bind fun _ => Stands.pure _
  · exact Stands.pure _

/-- Every encoder keeps to the rule. -/
theorem Encodable.stands {flush : Bool} {e : Enc α} (h : Encodable flush α e) :
    ∀ (v : α) (ca : Option CAttr) (fa : Option FAttr), Stands (e v ca fa) := by
  induction h with
  | stop => intro v ca fa; exact Stands.timeout
  | int k => exact Stands.encInt k
  | f32 => intro v ca fa; exact Stands.pushScalar _ _ _
  | f64 => intro v ca fa; exact Stands.pushScalar _ _ _
  | bool => intro v ca fa; exact Stands.push _
  | char => intro v ca fa; exact Stands.push _
  | bytes => exact Stands.encBytes
  | ip => exact Stands.encIp
  | ipAddr => intro v ca fa; cases v <;> exact Stands.encIp _ _ _
  | mac => intro v ca fa; exact Stands.pushUint _ _ _
  | net =>
    intro v ca fa
    cases v
    · exact Stands.encIp _ _ _
    · exact Stands.encIp _ _ _
    · exact Stands.pushUint _ _ _
    · exact Stands.encInt _ _ _ _
  | unit => intro v ca fa; exact Stands.pure _
  | vec _ ih => exact Stands.encVec ih
  | array _ ih => intro l ca fa; exact Stands.encAll (fun a => ih a ca fa) l
  | tuple es _ ih => intro l ca fa; exact Stands.encTuple es l ca fa ih
  | option _ ih =>
    intro o ca fa
    cases o with
    | none => exact Stands.pure _
    | some a => exact ih a ca fa
  | map _ _ ihk ihv =>
    intro l ca fa
    exact (Stands.pushCount _ _ _).bind fun _ => (Stands.encAll (fun a => (ihk _ _ _).bind fun _ =>
      (ihv _ _ _).bind fun _ => Stands.pure _) l).bind fun _ => Stands.pure _
  | project g _ ih =>
    intro v ca fa
    show Stands (encOption _ (g v) ca fa)
    cases g v with
    | none => exact Stands.pure _
    | some a => exact ih a ca fa
  | struct S hw ha _ ih =>
    intro vs ca fa
    unfold encStruct
    rw [hw]
    exact Stands.encFields _ _ _ _ _ _ fun f hf => ⟨ih f hf, fun g hg => by rw [(ha f hf).custom] at hg; cases hg⟩
  | enum E _ ha _ ih =>
    intro x ca fa
    exact Stands.encEnum E x ca fa fun v hv f hf =>
      ⟨ih v hv f hf, fun g hg => by rw [(ha v hv f hf).custom] at hg; cases hg⟩

end JBytes
