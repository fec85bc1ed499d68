import Verif.AnyIoLemmas
import Verif.PropDerive
import Verif.PropRecursive
/-!
# C93: decoding from and encoding to any implementation of the buffer traits
-/

namespace JBytes

variable {σ α V : Type}

/-- What a definition may use: no user-written codecs, no `offset`, `bits` only on the first member of a word. -/
def plainCmp : Cmp σ where
  R _ _ := False
  P := False
  Q _ := True
  W _ := True
  free := False
  back := False

/-- The decoders of a recursive family, at both. -/
inductive AmongS {σ ι : Type} {T : ι → Type} (g' : (i : ι) → Nat → DecS σ (T i)) (g : (i : ι) → Nat → Dec (T i)) :
    (β : Type) → (Nat → DecS σ β) → (Nat → Dec β) → Prop
  | mk (i : ι) : AmongS g' g (T i) (g' i) (g i)

/-- The decoders `d' k` of a recursive family, with at most `k` calls inside one another: those of the definitions `F` at
the implementation, as `decRec` (Recursive.lean) has them at `Bytes`. -/
structure DecRecS {ι : Type} {T : ι → Type} (I : Io σ) (F : ((i : ι) → Nat → Dec (T i)) → (i : ι) → Nat → Dec (T i))
    (d' : Nat → (i : ι) → Nat → DecS σ (T i)) : Prop where
  zero : ∀ i n ca fa, d' 0 i n ca fa = MS.timeout
  succ : ∀ k i, Twin I plainCmp (AmongS (d' k) (decRec F k)) (T i) (d' (k + 1) i) (F (decRec F k) i)

theorem readCmp_use {view : σ → Buf} {Inv : σ → Prop} {m' : MS σ α} {m : M α}
    (h : ∀ D, Simul (readCmp view Inv D) m' m) (s : σ) (hs : Inv s) :
    ∃ s', m' s = ((m (view s)).1, s') ∧ Inv s' ∧ view s' = (m (view s)).2 := by
  rcases h (view s).data s (view s) ⟨hs, rfl, rfl⟩ with ⟨h, _⟩ | ⟨h1, h2, h3, _⟩
  · exact h.elim
  · exact ⟨(m' s).2, by rw [← h1], h2, h3⟩

/-- C93: take any implementation of `BufRead`, given by its required methods, that keeps its data, stands where it is
told to and moves over as many bytes as it is told to (as long as it does not leave the data).  Then the decoder of any
type definition, run on it, returns what it returns on `Bytes` with the same data and position, and leaves the
implementation where it leaves `Bytes`. -/
theorem C93_decode (I : Required σ) (view : σ → Buf) (Inv : σ → Prop) (hI : I.Reads view Inv) (d' : Nat → DecS σ α)
    (d : Nat → Dec α) (h : Twin I.io plainCmp (fun _ _ _ => False) α d' d) (fuel : Nat) (ca : Option CAttr)
    (fa : Option FAttr) (s : σ) (hs : Inv s) :
    ∃ s', d' fuel ca fa s = ((d fuel ca fa (view s)).1, s') ∧ Inv s' ∧ view s' = (d fuel ca fa (view s)).2 :=
  readCmp_use (fun D => (h.to (T := plainCmp) (T' := readCmp view Inv D) (fun _ _ => trivial) (fun h => h)).sim (hI.lawful D) (fun _ _ _ h => h.elim) fuel ca fa
    (FaIn.any (fun _ => trivial) fa)) s hs

/-- C93, recursive types. -/
theorem C93_recursive {ι : Type} {T : ι → Type} (I : Required σ) (view : σ → Buf) (Inv : σ → Prop) (hI : I.Reads view Inv)
    (F : ((i : ι) → Nat → Dec (T i)) → (i : ι) → Nat → Dec (T i)) (d' : Nat → (i : ι) → Nat → DecS σ (T i))
    (h : DecRecS I.io F d') (depth : Nat) (i : ι) (fuel : Nat) (ca : Option CAttr) (fa : Option FAttr) (s : σ) (hs : Inv s) :
    ∃ s', d' depth i fuel ca fa s = ((decRec F depth i fuel ca fa (view s)).1, s') ∧ Inv s' ∧
      view s' = (decRec F depth i fuel ca fa (view s)).2 := by
  refine readCmp_use (fun D => ?_) s hs
  have key : ∀ depth i fuel ca fa, Simul (readCmp view Inv D) (d' depth i fuel ca fa) (decRec F depth i fuel ca fa) := by
    intro depth
    induction depth with
    | zero =>
      intro i fuel ca fa
      rw [h.zero]
      exact Simul.timeout
    | succ k ih =>
      intro i fuel ca fa
      refine ((h.succ k i).to (T := plainCmp) (T' := readCmp view Inv D) (fun _ _ => trivial) (fun h => h)).sim
        (hI.lawful D) ?_ fuel ca fa (FaIn.any (fun _ => trivial) fa)
      rintro _ _ _ ⟨i⟩ n ca fa _
      exact ih i n ca fa
  exact key depth i fuel ca fa

/-- C93: recursive type definitions have decoders at every implementation. -/
theorem C93_recursive_exists {ι : Type} {T : ι → Type} (I : Required σ) (L : Limits) (hL : L.noOffset = true)
    (F : ((i : ι) → Nat → Dec (T i)) → (i : ι) → Nat → Dec (T i)) (hF : ∀ d i, DerivableIn L (Among d) (T i) (F d i)) :
    ∃ d' : Nat → (i : ι) → Nat → DecS σ (T i), DecRecS I.io F d' := by
  have step : ∀ k (g' : (i : ι) → Nat → DecS σ (T i)), ∃ g'' : (i : ι) → Nat → DecS σ (T i), ∀ i,
      Twin I.io plainCmp (AmongS g' (decRec F k)) (T i) (g'' i) (F (decRec F k) i) := by
    intro k g'
    have h : ∀ i, ∃ d', Twin I.io plainCmp (AmongS g' (decRec F k)) (T i) d' (F (decRec F k) i) := fun i =>
      exists_twin I.io plainCmp rfl (fun _ => trivial) L (.inl hL) _ _ (by rintro _ _ ⟨i⟩; exact ⟨_, .mk i⟩) (hF _ i)
    exact ⟨fun i => Classical.choose (h i), fun i => Classical.choose_spec (h i)⟩
  obtain ⟨next, hn⟩ := Classical.skolem.mp fun k => Classical.skolem.mp (step k)
  refine ⟨Nat.rec (fun _ _ _ _ => MS.timeout) next, ⟨fun _ _ _ _ => rfl, fun k i => hn k _ i⟩⟩

/-- C93: every type definition without user-written codecs and without `offset` has a decoder at every implementation
(`C93_decode` is about all of them). -/
theorem C93_decoder_exists (I : Required σ) (L : Limits) (hL : L.noOffset = true) (d : Nat → Dec α) (h : Derivable L α d) :
    ∃ d', Twin I.io plainCmp (fun _ _ _ => False) α d' d :=
  exists_twin I.io plainCmp rfl (fun _ => trivial) L (.inl hL) _ _ (fun _ _ h => h.elim) h

theorem EncTwin.to {I : Io σ} {T T' : Cmp σ} (hb : T.back → T'.back) {N : Nat}
    {Γ : (α : Type) → (α → Prop) → EncS σ α → Enc α → Prop} {P : α → Prop} {e' : EncS σ α} {e : Enc α}
    (h : EncTwin I T N Γ α P e' e) : EncTwin I T' N Γ α P e' e := by
  have hfa : ∀ fr, FaOut T N fr → FaOut T' N fr :=
    fun fr h => ⟨h.key, h.split, h.linend, h.loops, h.bits.imp id (.imp id hb)⟩
  have ha : ∀ {V : Type} (a : FieldAttrs V), AttrsOut T N a → AttrsOut T' N a :=
    fun a h => ⟨h.enc, fun o env => hfa _ (h.passed o env)⟩
  induction h with
  | var h => exact .var h
  | fewer hP _ ih => exact .fewer hP ih
  | int k => exact .int k
  | usize s hw => exact .usize s hw
  | f32 => exact .f32
  | f64 => exact .f64
  | bool => exact .bool
  | char => exact .char
  | bytes => exact .bytes
  | ip => exact .ip
  | ipAddr => exact .ipAddr
  | mac => exact .mac
  | net hw => exact .net hw
  | unit => exact .unit
  | vec _ ih => exact .vec ih
  | array _ ih => exact .array ih
  | tuple es P _ ih => exact .tuple es P ih
  | option _ ih => exact .option ih
  | map _ _ ih1 ih2 => exact .map ih1 ih2
  | project g _ ih => exact .project g ih
  | struct S' S fs P h1 h2 h3 h4 hfs _ ih =>
    exact .struct S' S fs P h1 h2 h3 h4 (fun x hx => ⟨(hfs x hx).1, ha _ (hfs x hx).2⟩) ih
  | enum E' E fs P hE _ ih =>
    exact .enum E' E fs P ⟨hE.base, fun v hv => ⟨ha _ (hE.attrs v hv).1, (hE.attrs v hv).2⟩, hE.arms, hE.fields,
      fun i v e x hx => ⟨(hE.ok i v e x hx).1, ha _ (hE.ok i v e x hx).2⟩⟩ ih

/-- C93: take any implementation of `BufWrite` that keeps its data, moves over as many bytes as it is told to, writes where
it stands, and provides the room it is asked for or more (it may panic for lack of memory; for one that refuses see
C71).  Then the encoder of any type definition returns on it what it returns on `Buffer` with the same position and the
same bytes before it, and afterwards these are the same again. -/
theorem C93_encode (I : Required σ) (view : σ → Buf) (Inv : σ → Prop) (hI : I.Writes view Inv) (P : α → Prop)
    (e' : EncS σ α) (e : Enc α) (h : EncTwin I.io plainCmp isizeMax (fun _ P _ _ => ∀ v, ¬ P v) α P e' e) (v : α) (hv : P v)
    (ca : Option CAttr) (fa : Option FAttr) (hfa : FaOut? (plainCmp : Cmp σ) isizeMax fa) (s : σ) (b : Buf) (hs : Inv s)
    (hb : b.Ok) (hp : (view s).pos = b.pos) (ht : (view s).data.take b.pos = b.data.take b.pos) :
    ((e' v ca fa s).1 = .panic ∧ ∃ s n, Inv s ∧ (I.resize n s).1 = .panic) ∨
    ∃ o s' b', e' v ca fa s = (o, s') ∧ e v ca fa b = (o, b') ∧ Inv s' ∧ b'.Ok ∧ (view s').pos = b'.pos ∧
      (view s').data.take b'.pos = b'.data.take b'.pos := by
  rcases (h.to (T := plainCmp) (T' := writeCmp I view Inv) (fun h => h)).sim hI.lawful (by rw [isizeMax_def]; decide)
    (fun _ P _ _ h v hv => absurd hv (h v)) v hv ca fa
    (fun fr e => ⟨(hfa fr e).key, (hfa fr e).split, (hfa fr e).linend, (hfa fr e).loops, (hfa fr e).bits⟩)
    s b ⟨hs, hb, hp, ht⟩ with ⟨h1, h2⟩ | ⟨h1, h2, h3, h4, h5⟩
  · exact .inl ⟨h2, h1⟩
  · exact .inr ⟨_, _, _, rfl, Prod.ext h1.symm rfl, h2, h3, h4, h5⟩

/-- C93: every type definition without user-written codecs, and with `bits` only on the first member of a word, has an
encoder at every implementation, for the same values. -/
theorem C93_encoder_exists (I : Required σ) (P : α → Prop) (e : Enc α) (h : Storable isizeMax true α P e) :
    ∃ e', EncTwin I.io plainCmp isizeMax (fun _ P _ _ => ∀ v, ¬ P v) α P e' e :=
  exists_encTwin I.io plainCmp rfl isizeMax h

/-- C93, the crate's own implementation: with the methods of `Bytes` and `Buffer` the decoders are those of the other
properties, `offset` included. -/
theorem C93_bytes (d' : Nat → DecS Buf α) (d : Nat → Dec α) (h : Twin bufIo selfCmp (fun _ _ _ => False) α d' d) (fuel : Nat)
    (ca : Option CAttr) (fa : Option FAttr) (b : Buf) : d' fuel ca fa b = d fuel ca fa b := by
  rcases h.sim bufIo_lawful (fun _ _ _ h => h.elim) fuel ca fa (FaIn.any (fun _ => trivial) fa) b b rfl with ⟨h, _⟩ | ⟨h1, h2⟩
  · exact h.elim
  · exact Prod.ext h1 h2

/-- C93, likewise the encoders, `bits` included. -/
theorem C93_buffer (N : Nat) (hN : 2 ≤ N) (P : α → Prop) (e' : EncS Buf α) (e : Enc α)
    (h : EncTwin bufIo selfCmp N (fun _ _ _ _ => False) α P e' e) (v : α) (hv : P v) (ca : Option CAttr) (fa : Option FAttr)
    (hfa : FaOut? selfCmp N fa) (b : Buf) : e' v ca fa b = e v ca fa b := by
  rcases h.sim (bufIo_lawfulW N) hN (fun _ _ _ _ h => h.elim) v hv ca fa hfa b b rfl with ⟨h, _⟩ | ⟨h1, h2⟩
  · exact h.elim
  · exact Prod.ext h1 h2

/-- C93: every type definition without user-written codecs has a decoder there, and one without `bits` but on the first
member of a word an encoder. -/
theorem C93_own_exists (L : Limits) (d : Nat → Dec α) (h : Derivable L α d) (N : Nat) (P : β → Prop) (e : Enc β)
    (he : Storable N true β P e) :
    (∃ d', Twin bufIo selfCmp (fun _ _ _ => False) α d' d) ∧
      ∃ e', EncTwin bufIo selfCmp N (fun _ P _ _ => ∀ v, ¬ P v) β P e' e :=
  ⟨exists_twin bufIo selfCmp rfl (fun _ => trivial) L (.inr trivial) _ _ (fun _ _ h => h.elim) h,
    exists_encTwin bufIo selfCmp rfl N he⟩

/-- C93: an address, whose length is a `usize`. -/
example (fuel : Nat) (ca : Option CAttr) (fa : Option FAttr) (b : Buf) :
    bufIo.decNet ca fa b = decNet ca fa b ∧ bufIo.decUsize true ca fa b = decInt ⟨8, true⟩ ca fa b :=
  ⟨C93_bytes (fun _ => bufIo.decNet) _ (.net rfl) fuel ca fa b,
    C93_bytes (fun _ => bufIo.decUsize true) _ (.usize true rfl) fuel ca fa b⟩

/-! ## An implementation outside the crate

A zipper: what has been read or written, in reverse, and the rest.  It grows by more than it is asked for. -/

/-- The zipper (not in the crate; an instance for the statements). -/
def zipper : Required (List Byte × List Byte) where
  pos s := s.1.length
  data s := s.1.reverse ++ s.2
  setPos p := fun s => if p ≤ s.1.length + s.2.length then
    (.ok (), (((s.1.reverse ++ s.2).take p).reverse, (s.1.reverse ++ s.2).drop p)) else (.panic, s)
  advance n := fun s => if n ≤ s.2.length then (.ok (), ((s.2.take n).reverse ++ s.1, s.2.drop n)) else (.panic, s)
  remainingMut s := some s.2
  setMut r s := (s.1, r)
  resize n := fun s => if s.1.length + s.2.length + n + 16 ≤ isizeMax then
    (.ok (s.1.length + s.2.length + n + 16), (s.1, s.2 ++ List.replicate (n + 16) 0)) else (.panic, s)

/-- Data and position of a zipper. -/
def zipperView (s : List Byte × List Byte) : Buf := ⟨s.1.reverse ++ s.2, s.1.length⟩

/-- A zipper of a possible size. -/
def ZipperOk (s : List Byte × List Byte) : Prop := s.1.length + s.2.length ≤ isizeMax

theorem zipper_reads : zipper.Reads zipperView ZipperOk where
  pos _ _ := rfl
  data _ _ := rfl
  ok s h := by
    unfold ZipperOk at h
    refine ⟨?_, ?_⟩
    · simp [zipperView]
    · simp only [zipperView, List.length_append, List.length_reverse]
      exact h
  setPos s p h hp := by
    have hp : p ≤ s.1.length + s.2.length := by simpa [zipperView] using hp
    refine ⟨_, if_pos hp, ?_, ?_⟩
    · unfold ZipperOk at h ⊢
      simp only [List.length_reverse, List.length_take, List.length_drop, List.length_append]
      omega
    · unfold zipperView
      simp only [List.reverse_reverse, List.take_append_drop, List.length_reverse, List.length_take, List.length_append]
      congr 1
      omega
  advance s n h hn := by
    have hn : n ≤ s.2.length := by simp only [zipperView, List.length_append, List.length_reverse] at hn; omega
    refine ⟨_, if_pos hn, ?_, ?_⟩
    · unfold ZipperOk at h ⊢
      simp only [List.length_reverse, List.length_take, List.length_drop, List.length_append]
      omega
    · unfold zipperView
      simp only [List.reverse_append, List.reverse_reverse, List.append_assoc, List.take_append_drop, List.length_reverse,
        List.length_take, List.length_append]
      congr 1
      omega

theorem zipper_writes : zipper.Writes zipperView ZipperOk where
  write := {
    pos := fun _ _ => rfl
    inside := fun s h => (zipper_reads.ok s h).1
    remaining := fun s h => zipper_reads.rem s h
    advance := fun s n h hn => zipper_reads.advance s n h hn
    remainingMut := fun s _ => by
      show some s.2 = _
      simp [zipperView]
    setMut := fun s r h hr => by
      have hr : r.length = s.2.length := by
        simp only [zipperView, List.length_append, List.length_reverse] at hr
        omega
      unfold ZipperOk at h
      refine ⟨?_, ?_⟩
      · show s.1.length + r.length ≤ isizeMax
        omega
      · show (⟨s.1.reverse ++ r, s.1.length⟩ : Buf) = _
        simp [zipperView]
    resize := fun s n h _ hl => by
      by_cases hb : s.1.length + s.2.length + n + 16 ≤ isizeMax
      · refine ⟨_, _, if_pos hb, .inr (.inr ⟨_, List.replicate (n + 16) 0, by omega, rfl, ?_, ?_, ?_⟩)⟩
        · show s.1.length + (s.2 ++ List.replicate (n + 16) 0).length ≤ isizeMax
          simp only [List.length_append, List.length_replicate]
          omega
        · unfold zipperView
          simp
        · simp only [zipperView, List.length_append, List.length_reverse, List.length_replicate]
          omega
      · exact ⟨_, _, if_neg hb, .inl rfl⟩ }
  size s h := (zipper_reads.ok s h).2
  grows s n _ := by
    show (if _ then _ else _ : Out Nat × _).1 ≠ _
    by_cases hb : s.1.length + s.2.length + n + 16 ≤ isizeMax
    · rw [if_pos hb]
      intro h
      cases h
    · rw [if_neg hb]
      nofun

/-- C93: the struct `message` (C49) has a decoder for zippers, which does what the one for `Bytes` does. -/
example : ∃ d' : Nat → DecS (List Byte × List Byte) (List Part), ∀ (fuel : Nat) (front rest : List Byte),
    front.length + rest.length ≤ isizeMax →
    (d' fuel none none (front.reverse, rest)).1 =
      (decStruct (message fuel) none none ⟨front ++ rest, front.length⟩).1 := by
  obtain ⟨d', h⟩ := C93_decoder_exists zipper strict rfl _ message_derivable
  refine ⟨d', fun fuel front rest hl => ?_⟩
  obtain ⟨s', e, _⟩ := C93_decode zipper zipperView ZipperOk zipper_reads d' _ h fuel none none (front.reverse, rest)
    (by show front.reverse.length + rest.length ≤ isizeMax; rw [List.length_reverse]; exact hl)
  rw [e]
  simp only [zipperView, List.reverse_reverse, List.length_reverse]

/-- C93: so has the recursive struct `Tree` (C64). -/
example : ∃ d' : Nat → Unit → Nat → DecS (List Byte × List Byte) (List TreeVal), ∀ (depth fuel : Nat)
    (front rest : List Byte), front.length + rest.length ≤ isizeMax →
    (d' depth () fuel none none (front.reverse, rest)).1 =
      (decRec treeF depth () fuel none none ⟨front ++ rest, front.length⟩).1 := by
  obtain ⟨d', h⟩ := C93_recursive_exists (T := fun _ : Unit => List TreeVal) zipper strict rfl treeF tree_derivable
  refine ⟨d', fun depth fuel front rest hl => ?_⟩
  obtain ⟨s', e, _⟩ := C93_recursive zipper zipperView ZipperOk zipper_reads treeF d' h depth () fuel none none
    (front.reverse, rest) (by show front.reverse.length + rest.length ≤ isizeMax; rw [List.length_reverse]; exact hl)
  rw [e]
  simp only [zipperView, List.reverse_reverse, List.length_reverse]

/-- C93: a list of `u16` after two bytes that have been read. -/
example : zipper.io.decVec 9 (zipper.io.decInt ⟨2, false⟩) none none ([8, 9], [2, 0, 1, 0, 2, 77]) =
    (.ok [1, 2], ([2, 0, 1, 0, 2, 8, 9], [77])) ∧
  decVec 9 (decInt ⟨2, false⟩) none none ⟨[9, 8, 2, 0, 1, 0, 2, 77], 2⟩ =
    (.ok [1, 2], ⟨[9, 8, 2, 0, 1, 0, 2, 77], 7⟩) := by decide +kernel

unseal isizeMax usizeMod in
/-- C93: the same written, behind two bytes and over what follows. -/
example : (zipper.io.encVec (zipper.io.encInt ⟨2, false⟩) [1, 2] none none ([8, 9], [5, 5])).2.1 = [2, 0, 1, 0, 2, 8, 9] ∧
  encVec (encInt ⟨2, false⟩) [1, 2] none none ⟨[9, 8], 2⟩ = (.ok 5, ⟨[9, 8, 2, 0, 1, 0, 2], 7⟩) := by
  decide +kernel

example : ∃ e', EncTwin zipper.io plainCmp isizeMax (fun _ P _ _ => ∀ v, ¬ P v) (List Nat) (fun l => ∀ a ∈ l, True) e'
    (encVec (encInt ⟨2, false⟩)) := C93_encoder_exists zipper _ _ (.vec (.int _ (.inl rfl)))

end JBytes
