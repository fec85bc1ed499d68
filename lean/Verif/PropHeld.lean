import Verif.Held
import Verif.PropLinear
/-!
# C104: a byte of the input is in one place of the value

`raw v` are the bytes held by a value: those of its byte strings, texts and byte-sized numbers (and, when the order is
left aside, of its addresses and numbers), one after the other in the order of its fields and elements.  They are bytes
of the input consumed, and none is used twice: what two fields borrow from the input does not overlap.
-/

namespace JBytes
open M

variable {α β V : Type}

/-- The types whose values hold the bytes `raw`, when decoded with modifiers in `P`; the types in `Γ` are those being
defined, when they are recursive.  `k = true`: the bytes are in the order of the input. -/
inductive Holding (Γ : (Option FAttr → Prop) → (α : Type) → (Nat → Dec α) → (α → List Byte) → Prop) (k : Bool) :
    (Option FAttr → Prop) → (α : Type) → (Nat → Dec α) → (α → List Byte) → Prop where
  | var {P : Option FAttr → Prop} {α : Type} {d : Nat → Dec α} {raw : α → List Byte} : Γ P α d raw → Holding Γ k P α d raw
  | bytes {P : Option FAttr → Prop} : Holding Γ k P (List Byte) (fun _ => decBytes) id
  | str {P : Option FAttr → Prop} : Holding Γ k P (List Byte) (fun _ => decStr) id
  /-- A number of one byte is that byte. -/
  | u8 : Holding Γ k Whole Nat (fun _ => decInt ⟨1, false⟩) (fun v => [UInt8.ofNat v])
  /-- Any number is made of its bytes, if their order is left aside. -/
  | int {kind : IntKind} : kind.Valid → k = false → Holding Γ k Whole Nat (fun _ => decInt kind) (toBE kind.size)
  | ipv4 {P : Option FAttr → Prop} : k = false → Holding Γ k P (List Byte) (fun _ => decIpv4) id
  | ipv6 {P : Option FAttr → Prop} : k = false → Holding Γ k P (List Byte) (fun _ => decIpv6) id
  | ip {P : Option FAttr → Prop} : k = false → Holding Γ k P IpAddr (fun _ => decIpAddr) IpAddr.raw
  | mac {P : Option FAttr → Prop} : k = false → Holding Γ k P (List Byte) (fun _ => decMac) id
  | net {P : Option FAttr → Prop} : k = false → Holding Γ k P NetAddr (fun _ => decNet) NetAddr.raw
  /-- A number, a flag, a character: it can be said to hold nothing, whatever its modifiers. -/
  | num {P : Option FAttr → Prop} (kind : IntKind) : Holding Γ k P Nat (fun _ => decInt kind) (fun _ => [])
  | f32 {P : Option FAttr → Prop} : Holding Γ k P Nat (fun _ => decF32) (fun _ => [])
  | f64 {P : Option FAttr → Prop} : Holding Γ k P Nat (fun _ => decF64) (fun _ => [])
  | bool {P : Option FAttr → Prop} : Holding Γ k P Bool (fun _ => decBool) (fun _ => [])
  | char {P : Option FAttr → Prop} : Holding Γ k P Nat (fun _ => decChar) (fun _ => [])
  | unit {P : Option FAttr → Prop} : Holding Γ k P Unit (fun _ => decUnit) (fun _ => [])
  | vec {P : Option FAttr → Prop} {α : Type} {d : Nat → Dec α} {raw : α → List Byte} : Holding Γ k P α d raw →
      Holding Γ k P (List α) (fun n => decVec n (d n)) (held raw)
  | set {P : Option FAttr → Prop} {α : Type} [DecidableEq α] {d : Nat → Dec α} {raw : α → List Byte} :
      Holding Γ k P α d raw → Holding Γ k P (List α) (fun n => decSet (d n)) (held raw)
  | map {P Pk Pv : Option FAttr → Prop} {α β : Type} [DecidableEq α] {dk : Nat → Dec α} {dv : Nat → Dec β}
      {raw : α → List Byte} {raw' : β → List Byte} : Holding Γ k Pk α dk raw → Holding Γ k Pv β dv raw' →
      (∀ fa, P fa → Pk (keyFattr fa) ∧ Pv (valFattr fa)) → k = false →
      Holding Γ k P (List (α × β)) (fun n => decMap (dk n) (dv n)) (held (heldEntry raw raw'))
  | array {P : Option FAttr → Prop} {α : Type} {d : Nat → Dec α} {raw : α → List Byte} (m : Nat) :
      Holding Γ k P α d raw → Holding Γ k P (List α) (fun n => decArray m (d n)) (held raw)
  | tuple {P : Option FAttr → Prop} {α : Type} {raw : α → List Byte} (ds : List (Nat → Dec α)) :
      (∀ d ∈ ds, Holding Γ k P α d raw) → Holding Γ k P (List α) (fun n => decTuple (ds.map (· n))) (held raw)
  | option {P : Option FAttr → Prop} {α : Type} {d : Nat → Dec α} {raw : α → List Byte} : Holding Γ k P α d raw →
      Holding Γ k P (Option α) (fun n => decOption (d n)) (heldOpt raw)
  /-- A type seen as a part of a sum type (the type of all field values of a struct). -/
  | inject {P : Option FAttr → Prop} {α β : Type} {d : Nat → Dec α} {raw : α → List Byte} {raw' : β → List Byte}
      (f : α → β) : Holding Γ k P α d raw → (∀ a, raw' (f a) = raw a) →
      Holding Γ k P β (fun n ca fa => do
        let a ← d n ca fa
        return f a) raw'
  | weaken {P P' : Option FAttr → Prop} {α : Type} {d : Nat → Dec α} {raw : α → List Byte} : Holding Γ k P α d raw →
      (∀ fa, P' fa → P fa) → Holding Γ k P' α d raw
  | struct {P : Option FAttr → Prop} {V : Type} {raw : V → List Byte} (S : Nat → StructDef V) (keep : Bool)
      (xs : List (Spec V)) : (∀ n, (S n).withDecode = none ∧ (S n).tuple = keep ∧ (S n).fields = xs.map (·.at n)) →
      Chain keep (· = none) xs → (∀ x ∈ xs, FieldHeld k raw x) → (∀ x ∈ xs, Holding Γ k x.fits V x.dec raw) →
      Holding Γ k P (List V) (fun n => decStruct (S n)) (held raw)
  | enum {P : Option FAttr → Prop} {V : Type} {raw : V → List Byte} (E : Nat → EnumDef V) (ws : List (VSpec V)) :
      (∀ n, (E n).withDecode = none ∧ (E n).variants = ws.map (·.at n)) → (∀ w ∈ ws, VCost w) →
      (∀ w ∈ ws, ∀ x ∈ w.specs, FieldHeld k raw x) → (∀ w ∈ ws, ∀ x ∈ w.specs, Holding Γ k x.fits V x.dec raw) →
      Holding Γ k P (Nat × List V) (fun n => decEnum (E n)) (heldArm raw)

theorem Holding.holds {Γ : (Option FAttr → Prop) → (α : Type) → (Nat → Dec α) → (α → List Byte) → Prop} {k : Bool}
    {P : Option FAttr → Prop} {d : Nat → Dec α} {raw : α → List Byte} (h : Holding Γ k P α d raw) (n : Nat)
    (hΓ : ∀ P β e ν, Γ P β e ν → (∀ ca fa, Inside (e n ca fa)) ∧ ∀ ca fa, P fa → Holds k [] ν (e n ca fa)) :
    (∀ ca fa, Inside (d n ca fa)) ∧ ∀ ca fa, P fa → Holds k [] raw (d n ca fa) := by
  have hint : ∀ kind : IntKind, ∀ ca fa, Inside (decInt kind ca fa) := fun kind ca fa =>
    (Good.decInt (p := false) (t := false) (N := 0) kind ca fa fun h => nomatch h).1
  induction h with
  | var h => exact hΓ _ _ _ _ h
  | bytes => exact ⟨inside_decBytes, fun ca fa _ => (cut_decBytes ca fa).holds⟩
  | str => exact ⟨inside_decStr, fun ca fa _ => (cut_decStr ca fa).holds⟩
  | u8 => exact ⟨hint _, fun ca fa hf => holds_u8 ca hf⟩
  | int hk hk' => subst hk'; exact ⟨hint _, fun ca fa hf => holds_int hk ca hf⟩
  | ipv4 hk =>
    subst hk
    exact ⟨fun ca fa => (Good.decIpv4 (p := false) (t := false) (N := 0) ca fa).1,
      fun ca fa _ => holds_ip 4 .u32 rfl _⟩
  | ipv6 hk =>
    subst hk
    exact ⟨fun ca fa => (Good.decIpv6 (p := false) (t := false) (N := 0) ca fa).1,
      fun ca fa _ => holds_ip 16 .u128 rfl _⟩
  | ip hk =>
    subst hk
    exact ⟨fun ca fa => (Good.decIpAddr (p := false) (t := false) (N := 0) ca fa).1, fun ca fa _ => holds_ipAddr ca fa⟩
  | mac hk =>
    subst hk
    exact ⟨fun ca fa => (Good.decMac (p := false) (t := false) (N := 0) ca fa).1, fun ca fa _ => holds_mac ca fa⟩
  | net hk =>
    subst hk
    exact ⟨fun ca fa => (Good.decNet (p := false) (t := false) (N := 0) ca fa).1, fun ca fa _ => holds_net ca fa⟩
  | num kind => exact ⟨hint _, fun ca fa _ => Holds.empty fun _ => rfl⟩
  | f32 => exact ⟨fun ca fa => (tame_takeScalar _ _).inside, fun ca fa _ => Holds.empty fun _ => rfl⟩
  | f64 => exact ⟨fun ca fa => (tame_takeScalar _ _).inside, fun ca fa _ => Holds.empty fun _ => rfl⟩
  | bool => exact ⟨fun ca fa => tame_takeBool.inside, fun ca fa _ => Holds.empty fun _ => rfl⟩
  | char => exact ⟨fun ca fa => tame_takeChar.inside, fun ca fa _ => Holds.empty fun _ => rfl⟩
  | unit => exact ⟨fun ca fa => Inside.pure _, fun ca fa _ => Holds.empty fun _ => rfl⟩
  | vec _ ih =>
    exact ⟨fun ca fa => (Good.decVec (p := false) (t := false) (N := 0) n (ih.1 ca fa).toGood
      (fun h => nomatch h) fun h => nomatch h).1, fun ca fa hfa => Holds.decVec n (ih.1 ca fa) (ih.2 ca fa hfa)⟩
  | set _ ih =>
    have hi : ∀ ca fa, Inside (decCounted _ ca fa) := fun ca fa =>
      (Good.decCounted (p := false) (t := false) (N := 0) (ih.1 ca fa).toGood fun h => nomatch h).1
    refine ⟨fun ca fa => (hi ca fa).bind fun _ => Inside.pure _, fun ca fa hfa => ?_⟩
    refine Holds.map (hi ca fa) (Holds.counted (ih.1 ca fa) (ih.2 ca fa hfa) ca fa) _ fun l => ?_
    exact MadeOf.of_sublist (held_sublist _ (set_sublist l []))
  | map hk hv hp hk' ihk ihv =>
    subst hk'
    refine ⟨fun ca fa => (Good.decMap (p := false) (t := false) (N := 0) (ihk.1 ca _).toGood (ihv.1 ca _).toGood
      fun h => nomatch h).1, fun ca fa hfa => ?_⟩
    have hi := inside_decEntry (ihk.1 ca (keyFattr fa)) (ihv.1 ca (valFattr fa))
    have hc := Holds.decEntry (ihk.1 ca (keyFattr fa)) (ihk.2 ca _ (hp fa hfa).1) (ihv.1 ca (valFattr fa))
      (ihv.2 ca _ (hp fa hfa).2)
    refine Holds.map ?_ (Holds.counted hi hc ca fa) _ fun l => ?_
    · refine (inside_getCount ca fa).bind fun x => ?_
      obtain ⟨m, t⟩ := x
      cases t with
      | none => exact hi.repeatM m
      | some t => exact hi.tryRepeatM t
    · exact fun x => heldMap_count _ _ x l
  | array m _ ih => exact ⟨fun ca fa => (ih.1 ca fa).repeatM m, fun ca fa hfa => (ih.2 ca fa hfa).repeatM (ih.1 ca fa) m⟩
  | tuple ds _ ih =>
    refine ⟨fun ca fa => ?_, fun ca fa hfa => ?_⟩
    · refine (Good.decTuple (p := false) (t := false) (N := 0) _ fun x hx => ?_).1
      obtain ⟨d, hd, rfl⟩ := List.mem_map.mp hx
      exact ((ih d hd).1 ca fa).toGood
    · refine Holds.decTuple _ fun x hx => ?_
      obtain ⟨d, hd, rfl⟩ := List.mem_map.mp hx
      exact ⟨(ih d hd).1 ca fa, (ih d hd).2 ca fa hfa⟩
  | option _ ih =>
    refine ⟨fun ca fa => (Good.decOption (p := false) (t := false) (N := 0) (ih.1 ca fa).toGood).1, fun ca fa hfa => ?_⟩
    show Holds _ _ _ (if _ then _ else _)
    split
    · exact Holds.pure (MadeOf.nil _)
    · exact (ih.2 ca fa hfa).attempt
  | inject f _ hf ih =>
    exact ⟨fun ca fa => (ih.1 ca fa).bind fun _ => Inside.pure _, fun ca fa hfa =>
      Holds.map (ih.1 ca fa) (ih.2 ca fa hfa) f fun a => by rw [hf a]; exact MadeOf.refl _⟩
  | weaken _ hP ih => exact ⟨ih.1, fun ca fa hfa => ih.2 ca fa (hP fa hfa)⟩
  | struct S keep xs hS hch hx _ ih =>
    obtain ⟨h1, h2, h3⟩ := hS n
    have hg : ∀ x ∈ xs, x.Held _ _ n := fun x hxm => ⟨hx x hxm, (ih x hxm).1, (ih x hxm).2⟩
    have e : ∀ ca fa, decStruct (S n) ca fa = decFields keep (xs.map (·.at n)) (S n).container none
        { vars := localVars (S n).getVars ca } := fun ca fa => by rw [decStruct, h1, h2, h3]
    refine ⟨fun ca fa => ?_, fun ca fa _ => ?_⟩
    · dsimp only
      rw [e]
      exact inside_helds hg _ _ _
    · dsimp only
      rw [e]
      exact Holds.decFields xs (· = none) _ none _ rfl hch hg
  | @enum P V raw' E ws hE hw hx _ ih =>
    obtain ⟨h1, h2⟩ := hE n
    have hv : ∀ v ∈ (E n).variants, ∀ own env i, Inside (decVariant own env i v) ∧
        Holds k [] (heldArm raw') (decVariant own env i v) := by
      intro v hv own env i
      rw [h2] at hv
      obtain ⟨w, hwm, rfl⟩ := List.mem_map.mp hv
      have hg : ∀ x ∈ w.specs, x.Held k raw' n := fun x hxm => ⟨hx w hwm x hxm, (ih w hwm x hxm).1, (ih w hwm x hxm).2⟩
      exact ⟨inside_heldArm (hw w hwm) hg own env i, holds_arm (hw w hwm) hg own env i⟩
    exact ⟨fun ca fa => inside_enum h1 (fun v h own env i => (hv v h own env i).1) ca fa,
      fun ca fa _ => holds_enum h1 hv ca fa⟩

/-! ## Theorems -/

/-- C104, byte strings and texts: what is decoded is a window of the input, inside the part consumed. -/
theorem C104_window (text : Bool) (ca : Option CAttr) (fa : Option FAttr) (b : Buf) (hb : b.Ok) (v : List Byte) (b' : Buf)
    (hd : (if text then decStr else decBytes) ca fa b = (.ok v, b')) :
    ∃ i, b.pos ≤ i ∧ i + v.length ≤ b'.pos ∧ b'.pos ≤ b.data.length ∧ v = (b.data.drop i).take v.length := by
  have hc : v <:+: consumed b b' := by
    cases text
    · exact cut_decBytes ca fa b hb v b' hd
    · exact cut_decStr ca fa b hb v b' hd
  have hi : b'.Ok ∧ b.pos ≤ b'.pos ∧ b'.data = b.data := by
    cases text
    · exact (inside_decBytes ca fa).step hb hd
    · exact (inside_decStr ca fa).step hb hd
  obtain ⟨s, t, e⟩ := hc
  have hl : s.length + v.length + t.length = b'.pos - b.pos := by
    have h1 := congrArg List.length e
    have h2 := hi.1.1
    rw [hi.2.2] at h2
    unfold consumed at h1
    rw [List.length_take, List.length_drop, List.length_append, List.length_append] at h1
    omega
  have h2 := hi.1.1
  rw [hi.2.2] at h2
  refine ⟨b.pos + s.length, Nat.le_add_right _ _, by omega, h2, ?_⟩
  have e2 : (b.data.drop b.pos).take (b'.pos - b.pos) = s ++ v ++ t := e.symm
  have e3 : (((b.data.drop b.pos).take (b'.pos - b.pos)).drop s.length).take v.length = v := by
    rw [e2, List.append_assoc, List.drop_left, List.take_left]
  rw [List.drop_take, List.take_take, Nat.min_eq_left (by omega), List.drop_drop] at e3
  exact e3.symm

/-- No types are being defined. -/
def NoTypes : (Option FAttr → Prop) → (α : Type) → (Nat → Dec α) → (α → List Byte) → Prop := fun _ _ _ _ => False

/-- C104: the bytes a decoded value holds are bytes it consumed, each held at most once. -/
theorem C104_decode_partial {k : Bool} {P : Option FAttr → Prop} (d : Nat → Dec α) (raw : α → List Byte)
    (h : Holding NoTypes k P α d raw) (fuel : Nat) (ca : Option CAttr) (fa : Option FAttr) (hfa : P fa)
    (b : Buf) (hb : b.Ok) (v : α) (b' : Buf) (hd : d fuel ca fa b = (.ok v, b')) :
    (k = true → (raw v).Sublist ((b.data.drop b.pos).take (b'.pos - b.pos))) ∧
      ∀ a, (raw v).count a ≤ ((b.data.drop b.pos).take (b'.pos - b.pos)).count a := by
  have hc := (h.holds fuel fun _ _ _ _ h => h.elim).2 ca fa hfa b hb v b' hd
  refine ⟨fun hk => ?_, hc.counts⟩
  subst hk
  exact hc

/-- C104, `jbytes::decode`: the bytes of the value are bytes of the input. -/
theorem C104_top_partial {k : Bool} {P : Option FAttr → Prop} (d : Nat → Dec α) (raw : α → List Byte)
    (h : Holding NoTypes k P α d raw) (hP : P none) (fuel : Nat) (input : List Byte) (hl : input.length ≤ isizeMax)
    (v : α) (hd : decodeTop (d fuel) input = .ok v) :
    (k = true → (raw v).Sublist input) ∧ ∀ a, (raw v).count a ≤ input.count a := by
  rcases hx : d fuel none none (Buf.ofBytes input) with ⟨o, b'⟩
  unfold decodeTop at hd
  rw [hx] at hd
  dsimp only at hd
  subst hd
  obtain ⟨h1, h2⟩ := C104_decode_partial d raw h fuel none none hP (Buf.ofBytes input) ⟨Nat.zero_le _, hl⟩ v b' hx
  have hs : (((Buf.ofBytes input).data.drop (Buf.ofBytes input).pos).take (b'.pos - (Buf.ofBytes input).pos)).Sublist
      input := (List.take_sublist _ _).trans (List.drop_sublist _ _)
  exact ⟨fun hk => (h1 hk).trans hs, fun a => Nat.le_trans (h2 a) (hs.count_le a)⟩

/-- The types of a recursive family, with the bytes they hold. -/
inductive AmongHeld {ι : Type} {T : ι → Type} (P : ι → Option FAttr → Prop) (d : (i : ι) → Nat → Dec (T i))
    (raw : (i : ι) → T i → List Byte) : (Option FAttr → Prop) → (α : Type) → (Nat → Dec α) → (α → List Byte) → Prop
  | mk (i : ι) : AmongHeld P d raw (P i) (T i) (d i) (raw i)

/-- C104, recursive types: the same for values of any depth. -/
theorem C104_recursive_partial {ι : Type} {T : ι → Type} (F : ((i : ι) → Nat → Dec (T i)) → (i : ι) → Nat → Dec (T i))
    (raw : (i : ι) → T i → List Byte) (P : ι → Option FAttr → Prop) (k : Bool)
    (hF : ∀ d i, Holding (AmongHeld P d raw) k (P i) (T i) (F d i) (raw i)) (depth fuel : Nat) (i : ι)
    (ca : Option CAttr) (fa : Option FAttr) (hfa : P i fa) (b : Buf) (hb : b.Ok) (v : T i) (b' : Buf)
    (hd : decRec F depth i fuel ca fa b = (.ok v, b')) :
    (k = true → (raw i v).Sublist ((b.data.drop b.pos).take (b'.pos - b.pos))) ∧
      ∀ a, (raw i v).count a ≤ ((b.data.drop b.pos).take (b'.pos - b.pos)).count a := by
  have key : ∀ m i, (∀ ca fa, Inside (decRec F m i fuel ca fa)) ∧
      ∀ ca fa, P i fa → Holds k [] (raw i) (decRec F m i fuel ca fa) := by
    intro m
    induction m with
    | zero => exact fun i => ⟨fun ca fa => Inside.timeout, fun ca fa _ => Holds.of_not_ok fun _ _ _ h => by cases h⟩
    | succ m ih =>
      intro i
      refine (hF (decRec F m) i).holds fuel ?_
      rintro _ _ _ _ ⟨j⟩
      exact ih j
  have hc := (key depth i).2 ca fa hfa b hb v b' hd
  refine ⟨fun hk => ?_, hc.counts⟩
  subst hk
  exact hc

/-! ## Fields that are put back -/

/-- `#[jbytes(untake, length = 2)] a: &[u8]`. -/
def backField : Field (List Byte) := ⟨{ isUse := true, untake := true, length := some fun _ => 2 }, decBytes, encBytes, [], []⟩

/-- `#[jbytes(length = 2)] b: &[u8]`. -/
def pairField : Field (List Byte) := ⟨{ isUse := true, length := some fun _ => 2 }, decBytes, encBytes, [], []⟩

/-- `#[jbytes(offset = usize::MAX - 1, length = 2)] b: &[u8]`: the position wraps round to where it was. -/
def wrapField : Field (List Byte) :=
  ⟨{ isUse := true, offset := some fun _ => usizeMod - 2, length := some fun _ => 2 }, decBytes, encBytes, [], []⟩

unseal usizeMod isizeMax in
/-- C104 is violated where a field is put back (`untake`) or the position goes back (`offset` near `usize::MAX`): two
fields then borrow the same two bytes of a two-byte input. -/
theorem C104_violated :
    decodeTop (decStruct { fields := [backField, pairField] }) [7, 8] = .ok [[7, 8], [7, 8]] ∧
    decodeTop (decStruct { fields := [pairField, wrapField] }) [7, 8] = .ok [[7, 8], [7, 8]] ∧
    ¬ ∀ a, (held id [([7, 8] : List Byte), [7, 8]]).count a ≤ ([7, 8] : List Byte).count a := by
  refine ⟨by rfl, by rfl, fun h => ?_⟩
  have := h 7
  revert this
  decide

/-! ## Examples -/

/-- The bytes of a field value of `message`: its body. -/
def Part.held : Part → List Byte
  | .bytes l => l
  | _ => []

/-- C104: the body of a message is a part of the input. -/
example (input : List Byte) (hl : input.length ≤ isizeMax) (v : List Part)
    (h : decodeTop (decStruct { fields := [lenField, bodyField] }) input = .ok v) :
    (held Part.held v).Sublist input := by
  refine (C104_top_partial (P := fun _ => True) (fun _ => decStruct { fields := [lenField, bodyField] }) (held Part.held)
    ?_ trivial 0 input hl v h).1 rfl
  refine Holding.struct (fun _ => { fields := [lenField, bodyField] }) false
    [⟨lenField, fun _ => lenField.dec, fun _ => True, 0, 0⟩, ⟨bodyField, fun _ => bodyField.dec, fun _ => True, 0, 0⟩]
    (fun n => ⟨rfl, rfl, rfl⟩) ?_ ?_ ?_
  · simp [Chain]
  · intro x hx
    simp only [List.mem_cons, List.not_mem_nil, or_false] at hx
    rcases hx with rfl | rfl <;> constructor <;> simp [lenField, bodyField]
  · intro x hx
    simp only [List.mem_cons, List.not_mem_nil, or_false] at hx
    rcases hx with rfl | rfl
    · exact .inject Part.num (.num _) fun _ => rfl
    · exact .inject Part.bytes .bytes fun _ => rfl

unseal usizeMod isizeMax in
/-- Such a message. -/
example : decodeTop (decStruct { fields := [lenField, bodyField] }) [2, 9, 9] = .ok [.num 2, .bytes [9, 9]] := by rfl

/-- C104: the texts of a `Vec<&str>`, one after the other, are a part of the input. -/
example (fuel : Nat) (input : List Byte) (hl : input.length ≤ isizeMax) (v : List (List Byte))
    (h : decodeTop (decVec fuel decStr) input = .ok v) : v.flatten.Sublist input := by
  have := (C104_top_partial (k := true) (P := fun _ => True) (fun n => decVec n decStr) _ (.vec .str) trivial fuel input
    hl v h).1 rfl
  rwa [held, List.flatMap_id] at this

unseal usizeMod isizeMax in
example : decodeTop (decVec 9 decStr) [2, 1, 65, 2, 66, 67] = .ok [[65], [66, 67]] := by rfl

/-- C104: the keys and values of a `HashMap<&str, Ipv4Addr>` use no byte of the input twice. -/
example (input : List Byte) (hl : input.length ≤ isizeMax) (v : List (List Byte × List Byte))
    (h : decodeTop (decMap decStr decIpv4) input = .ok v) (a : Byte) :
    (v.flatMap fun e => e.1 ++ e.2).count a ≤ input.count a :=
  (C104_top_partial (k := false) (P := fun _ => True) (fun _ => decMap decStr decIpv4) _
    (.map (Pk := fun _ => True) (Pv := fun _ => True) .str (.ipv4 rfl) (fun _ _ => ⟨trivial, trivial⟩) rfl) trivial 0 input
    hl v h).2 a

unseal usizeMod isizeMax in
example : decodeTop (decMap decStr decIpv4) [1, 1, 65, 10, 0, 0, 1] = .ok [([65], [10, 0, 0, 1])] := by rfl

mutual
/-- The bytes of a field value of a tree. -/
def TreeVal.held : TreeVal → List Byte
  | .num n => [UInt8.ofNat n]
  | .kids l => kidsHeld l
/-- The bytes of a list of trees. -/
def kidsHeld : List (List TreeVal) → List Byte
  | [] => []
  | t :: ts => nodeHeld t ++ kidsHeld ts
/-- The bytes of a tree, a node before its children. -/
def nodeHeld : List TreeVal → List Byte
  | [] => []
  | v :: vs => v.held ++ nodeHeld vs
end

theorem nodeHeld_eq : ∀ vs : List TreeVal, nodeHeld vs = held TreeVal.held vs
  | [] => by simp [nodeHeld, held]
  | v :: vs => by rw [nodeHeld, nodeHeld_eq vs, held_cons]

theorem kidsHeld_eq : ∀ l : List (List TreeVal), kidsHeld l = held nodeHeld l
  | [] => by simp [kidsHeld, held]
  | t :: ts => by rw [kidsHeld, kidsHeld_eq ts, held_cons]

theorem tree_holding (d : Unit → Nat → Dec (List TreeVal)) (i : Unit) :
    Holding (AmongHeld (fun _ => (· = none)) d fun _ => nodeHeld) true (· = none) (List TreeVal) (treeF d i) nodeHeld := by
  rw [show nodeHeld = held TreeVal.held from funext nodeHeld_eq]
  refine Holding.struct (fun n => treeStruct n (d () n) noEnc) false
    [⟨valueField, fun _ => valueField.dec, (· = none), 0, 0⟩,
      ⟨kidsField {} 0 (d () 0) noEnc, fun n => (kidsField {} n (d () n) noEnc).dec, (· = none), 0, 0⟩]
    (fun n => ⟨rfl, rfl, rfl⟩) ?_ ?_ ?_
  · simp [Chain]
  · intro x hx
    simp only [List.mem_cons, List.not_mem_nil, or_false] at hx
    rcases hx with rfl | rfl <;> constructor <;> simp [valueField, kidsField, FaGiven]
  · intro x hx
    simp only [List.mem_cons, List.not_mem_nil, or_false] at hx
    rcases hx with rfl | rfl
    · exact .inject TreeVal.num (.weaken .u8 fun fa h => by rw [h]; exact ⟨rfl, rfl⟩) fun _ => by rw [TreeVal.held]
    · refine .inject TreeVal.kids (raw := held nodeHeld) (.vec (.var ?_)) fun l => by rw [TreeVal.held, kidsHeld_eq]
      rw [← show nodeHeld = held TreeVal.held from funext nodeHeld_eq]
      exact .mk ()

/-- C104: the values of a tree, a node before its children, are a part of the input in its order. -/
example (depth : Nat) (input : List Byte) (hl : input.length ≤ isizeMax) (v : List TreeVal) (b' : Buf)
    (h : decRec treeF depth () 9 none none ⟨input, 0⟩ = (.ok v, b')) : (nodeHeld v).Sublist (input.take b'.pos) :=
  (C104_recursive_partial (T := fun _ : Unit => List TreeVal) treeF (fun _ => nodeHeld) (fun _ => (· = none)) true
    tree_holding depth 9 () none none rfl ⟨input, 0⟩ ⟨Nat.zero_le _, hl⟩ v b' h).1 rfl

end JBytes
