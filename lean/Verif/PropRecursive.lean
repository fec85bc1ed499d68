import Verif.Recursive
import Verif.PropEncode
import Verif.PropReencode
/-!
# Recursive types: C64

A family of types is given by `F`: the decoders of all of them from the decoders their fields use (`decRec`).
-/

namespace JBytes
open M

variable {ι : Type} {T : ι → Type} {F : ((i : ι) → Nat → Dec (T i)) → (i : ι) → Nat → Dec (T i)}

/-- C64, C50 for recursive types: without `offset`, however deep the nesting, decoding leaves the data as it is and
the position between where it was and the end. -/
theorem C64_stays_inside (hF : ∀ d i, DerivableIn { noOffset := true } (Among d) (T i) (F d i)) (depth fuel : Nat)
    (i : ι) (ca : Option CAttr) (fa : Option FAttr) (b : Buf) (hb : b.Ok) :
    (decRec F depth i fuel ca fa b).2.data = b.data ∧ b.pos ≤ (decRec F depth i fuel ca fa b).2.pos ∧
      (decRec F depth i fuel ca fa b).2.pos ≤ b.data.length := by
  refine (decRec_good (L := { noOffset := true }) rfl hF fuel depth i ca fa ?_).1 b hb
  intro fr _
  constructor <;> (intro h; cases h)

/-- C64, C49 for recursive types, partial: within the limits of C49 no input makes the decoder panic, however deep
the nesting.  Missing: definitions outside the limits (`C49_violated`). -/
theorem C64_no_panic_partial (L : Limits) (h1 : L.noOffset = true) (h2 : L.narrow = true)
    (hF : ∀ d i, DerivableIn L (Among d) (T i) (F d i)) (depth fuel : Nat) (i : ι) (ca : Option CAttr)
    (fa : Option FAttr) (hfa : FaOk? L fa) (b : Buf) (hb : b.Ok) : (decRec F depth i fuel ca fa b).1 ≠ .panic :=
  (decRec_good h1 hF fuel depth i ca fa hfa).2.1 h2 b hb

/-- C64, partial: when every recursive use stands after at least one byte (a count on the wire, or a field before
it), decoding terminates on every input, and the calls nest at most one deeper than there are bytes left.  Missing:
the other definitions, some of which never stop (`C64_violated`). -/
theorem C64_terminates_partial (L : Limits) (h1 : L.noOffset = true) (h2 : L.prefixes = true)
    (hF : ∀ d i, Guarded L (Among d) (T i) (F d i)) (depth fuel : Nat) (i : ι) (ca : Option CAttr)
    (fa : Option FAttr) (hfa : FaOk? L fa) (b : Buf) (hb : b.Ok) (hd : b.data.length - b.pos < depth)
    (hf : b.data.length - b.pos < fuel) : (decRec F depth i fuel ca fa b).1 ≠ .timeout :=
  ((decRec_guarded h1 hF fuel depth i ca fa hfa).2 h2 _ hd hf).2.2 rfl b hb (Nat.le_refl _)

/-- C64, together: such a type is decoded to a value or an error, whatever the input. -/
theorem C64_total_partial (L : Limits) (h1 : L.noOffset = true) (h2 : L.narrow = true) (h3 : L.prefixes = true)
    (hF : ∀ d i, Guarded L (Among d) (T i) (F d i)) (depth fuel : Nat) (i : ι) (ca : Option CAttr)
    (fa : Option FAttr) (hfa : FaOk? L fa) (b : Buf) (hb : b.Ok) (hd : b.data.length - b.pos < depth)
    (hf : b.data.length - b.pos < fuel) :
    (∃ v, (decRec F depth i fuel ca fa b).1 = .ok v) ∨ ∃ e, (decRec F depth i fuel ca fa b).1 = .err e := by
  have hp := (decRec_guarded h1 hF fuel depth i ca fa hfa).1.2.1 h2 b hb
  have ht := C64_terminates_partial L h1 h3 hF depth fuel i ca fa hfa b hb hd hf
  cases ho : (decRec F depth i fuel ca fa b).1 with
  | ok v => exact .inl ⟨v, rfl⟩
  | err e => exact .inr ⟨e, rfl⟩
  | panic => exact absurd ho hp
  | timeout => exact absurd ho ht

/-- C64, C51 for recursive types: what follows the final position does not matter. -/
theorem C64_suffix_irrelevant_partial (L : Limits) (h1 : L.noOffset = true) (h2 : L.standalone = true)
    (hF : ∀ d i, DerivableIn L (Among d) (T i) (F d i)) (depth fuel : Nat) (i : ι) (ca : Option CAttr)
    (fa : Option FAttr) (hfa : FaOk? L fa) (pre w rest rest' : List Byte) (v : T i)
    (hs : (pre ++ w ++ rest).length ≤ isizeMax) (hs' : (pre ++ w ++ rest').length ≤ isizeMax)
    (he : decRec F depth i fuel ca fa ⟨pre ++ w ++ rest, pre.length⟩ =
      (.ok v, ⟨pre ++ w ++ rest, (pre ++ w).length⟩)) :
    decRec F depth i fuel ca fa ⟨pre ++ w ++ rest', pre.length⟩ =
      (.ok v, ⟨pre ++ w ++ rest', (pre ++ w).length⟩) := by
  refine (decRec_loc h1 h2 hF fuel depth i ca fa hfa).2 ⟨pre ++ w ++ rest, pre.length⟩ v _ ⟨by simp, hs⟩ he _ hs' ?_ ?_
  · simp
  · show (pre ++ w ++ rest').take (pre ++ w).length = (pre ++ w ++ rest).take (pre ++ w).length
    rw [List.take_left, List.take_left]

/-- C64, C51 for recursive types, extending the data, also with `offset`. -/
theorem C64_extension (L : Limits) (h2 : L.standalone = true)
    (hF : ∀ d i, DerivableIn L (Among d) (T i) (F d i)) (depth fuel : Nat) (i : ι) (ca : Option CAttr)
    (fa : Option FAttr) (hfa : FaOk? L fa) (data suf : List Byte) (p q : Nat) (v : T i) (hp : p < usizeMod)
    (hs : (data ++ suf).length ≤ isizeMax)
    (he : decRec F depth i fuel ca fa ⟨data, p⟩ = (.ok v, ⟨data, q⟩)) :
    decRec F depth i fuel ca fa ⟨data ++ suf, p⟩ = (.ok v, ⟨data ++ suf, q⟩) :=
  (decRec_ext h2 hF fuel depth i ca fa hfa data p (by rw [List.length_append] at hs; omega) hp v _ he).2.2 suf hs

/-! ## Encoding -/

theorem encRec_encodable {c : Bool} {G : ((i : ι) → Enc (T i)) → (i : ι) → Enc (T i)}
    (hG : ∀ e, (∀ i, Encodable c (T i) (e i)) → ∀ i, Encodable c (T i) (G e i)) :
    ∀ depth i, Encodable c (T i) (encRec G depth i)
  | 0, _ => .stop
  | k + 1, i => hG _ (encRec_encodable hG k) i

/-- C64, C47, C48 and C62 for recursive types, partial: a success appends bytes that are the same whatever the buffer
holds, and reports their number.  Missing: `offset` and further bit-field members (`C47_violated`). -/
theorem C64_encode_partial {G : ((i : ι) → Enc (T i)) → (i : ι) → Enc (T i)}
    (hG : ∀ e, (∀ i, Encodable true (T i) (e i)) → ∀ i, Encodable true (T i) (G e i)) (depth : Nat) (i : ι) (v : T i)
    (ca : Option CAttr) (fa : Option FAttr) (hf : StartsWord fa) (pre : List Byte) (hp : pre.length ≤ isizeMax)
    (n : Nat) (b' : Buf) (he : encRec G depth i v ca fa ⟨pre, pre.length⟩ = (.ok n, b')) :
    ∃ w, w.length = n ∧ b' = ⟨pre ++ w, pre.length + n⟩ ∧ Appends (encRec G depth i v ca fa) w := by
  have h := encRec_encodable hG depth i
  have hn := C47_count_partial _ h v ca fa hf pre hp n b' he
  obtain ⟨w, hw, hall⟩ := C62_position_independent true _ h v ca fa hf ⟨pre, pre.length⟩ ⟨Nat.le_refl _, hp⟩ n b' he
  simp only [List.take_length, List.drop_eq_nil_of_le (Nat.le_add_right _ _), List.append_nil] at hw
  have hl : w.length = n := by
    rw [hw] at hn
    simp only [List.length_append] at hn
    omega
  refine ⟨w, hl, by rw [hw, hl], fun pre2 h2 => ?_⟩
  have := hall ⟨pre2, pre2.length⟩ ⟨Nat.le_refl _, by simp only; omega⟩ h2
  simp only [List.take_length, List.drop_eq_nil_of_le (Nat.le_add_right _ _), List.append_nil] at this
  rw [this, hl]

/-- C64, C61 for recursive types, partial: values that nest less deep than the stack (`P depth`) are encoded without
panic while there are `M` bytes of address space left, and the encoder stops.  Missing: as in C61. -/
theorem C64_encode_no_panic_partial {G : ((i : ι) → Enc (T i)) → (i : ι) → Enc (T i)} (M : Nat)
    (hM : 16 ≤ M ∧ M ≤ isizeMax) (starts : Bool) (P : Nat → (i : ι) → T i → Prop) (h0 : ∀ i v, ¬ P 0 i v)
    (hG : ∀ k e (Q : (i : ι) → T i → Prop), (∀ i, Storable M starts (T i) (Q i) (e i)) → (∀ i v, P k i v → Q i v) →
      ∀ i, ∃ Q', Storable M starts (T i) Q' (G e i) ∧ ∀ v, P (k + 1) i v → Q' v)
    (depth : Nat) (i : ι) (v : T i) (hv : P depth i v) (ca : Option CAttr) (fa : Option FAttr)
    (hf : FaFits? M starts fa) (b : Buf) (hb : b.Ok) :
    (encRec G depth i v ca fa b).1 ≠ .timeout ∧
      ((encRec G depth i v ca fa b).1 = .panic → isizeMax < (encRec G depth i v ca fa b).2.pos + M) := by
  have h : ∀ k, ∃ Q : (i : ι) → T i → Prop, (∀ i, Storable M starts (T i) (Q i) (encRec G k i)) ∧
      ∀ i v, P k i v → Q i v := by
    intro k
    induction k with
    | zero => exact ⟨fun _ _ => False, fun i => .stop, fun i v h => h0 i v h⟩
    | succ k ih =>
      obtain ⟨Q, h1, h2⟩ := ih
      have h := hG k _ Q h1 h2
      exact ⟨fun i => (h i).choose, fun i => (h i).choose_spec.1, fun i => (h i).choose_spec.2⟩
  obtain ⟨Q, h1, h2⟩ := h depth
  exact C61_no_panic_partial M hM starts _ _ (h1 i) v (h2 i v hv) ca fa hf b hb

/-- C64, C63 for recursive types, partial: encoding what was decoded gives the consumed bytes.  Missing: as in C63. -/
theorem C64_reencode_partial {G : ((i : ι) → Enc (T i)) → (i : ι) → Enc (T i)} (A : ι → Option FAttr → Prop)
    (fuel : Nat) (hF : ∀ (d : (i : ι) → Nat → Dec (T i)) e, (∀ i, Faithful (A i) (T i) (d i fuel) (e i)) →
      ∀ i, Faithful (A i) (T i) (F d i fuel) (G e i))
    (depth : Nat) (i : ι) (ca : Option CAttr) (fa : Option FAttr) (hA : A i fa) (pre rest : List Byte)
    (hs : pre.length + rest.length ≤ isizeMax) (v : T i) (b' : Buf)
    (hd : decRec F depth i fuel ca fa ⟨pre ++ rest, pre.length⟩ = (.ok v, b')) :
    ∃ w suf, rest = w ++ suf ∧ b' = ⟨pre ++ rest, pre.length + w.length⟩ ∧
      Appends (encRec G depth i v ca fa) w := by
  have h : ∀ k i, Faithful (A i) (T i) (decRec F k i fuel) (encRec G k i) := by
    intro k
    induction k with
    | zero => exact fun i => .stop
    | succ k ih => exact hF _ _ ih
  exact C63_reencode_partial _ _ _ (h depth i) ca fa hA pre rest hs v b' hd

/-! ## Trees -/

/-- Field values of the recursive examples. -/
inductive TreeVal where
  | num (n : Nat)
  | kids (l : List (List TreeVal))

def TreeVal.asNum : TreeVal → Option Nat
  | .num n => some n
  | .kids _ => none

def TreeVal.asKids : TreeVal → Option (List (List TreeVal))
  | .num _ => none
  | .kids l => some l

/-- `value: u8` -/
def valueField : Field TreeVal := ⟨{}, fun ca fa => do
    let a ← decInt ⟨1, false⟩ ca fa
    return .num a,
  fun v ca fa => encOption (encInt ⟨1, false⟩) v.asNum ca fa, .num 0, .num 0⟩

/-- `kids: Vec<..>` with modifiers `a`. -/
def kidsField (a : FieldAttrs TreeVal) (n : Nat) (d : Dec (List TreeVal)) (e : Enc (List TreeVal)) : Field TreeVal :=
  ⟨a, fun ca fa => do
    let l ← decVec n d ca fa
    return .kids l,
  fun v ca fa => encOption (encVec e) v.asKids ca fa, .kids [], .kids []⟩

/-- The encoder that is not used by a decoder. -/
def noEnc : Enc (List TreeVal) := fun _ _ _ => timeout

/-- `struct Tree { value: u8, kids: Vec<Tree> }`, from the codec of the elements. -/
def treeStruct (n : Nat) (d : Dec (List TreeVal)) (e : Enc (List TreeVal)) : StructDef TreeVal :=
  { fields := [valueField, kidsField {} n d e] }

def treeF (d : Unit → Nat → Dec (List TreeVal)) (_ : Unit) (n : Nat) : Dec (List TreeVal) :=
  decStruct (treeStruct n (d () n) noEnc)

/-- `struct Node { n: u8, #[jbytes(count = "n")] kids: Vec<Node> }` -/
def nodeF (d : Unit → Nat → Dec (List TreeVal)) (_ : Unit) (n : Nat) : Dec (List TreeVal) :=
  decStruct { fields := [valueField, kidsField { isUse := true, count := some fun env =>
    match env.fields with | [.num n] => n | _ => 0 } n (d () n) noEnc] }

/-- `struct Nest { kids: Vec<Nest> }` -/
def nestF (d : Unit → Nat → Dec (List TreeVal)) (_ : Unit) (n : Nat) : Dec (List TreeVal) :=
  decStruct { fields := [kidsField {} n (d () n) noEnc] }

/-- `struct Forever { #[jbytes(count = 1)] kids: Vec<Forever> }` -/
def foreverF (d : Unit → Nat → Dec (List TreeVal)) (_ : Unit) (n : Nat) : Dec (List TreeVal) :=
  decStruct { fields := [kidsField { isUse := true, count := some fun _ => 1 } n (d () n) noEnc] }

theorem attrsOk_plain' (L : Limits) : AttrsOk L ({} : FieldAttrs V) := by
  refine ⟨rfl, fun _ => rfl, ?_, fun _ => rfl, ?_⟩
  · intro _ e env h
    cases h
  · intro o env
    constructor <;> simp [FieldAttrs.modifiers]

theorem value_derivable (L : Limits) {Γ : (α : Type) → (Nat → Dec α) → Prop} :
    DerivableIn L Γ TreeVal (fun _ => valueField.dec) :=
  .inject TreeVal.num (.int ⟨1, false⟩ fun _ => .inr (by decide))

theorem tree_guarded (d : Unit → Nat → Dec (List TreeVal)) (i : Unit) :
    Guarded strict (Among d) (List TreeVal) (treeF d i) := by
  refine Guarded.struct (fun n => treeStruct n (d () n) noEnc) false (fun _ => rfl)
    (fun _ => rfl) (.wired _ [fun _ => valueField.dec, fun n => (kidsField {} n (d () n) noEnc).dec] ?_ ?_)
  · intro e he
    simp only [List.mem_cons, List.not_mem_nil, or_false] at he
    rcases he with rfl | rfl
    · exact value_derivable _
    · exact .inject TreeVal.kids (.var (.vec (.var (.mk ()))))
  · intro n f hf
    simp only [treeStruct, List.mem_cons, List.not_mem_nil, or_false] at hf
    rcases hf with rfl | rfl
    · exact ⟨attrsOk_plain' _, fun _ => valueField.dec, by simp, rfl⟩
    · exact ⟨attrsOk_plain' _, fun n => (kidsField {} n (d () n) noEnc).dec, by simp, rfl⟩

theorem tree_derivable (d : Unit → Nat → Dec (List TreeVal)) (i : Unit) :
    DerivableIn strict (Among d) (List TreeVal) (treeF d i) := by
  refine DerivableIn.struct (fun n => treeStruct n (d () n) noEnc)
    [fun _ => valueField.dec, fun n => (kidsField {} n (d () n) noEnc).dec] ?_ (fun _ => rfl) ?_
  · intro e he
    simp only [List.mem_cons, List.not_mem_nil, or_false] at he
    rcases he with rfl | rfl
    · exact value_derivable _
    · exact .inject TreeVal.kids (.vec (.var (.mk ())))
  · intro n f hf
    simp only [treeStruct, List.mem_cons, List.not_mem_nil, or_false] at hf
    rcases hf with rfl | rfl
    · exact ⟨attrsOk_plain' _, fun _ => valueField.dec, by simp, rfl⟩
    · exact ⟨attrsOk_plain' _, fun n => (kidsField {} n (d () n) noEnc).dec, by simp, rfl⟩

theorem node_guarded (d : Unit → Nat → Dec (List TreeVal)) (i : Unit) :
    Guarded { noOffset := true, narrow := true, prefixes := true } (Among d) (List TreeVal) (nodeF d i) := by
  refine Guarded.struct (fun n => { fields := [valueField, kidsField _ n (d () n) noEnc] }) false (fun _ => rfl)
    (fun _ => rfl) (.headed (fun _ => []) (fun _ => valueField) (fun n => [kidsField _ n (d () n) noEnc])
      [fun _ => valueField.dec] [fun n => (kidsField {} n (d () n) noEnc).dec] ?_ ?_ ?_ ?_ ?_ ?_)
  · intro e he
    simp only [List.mem_cons, List.not_mem_nil, or_false] at he
    subst he
    exact value_derivable _
  · intro e he
    simp only [List.mem_cons, List.not_mem_nil, or_false] at he
    subst he
    exact .inject TreeVal.kids (.vec (.var (.mk ())))
  · intro n g hg
    cases hg
  · intro n
    exact ⟨attrsOk_plain' _, fun _ => valueField.dec, by simp, rfl⟩
  · intro n
    refine ⟨(fun h => nomatch h), ⟨rfl, rfl, rfl, rfl, rfl⟩, fun ca fa hp => ?_⟩
    rcases hp with ⟨_, rfl⟩ | ⟨h, _⟩
    · exact (eats_decInt (.mk 1 false (.inl rfl)) ca (fun _ h => by cases h)).map
        (Good.decInt (p := false) (t := false) (N := 0) _ _ _ fun h => nomatch h).1
    · cases h
  · intro n g hg
    simp only [List.mem_cons, List.not_mem_nil, or_false] at hg
    subst hg
    refine ⟨⟨rfl, fun _ => rfl, ?_, (fun h => nomatch h), ?_⟩, fun n => (kidsField {} n (d () n) noEnc).dec, by simp, rfl⟩
    · intro _ e env h
      cases h
    · intro o env
      constructor <;> simp [FieldAttrs.modifiers, kidsField]

/-- Whatever the input, `Tree` and `Node` are decoded to a value or an error, with at most one call more inside one
another than there are bytes. -/
example (data : List Byte) (h : data.length ≤ isizeMax) (F) (hF : F = treeF ∨ F = nodeF) :
    (∃ v, (decRec F (data.length + 1) () (data.length + 1) none none ⟨data, 0⟩).1 = .ok v) ∨
    ∃ e, (decRec F (data.length + 1) () (data.length + 1) none none ⟨data, 0⟩).1 = .err e := by
  rcases hF with rfl | rfl
  · exact C64_total_partial strict rfl rfl rfl tree_guarded _ _ () none none (FaOk?.none _) ⟨data, 0⟩
      ⟨Nat.zero_le _, h⟩ (Nat.lt_succ_self _) (Nat.lt_succ_self _)
  · exact C64_total_partial { noOffset := true, narrow := true, prefixes := true } rfl rfl rfl node_guarded _ _ ()
      none none (FaOk?.none _) ⟨data, 0⟩ ⟨Nat.zero_le _, h⟩ (Nat.lt_succ_self _) (Nat.lt_succ_self _)

unseal usizeMod isizeMax in
example : decRec treeF 9 () 9 none none ⟨[7, 2, 8, 0, 9, 1, 10, 0, 99], 0⟩ =
    (.ok [.num 7, .kids [[.num 8, .kids []], [.num 9, .kids [[.num 10, .kids []]]]]],
      ⟨[7, 2, 8, 0, 9, 1, 10, 0, 99], 8⟩) := by rfl

unseal usizeMod isizeMax in
/-- `C64_extension` for the tree above. -/
example (suf : List Byte) (h : ([7, 2, 8, 0, 9, 1, 10, 0] ++ suf).length ≤ isizeMax) :
    decRec treeF 9 () 9 none none ⟨[7, 2, 8, 0, 9, 1, 10, 0] ++ suf, 0⟩ =
      (.ok [.num 7, .kids [[.num 8, .kids []], [.num 9, .kids [[.num 10, .kids []]]]]],
        ⟨[7, 2, 8, 0, 9, 1, 10, 0] ++ suf, 8⟩) :=
  C64_extension (T := fun _ : Unit => List TreeVal) strict rfl tree_derivable 9 9 () none none
    (FaOk?.none _) [7, 2, 8, 0, 9, 1, 10, 0] suf 0 8 _ (by decide +kernel) h rfl

/-- When the decoder of the elements runs out of stack, so does that of a `Nest` with one element. -/
theorem nest_timeout (d : Unit → Nat → Dec (List TreeVal)) (n : Nat) (ca : Option CAttr) (fa : Option FAttr)
    (b b1 : Buf) (h : takeU8 b = (.ok 1, b1)) (ht : (d () n none none b1).1 = .timeout) :
    (nestF d () n ca fa b).1 = .timeout := by
  rcases hd : d () n none none b1 with ⟨o, b2⟩
  rw [hd] at ht
  simp only at ht
  subst ht
  simp [nestF, decStruct, decFields, FieldAttrs.toCode, decField, skipOffset, decPlain, decCond, kidsField, decVec,
    decCounted, getCount, repeatM, bind_apply, pure_apply, getPos_apply, h, hd]

/-- C64, the bound is attained: on `R` bytes of value 1 the calls for `Nest` nest deeper than `R`, so no fixed stack
is enough for all inputs. -/
theorem C64_depth_attained (R fuel : Nat) (hR : R ≤ isizeMax) :
    (decRec nestF R () fuel none none ⟨List.replicate R 1, 0⟩).1 = .timeout := by
  have key : ∀ k j ca fa, j + k = R → (decRec nestF k () fuel ca fa ⟨List.replicate R 1, j⟩).1 = .timeout := by
    intro k
    induction k with
    | zero => intro j ca fa _; rfl
    | succ k ih =>
      intro j ca fa h
      refine nest_timeout _ _ _ _ _ ⟨List.replicate R 1, j + 1⟩ ?_ (ih (j + 1) none none (by omega))
      have hok : (⟨List.replicate R 1, j⟩ : Buf).Ok := ⟨by simp; omega, by simpa using hR⟩
      rw [takeU8_apply _ hok, dif_pos (by simp; omega)]
      simp
  exact key R 0 none none (by omega)

/-- C64 fails: with a constant count the decoder calls itself for ever, without looking at the input. -/
theorem C64_violated (depth fuel : Nat) (ca : Option CAttr) (fa : Option FAttr) (b : Buf) :
    (decRec foreverF depth () fuel ca fa b).1 = .timeout := by
  induction depth generalizing ca fa b with
  | zero => rfl
  | succ k ih =>
    have h := ih none (some { count := some 1 }) b
    rcases hd : decRec foreverF k () fuel none (some { count := some 1 }) b with ⟨o, b2⟩
    rw [hd] at h
    simp only at h
    subst h
    simp [decRec, foreverF, decStruct, decFields, FieldAttrs.toCode, FieldAttrs.anySet, FieldAttrs.modifiers, orderCode,
      decField, skipOffset, decPlain, decCond, kidsField, decVec, decCounted, getCount, repeatM, bind_apply, pure_apply,
      getPos_apply, hd]

/-! ## Encoding trees, and back -/

/-- The encoder of `Tree`. -/
def treeG (e : Unit → Enc (List TreeVal)) (_ : Unit) : Enc (List TreeVal) :=
  encStruct (treeStruct 0 (fun _ _ => timeout) (e ()))

theorem tree_encodable (e : Unit → Enc (List TreeVal)) (h : ∀ i, Encodable true (List TreeVal) (e i)) (i : Unit) :
    Encodable true (List TreeVal) (treeG e i) := by
  refine Encodable.struct _ rfl ?_ ?_
  · intro f hf
    simp only [treeStruct, List.mem_cons, List.not_mem_nil, or_false] at hf
    rcases hf with rfl | rfl <;> exact encOk_plain _
  · intro f hf
    simp only [treeStruct, List.mem_cons, List.not_mem_nil, or_false] at hf
    rcases hf with rfl | rfl
    · exact .project _ (.int _)
    · exact .project _ (.vec (h ()))

theorem treeF_eq (d : Unit → Nat → Dec (List TreeVal)) (i : Unit) (n : Nat) (e : Enc (List TreeVal)) :
    treeF d i n = decStruct (treeStruct n (d () n) e) := by
  funext ca fa
  simp [treeF, decStruct, treeStruct, decFields, decField, decPlain, decCond, kidsField]

theorem treeG_eq (e : Unit → Enc (List TreeVal)) (i : Unit) (n : Nat) (d : Dec (List TreeVal)) :
    treeG e i = encStruct (treeStruct n d (e ())) := by
  funext v ca fa
  rcases v with _ | ⟨a, _ | ⟨b, _ | ⟨c, l⟩⟩⟩ <;> rfl

theorem tree_faithful (fuel : Nat) (d : Unit → Nat → Dec (List TreeVal)) (e : Unit → Enc (List TreeVal))
    (h : ∀ i : Unit, Faithful (fun _ => True) (List TreeVal) (d i fuel) (e i)) (i : Unit) :
    Faithful (fun _ => True) (List TreeVal) (treeF d i fuel) (treeG e i) := by
  rw [treeF_eq d i fuel (e ()), treeG_eq e i fuel (d () fuel)]
  refine Faithful.struct _ Given rfl rfl (fun h => by cases h) ?_ ?_ ?_
  · intro f hf
    simp only [treeStruct, List.mem_cons, List.not_mem_nil, or_false] at hf
    rcases hf with rfl | rfl <;> exact ⟨rfl, rfl, rfl, rfl, rfl, rfl, rfl, rfl, .inr rfl⟩
  · intro f hf
    simp only [treeStruct, List.mem_cons, List.not_mem_nil, or_false] at hf
    rcases hf with rfl | rfl <;> exact passes_given rfl
  · intro f hf
    simp only [treeStruct, List.mem_cons, List.not_mem_nil, or_false] at hf
    rcases hf with rfl | rfl
    · exact .inject TreeVal.num _ (fun _ => rfl) (.int _ (.mk 1 false (by omega)) (Given.all fun _ _ => rfl))
    · exact .inject TreeVal.kids _ (fun _ => rfl) (.vec fuel (Given.all fun _ _ => ⟨rfl, .inl rfl⟩)
        ((h ()).mono fun _ _ => trivial))

/-- A tree of height at most `k` and its bytes: the value, the number of children, the children. -/
inductive TreeWire : Nat → List TreeVal → List Byte → Prop
  | node (k x : Nat) (ks : List (List TreeVal)) (img : List TreeVal → List Byte) : x < 256 → ks.length < 256 →
      (∀ t ∈ ks, TreeWire k t (img t)) →
      TreeWire (k + 1) [.num x, .kids ks] (UInt8.ofNat x :: UInt8.ofNat ks.length :: ks.flatMap img)

theorem TreeWire.mono {k k' : Nat} {v : List TreeVal} {w : List Byte} (h : TreeWire k v w) (hk : k ≤ k') :
    TreeWire k' v w := by
  induction h generalizing k' with
  | node k x ks img hx hl _ ih =>
    cases k' with
    | zero => omega
    | succ k' => exact .node k' x ks img hx hl fun t ht => ih t ht (by omega)

/-- C64, C43 for trees: every tree round trips, with a stack as deep as the tree is high. -/
theorem C64_tree_roundtrip (depth fuel : Nat) (v : List TreeVal) (w : List Byte) (h : TreeWire depth v w)
    (ca ca' : Option CAttr) (fa fa' : Option FAttr) (hf : StartsWord fa) (suf : List Byte) :
    Appends (encRec treeG depth () v ca fa) w ∧ Reads (decRec treeF depth () fuel ca' fa') v w suf := by
  induction h generalizing ca ca' fa fa' suf with
  | node k x ks img hx hl _ ih =>
    have hv := C29_vec_roundtrip (encRec treeG k ()) (decRec treeF k () fuel) none none fuel img ks
      (fun t ht => (ih t ht none none none none StartsWord.none []).1)
      (fun t ht suf => (ih t ht none none none none StartsWord.none suf).2) rfl hl
    have h1 : ∀ suf, SegRT [valueField] none none { vars := localVars [] ca } { vars := localVars [] ca' } [.num x]
        [UInt8.ofNat x] suf := by
      intro suf
      rw [← toBytes_one .be]
      exact C43_field_segment (C43_field_plain valueField none none _ _ (.num x) _ suf
        ⟨rfl, rfl, rfl, rfl, rfl, rfl⟩ rfl (by intro e h; cases h) (by intro e h; cases h) rfl
        (int_writes ⟨1, false⟩ (.mk _ _ (by decide)) x none none rfl rfl)
        (fun _ => (int_reads ⟨1, false⟩ (.mk _ _ (by decide)) x none none suf rfl rfl hx).map TreeVal.num)
        (by intro c h; cases h) rfl (by intro c h; cases h))
    have h2 : ∀ suf, SegRT [kidsField {} fuel (decRec treeF k () fuel) (encRec treeG k ())] none none
        { vars := localVars [] ca, fields := [.num x] } { vars := localVars [] ca', fields := [.num x] } [.kids ks]
        (UInt8.ofNat ks.length :: ks.flatMap img) suf := fun suf =>
      C43_field_segment (C43_field_plain (kidsField {} fuel (decRec treeF k () fuel) (encRec treeG k ())) none none _ _
        (.kids ks) (UInt8.ofNat ks.length :: ks.flatMap img) suf
        ⟨rfl, rfl, rfl, rfl, rfl, rfl⟩ rfl (by intro e h; cases h) (by intro e h; cases h) rfl
        hv.1.writes (fun _ => (hv.2 suf).map TreeVal.kids)
        (by intro c h; cases h) rfl (by intro c h; cases h))
    have h := C43_struct_roundtrip (treeStruct fuel (decRec treeF k () fuel) (encRec treeG k ())) rfl rfl
      (by intro h; cases h) ca ca' fa fa' [.num x, .kids ks] _ suf
      (Segments.cons (fs := [valueField]) (vs := [.num x]) (h1 _) (Segments.cons (vs := [TreeVal.kids ks]) (h2 _)
        (Segments.nil _ _ _ _)))
    rw [← treeG_eq (encRec treeG k) (), ← treeF_eq (decRec treeF k) ()] at h
    simp only [List.append_nil, List.singleton_append] at h
    refine ⟨fun pre hp => ?_, h.2⟩
    obtain ⟨n, hn⟩ := h.1 pre hp
    have hc := C47_count_partial _ (tree_encodable _ (fun i => encRec_encodable tree_encodable k i) ()) _ ca fa hf pre
      (by omega) n _ hn
    rw [List.length_append] at hc
    have : n = _ := Nat.add_left_cancel hc
    rw [← this] at hn ⊢
    exact hn

/-- C64 on a tree of height three. -/
example (pre suf : List Byte) (h : pre.length + 8 + suf.length ≤ isizeMax) :
    encRec treeG 3 () [.num 7, .kids [[.num 8, .kids []], [.num 9, .kids [[.num 10, .kids []]]]]] none none
      ⟨pre, pre.length⟩ = (.ok 8, ⟨pre ++ [7, 2, 8, 0, 9, 1, 10, 0], pre.length + 8⟩) ∧
    decRec treeF 3 () 0 none none ⟨pre ++ [7, 2, 8, 0, 9, 1, 10, 0] ++ suf, pre.length⟩ =
      (.ok [.num 7, .kids [[.num 8, .kids []], [.num 9, .kids [[.num 10, .kids []]]]]],
        ⟨pre ++ [7, 2, 8, 0, 9, 1, 10, 0] ++ suf, pre.length + 8⟩) := by
  have leaf : ∀ k x, x < 256 → TreeWire (k + 1) [.num x, .kids []] [UInt8.ofNat x, 0] := fun k x hx =>
    .node k x [] (fun _ => []) hx (by decide) (fun _ h => by cases h)
  have mid : TreeWire 2 [.num 9, .kids [[.num 10, .kids []]]] [9, 1, 10, 0] :=
    .node 1 9 _ (fun _ => [10, 0]) (by decide) (by decide) (fun t ht => by
      rw [List.mem_singleton] at ht
      subst ht
      exact leaf 0 10 (by decide))
  have top : TreeWire 3 [.num 7, .kids [[.num 8, .kids []], [.num 9, .kids [[.num 10, .kids []]]]]]
      [7, 2, 8, 0, 9, 1, 10, 0] :=
    .node 2 7 _ (fun t => match t with | [.num 8, _] => [8, 0] | _ => [9, 1, 10, 0]) (by decide) (by decide)
      (fun t ht => by
        simp only [List.mem_cons, List.not_mem_nil, or_false] at ht
        rcases ht with rfl | rfl
        · exact leaf 1 8 (by decide)
        · exact mid)
  have r := C64_tree_roundtrip 3 0 _ _ top none none none none StartsWord.none suf
  have r1 := r.1 pre (by simp; omega)
  have r2 := r.2 pre (by simp; omega)
  simp only [List.append_assoc]
  exact ⟨r1, r2⟩

/-- C64, what is left of the input when a tree was decoded: encoding it gives the consumed bytes. -/
example (depth : Nat) (rest : List Byte) (hs : rest.length ≤ isizeMax) (v : List TreeVal) (b' : Buf)
    (hd : decRec treeF depth () 0 none none ⟨rest, 0⟩ = (.ok v, b')) :
    ∃ w suf, rest = w ++ suf ∧ b' = ⟨rest, w.length⟩ ∧ Appends (encRec treeG depth () v none none) w := by
  have := C64_reencode_partial (T := fun _ : Unit => List TreeVal) (F := treeF) (G := treeG) (fun _ _ => True) 0
    (fun d e h i => tree_faithful 0 d e h i) depth () none none trivial [] rest (by simpa using hs) v b' hd
  simpa using this

/-- The tree is at most `k` levels high. -/
def treeHeight : Nat → List TreeVal → Prop
  | 0, _ => False
  | k + 1, v => ∀ l, .kids l ∈ v → ∀ t ∈ l, treeHeight k t

/-- Of a field value, what there is to require: the elements of the `Vec` can be stored. -/
def treeFits (Q : List TreeVal → Prop) (f : Field TreeVal) (v : TreeVal) : Prop :=
  match f.noneV with
  | .num _ => ∀ a, v.asNum = some a → True
  | .kids _ => ∀ a, v.asKids = some a → ∀ t ∈ a, Q t

/-- C64, no tree makes the encoder panic while there are 16 bytes left of the address space. -/
example (depth : Nat) (v : List TreeVal) (hv : treeHeight depth v) (b : Buf) (hb : b.Ok) :
    (encRec treeG depth () v none none b).1 ≠ .timeout ∧
      ((encRec treeG depth () v none none b).1 = .panic →
        isizeMax < (encRec treeG depth () v none none b).2.pos + 16) := by
  refine C64_encode_no_panic_partial (T := fun _ : Unit => List TreeVal) 16
    ⟨Nat.le_refl _, by rw [isizeMax_def]; decide⟩ true (fun k _ v => treeHeight k v) (fun _ _ h => h) ?_ depth () v hv
    none none (fun _ h => by cases h) b hb
  intro k e Q he hQ i
  refine ⟨_, Storable.struct _ (treeFits (Q ())) rfl ?_ ?_, ?_⟩
  · intro f hf
    simp only [treeStruct, List.mem_cons, List.not_mem_nil, or_false] at hf
    rcases hf with rfl | rfl <;> exact attrsFit_plain _ _
  · intro f hf
    simp only [treeStruct, List.mem_cons, List.not_mem_nil, or_false] at hf
    rcases hf with rfl | rfl
    · exact .project TreeVal.asNum (.int _ (.inl rfl))
    · exact .project TreeVal.asKids (.vec (he ()))
  · intro v hv x hx
    have hm := (List.of_mem_zip hx).1
    have hv' : treeFits (Q ()) x.1 x.2 := by
      simp only [treeStruct, List.mem_cons, List.not_mem_nil, or_false] at hm
      rcases hm with h | h
      · rw [h]
        exact fun _ _ => trivial
      · rw [h]
        intro l hl t ht
        refine hQ () t (hv l ?_ t ht)
        have := (List.of_mem_zip hx).2
        cases hx2 : x.2 with
        | num n => rw [hx2] at hl; cases hl
        | kids l' =>
          rw [hx2] at hl this
          cases hl
          exact this
    simp only [treeStruct, List.mem_cons, List.not_mem_nil, or_false] at hm
    refine ⟨hv', ?_, ?_⟩
    · intro g env h
      rcases hm with h' | h' <;> rw [h'] at h <;> cases h
    · intro ps h
      rcases hm with h' | h' <;> rw [h'] at h <;> cases h

/-- C64 on the encoder of trees. -/
example (depth : Nat) (v : List TreeVal) (n : Nat) (b' : Buf)
    (he : encRec treeG depth () v none none ⟨[1, 2], 2⟩ = (.ok n, b')) :
    ∃ w, w.length = n ∧ b' = ⟨[1, 2] ++ w, 2 + n⟩ ∧ Appends (encRec treeG depth () v none none) w :=
  C64_encode_partial (T := fun _ : Unit => List TreeVal) tree_encodable depth () v none none StartsWord.none [1, 2]
    (by rw [isizeMax_def]; decide) n b' he

end JBytes
