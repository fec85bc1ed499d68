import Verif.PropInt
/-!
# Bit-field groups: C24, C25

A run of members sharing one word: on encode the first is marked `bits_start` and the others complete the word
just written; on decode every member but the last is marked `untake`
(tests/test_modifier_bits.rs:7-9, 33-37; derive/src/jbytes/decode.rs:53-68, encode.rs:46-57).
-/

namespace JBytes
open M

/-- One member of a bit-field group: its modifiers and its value. -/
structure BitMember where
  fr : FAttr
  /-- trailing zeros of the mask -/
  t : Nat
  /-- the mask is `2^t * (2q+1)` -/
  q : Nat
  v : Nat

/-- The mask; every non-zero number has this form. -/
def BitMember.mask (m : BitMember) : Nat := 2 ^ m.t * (2 * m.q + 1)

/-- The member at its place in the word. -/
def BitMember.placed (m : BitMember) : Nat := m.v * 2 ^ m.t

/-- The modifiers are `bits = mask` and no `length`, in byte order `o`; the mask lies inside the word. -/
def BitMember.Good (k : IntKind) (ca : Option CAttr) (o : ByteOrder) (m : BitMember) : Prop :=
  m.fr.bits = some m.mask ∧ m.fr.length = none ∧ effectiveOrder ca (some m.fr) = o ∧ m.mask < 256 ^ k.size

/-- The value fits under the mask. -/
def BitMember.Fits (m : BitMember) : Prop := m.placed &&& m.mask = m.placed

/-- The generated encoder of the run: one `encode_inner` per member, counts added
(derive/src/jbytes/encode.rs:46-57). -/
def encGroup (k : IntKind) (ca : Option CAttr) : List BitMember → M Nat
  | [] => return 0
  | m :: ms => do
    let n ← encInt k m.v ca (some m.fr)
    let r ← encGroup k ca ms
    return n + r

/-- The generated decoder of the run: `untake` on all members but the last
(derive/src/jbytes/decode.rs:53-68). -/
def decGroup (k : IntKind) (ca : Option CAttr) : List FAttr → M (List Nat)
  | [] => return []
  | [fr] => do
    let v ← decInt k ca (some fr)
    return [v]
  | fr :: frs => do
    let p ← getPos
    let v ← decInt k ca (some fr)
    setPos p
    let vs ← decGroup k ca frs
    return v :: vs

/-- Bitwise or of the members at their places. -/
def orAll (f : BitMember → Nat) : List BitMember → Nat
  | [] => 0
  | m :: ms => f m ||| orAll f ms

theorem encBits_start (k : IntKind) (hu : k.signed = false) (ca : Option CAttr) (o : ByteOrder) (m : BitMember)
    (hg : m.Good k ca o) (hs : m.fr.bitsStart = true) (hv : m.v < 256 ^ k.size) :
    encInt k m.v ca (some m.fr) = pushScalar k.scalar (m.placed % 256 ^ k.size) o := by
  obtain ⟨hb, hl, ho, hm⟩ := hg
  have hm' : 2 ^ m.t * (2 * m.q + 1) < modulus k.size := hm
  have hshl := bitsShl_eq k m.t m.q (8 * k.size) m.v (shift_lt hm') hm' (.inl hu) hv
  unfold encInt encBits
  rw [getByteorder_eq, ho]
  simp only [Option.bind_some, hb, hl, hs, if_true, fromU64_eq]
  rw [show m.mask % modulus k.size = 2 ^ m.t * (2 * m.q + 1) from Nat.mod_eq_of_lt hm', hshl]
  rfl

theorem or_lt_256 {a b n : Nat} (ha : a < 256 ^ n) (hb : b < 256 ^ n) : a ||| b < 256 ^ n := by
  rw [show (256 : Nat) = 2 ^ 8 from rfl, ← Nat.pow_mul] at *
  exact Nat.or_lt_two_pow ha hb

/-- C25, what the code does: a later member, fitting or not, ors its shifted value (cut to the word) into the
word that was last written; nothing else of the buffer changes. -/
theorem C25_word_exact (k : IntKind) (hk : k.Valid) (h8 : k.size ≤ 8) (hu : k.signed = false)
    (ca : Option CAttr) (o : ByteOrder) (m : BitMember) (hg : m.Good k ca o) (hs : m.fr.bitsStart = false)
    (hv : m.v < 256 ^ k.size) (pre : List Byte) (w : Nat) (hw : w < 256 ^ k.size)
    (hsz : pre.length + k.size ≤ isizeMax) :
    encInt k m.v ca (some m.fr) ⟨pre ++ toBytes o k.size w, pre.length + k.size⟩ =
      (.ok k.size, ⟨pre ++ toBytes o k.size (w ||| m.placed % 256 ^ k.size), pre.length + k.size⟩) := by
  obtain ⟨hb, hl, ho, hm⟩ := hg
  have hm' : 2 ^ m.t * (2 * m.q + 1) < modulus k.size := hm
  have hshl := bitsShl_eq k m.t m.q (8 * k.size) m.v (shift_lt hm') hm' (.inl hu) hv
  have hread := Reads.uint o k.size w [] h8 hw pre (by simpa using hsz)
  simp only [List.append_nil, toBytes_length] at hread
  unfold encInt encBits
  rw [getByteorder_eq, ho]
  simp only [Option.bind_some, hb, hl, hs, fromU64_eq]
  rw [show m.mask % modulus k.size = 2 ^ m.t * (2 * m.q + 1) from Nat.mod_eq_of_lt hm', hshl]
  simp only [Bool.false_eq_true, if_false, bind_apply, getPos, setPos, wsub_add, hread, pure_apply]
  rw [show w % modulus k.size = w from Nat.mod_eq_of_lt hw, pushScalar_eq, scalar_size hk,
    push_apply _ _ (by simpa using hsz) (.inr (by simp)), writeAt_inside _ _ _ (by simp)]
  simp only [toBytes_length]
  rw [Nat.or_comm, List.take_left' rfl, List.drop_eq_nil_of_le (by simp), List.append_nil]
  rfl

theorem Fits.lt {k : IntKind} {ca : Option CAttr} {o : ByteOrder} {m : BitMember} (hg : m.Good k ca o)
    (hf : m.Fits) : m.placed < 256 ^ k.size ∧ m.v < 256 ^ k.size := by
  have h1 : m.placed ≤ m.mask := by
    rw [← show m.placed &&& m.mask = m.placed from hf]
    exact Nat.and_le_right
  have h2 : m.v ≤ m.placed := Nat.le_mul_of_pos_right _ (Nat.pow_pos (by omega))
  have := hg.2.2.2
  omega

/-- C25, the part that holds: a member that fits its mask leaves every disjoint part `other` of the word as it
was.  Missing from the full statement: values that do not fit (`C25_violated`). -/
theorem C25_neighbours_partial (k : IntKind) (hk : k.Valid) (h8 : k.size ≤ 8) (hu : k.signed = false)
    (ca : Option CAttr) (o : ByteOrder) (m : BitMember) (hg : m.Good k ca o) (hs : m.fr.bitsStart = false)
    (hf : m.Fits) (pre : List Byte) (w : Nat) (hw : w < 256 ^ k.size) (hsz : pre.length + k.size ≤ isizeMax) :
    ∃ w', encInt k m.v ca (some m.fr) ⟨pre ++ toBytes o k.size w, pre.length + k.size⟩ =
        (.ok k.size, ⟨pre ++ toBytes o k.size w', pre.length + k.size⟩) ∧ w' < 256 ^ k.size ∧
      ∀ other, other &&& m.mask = 0 → w' &&& other = w &&& other := by
  obtain ⟨hp, hv⟩ := Fits.lt hg hf
  refine ⟨_, C25_word_exact k hk h8 hu ca o m hg hs hv pre w hw hsz, ?_, ?_⟩
  · exact or_lt_256 hw (Nat.mod_lt _ (Nat.pow_pos (by omega)))
  · intro other ho
    rw [Nat.mod_eq_of_lt hp, Nat.and_or_distrib_right, ← show m.placed &&& m.mask = m.placed from hf,
      Nat.and_assoc, Nat.and_comm m.mask, ho]
    simp

/-- C25, exactly when it holds: the member disturbs no bit outside its mask, whatever word it is added to,
precisely when its value, shifted to its place and cut to the word, lies under the mask. -/
theorem C25_iff (k : IntKind) (hk : k.Valid) (h8 : k.size ≤ 8) (hu : k.signed = false)
    (ca : Option CAttr) (o : ByteOrder) (m : BitMember) (hg : m.Good k ca o) (hs : m.fr.bitsStart = false)
    (hv : m.v < 256 ^ k.size) (pre : List Byte) (hsz : pre.length + k.size ≤ isizeMax) :
    (∀ w, w < 256 ^ k.size → ∃ w', encInt k m.v ca (some m.fr) ⟨pre ++ toBytes o k.size w, pre.length + k.size⟩ =
        (.ok k.size, ⟨pre ++ toBytes o k.size w', pre.length + k.size⟩) ∧ w' < 256 ^ k.size ∧
      ∀ i, m.mask.testBit i = false → w'.testBit i = w.testBit i) ↔
    ∀ i, i < 8 * k.size → m.placed.testBit i = true → m.mask.testBit i = true := by
  have hpos : 0 < 256 ^ k.size := Nat.pow_pos (by omega)
  have h2 : 256 ^ k.size = 2 ^ (8 * k.size) := by
    rw [show (256 : Nat) = 2 ^ 8 from rfl, ← Nat.pow_mul]
  have hmod : ∀ i, (m.placed % 256 ^ k.size).testBit i = (decide (i < 8 * k.size) && m.placed.testBit i) := by
    intro i
    rw [h2, Nat.testBit_mod_two_pow]
  constructor
  · intro h i hi hp
    obtain ⟨w', e1, hw', hb⟩ := h 0 hpos
    have e2 := C25_word_exact k hk h8 hu ca o m hg hs hv pre 0 hpos hsz
    rw [e1] at e2
    simp only [Prod.mk.injEq, Buf.mk.injEq, List.append_cancel_left_eq, Nat.zero_or] at e2
    have e3 : w' = m.placed % 256 ^ k.size := by
      have := congrArg (fromBytes o) e2.2.1
      rwa [fromBytes_toBytes, fromBytes_toBytes, Nat.mod_eq_of_lt hw', Nat.mod_mod] at this
    cases hm : m.mask.testBit i with
    | true => rfl
    | false =>
      have := hb i hm
      rw [e3, hmod, hp, Nat.zero_testBit] at this
      simp [hi] at this
  · intro h w hw
    refine ⟨_, C25_word_exact k hk h8 hu ca o m hg hs hv pre w hw hsz, ?_, ?_⟩
    · exact or_lt_256 hw (Nat.mod_lt _ hpos)
    · intro i hm
      rw [Nat.testBit_or, hmod]
      by_cases hi : i < 8 * k.size
      · cases hp : m.placed.testBit i with
        | false => simp
        | true =>
          rw [h i hi hp] at hm
          cases hm
      · simp [hi]

/-- `0x0F = 0x2F` in a byte does not lie under its mask; `0x0F = 0x0F` does. -/
example : ∃ m : BitMember, m.Good ⟨1, false⟩ none .be ∧ m.v = 0x2F ∧
    ¬ ∀ i, i < 8 → m.placed.testBit i = true → m.mask.testBit i = true :=
  ⟨⟨{ bits := some 0x0F }, 0, 7, 0x2F⟩, ⟨rfl, rfl, rfl, by decide⟩, rfl,
    fun h => absurd (h 5 (by decide) (by decide)) (by decide)⟩

/-- C25 is violated: after `u8` members 0xF0 = 1 the member 0x0F = 0x2F turns the first into 3. -/
theorem C25_violated :
    encInt ⟨1, false⟩ 1 none (some { bits := some 0xF0, bitsStart := true }) ⟨[], 0⟩ = (.ok 1, ⟨[0x10], 1⟩) ∧
    encInt ⟨1, false⟩ 0x2F none (some { bits := some 0x0F }) ⟨[0x10], 1⟩ = (.ok 1, ⟨[0x3F], 1⟩) ∧
    decInt ⟨1, false⟩ none (some { bits := some 0xF0, bitsStart := true }) ⟨[0x3F], 0⟩
      = (.ok 3, ⟨[0x3F], 1⟩) := by decide +kernel

theorem encGroup_rest (k : IntKind) (hk : k.Valid) (h8 : k.size ≤ 8) (hu : k.signed = false)
    (ca : Option CAttr) (o : ByteOrder) (pre : List Byte) (hsz : pre.length + k.size ≤ isizeMax)
    (ms : List BitMember) : ∀ (w : Nat), w < 256 ^ k.size → (∀ m ∈ ms, m.Good k ca o ∧ m.Fits) →
    (∀ m ∈ ms, m.fr.bitsStart = false) →
    encGroup k ca ms ⟨pre ++ toBytes o k.size w, pre.length + k.size⟩ =
      (.ok (ms.length * k.size),
        ⟨pre ++ toBytes o k.size (w ||| orAll BitMember.placed ms), pre.length + k.size⟩) := by
  induction ms with
  | nil =>
    intro w _ _ _
    simp only [encGroup, orAll, Nat.or_zero, pure_apply, List.length_nil, Nat.zero_mul]
  | cons m ms ih =>
    intro w hw hg hs
    obtain ⟨hgm, hfm⟩ := hg m (by simp)
    obtain ⟨hp, hv⟩ := Fits.lt hgm hfm
    have e := C25_word_exact k hk h8 hu ca o m hgm (hs m (by simp)) hv pre w hw hsz
    rw [Nat.mod_eq_of_lt hp] at e
    have e2 := ih (w ||| m.placed) (or_lt_256 hw hp) (fun x hx => hg x (by simp [hx]))
      (fun x hx => hs x (by simp [hx]))
    simp only [encGroup, bind_apply, e, e2, pure_apply, orAll, Nat.or_assoc, List.length_cons]
    rw [Nat.add_mul, Nat.one_mul, Nat.add_comm (_ * _)]

theorem orAll_lt (f : BitMember → Nat) (n : Nat) (ms : List BitMember) (h : ∀ m ∈ ms, f m < 256 ^ n) :
    orAll f ms < 256 ^ n := by
  induction ms with
  | nil => exact Nat.pow_pos (by omega)
  | cons m ms ih => exact or_lt_256 (h m (by simp)) (ih (fun x hx => h x (by simp [hx])))

theorem orAll_disjoint (ms : List BitMember) (other : Nat) (hf : ∀ m ∈ ms, m.Fits)
    (hd : ∀ m ∈ ms, other &&& m.mask = 0) : orAll BitMember.placed ms &&& other = 0 := by
  induction ms with
  | nil => simp [orAll]
  | cons m ms ih =>
    rw [orAll, Nat.and_or_distrib_right, ih (fun x hx => hf x (by simp [hx])) (fun x hx => hd x (by simp [hx])),
      ← show m.placed &&& m.mask = m.placed from hf m (by simp), Nat.and_assoc, Nat.and_comm m.mask,
      hd m (by simp)]
    simp

theorem orAll_member (ms : List BitMember) (hf : ∀ m ∈ ms, m.Fits)
    (hd : ms.Pairwise (fun a b => a.mask &&& b.mask = 0)) :
    ∀ m ∈ ms, orAll BitMember.placed ms &&& m.mask = m.placed := by
  induction ms with
  | nil => intro m hm; simp at hm
  | cons a ms ih =>
    rw [List.pairwise_cons] at hd
    intro m hm
    rw [orAll, Nat.and_or_distrib_right]
    rcases List.mem_cons.mp hm with rfl | hm
    · rw [orAll_disjoint ms m.mask (fun x hx => hf x (by simp [hx])) hd.1, Nat.or_zero]
      exact hf m (by simp)
    · rw [ih (fun x hx => hf x (by simp [hx])) hd.2 m hm,
        ← show a.placed &&& a.mask = a.placed from hf a (by simp), Nat.and_assoc, hd.1 m hm]
      simp

theorem decInt_member (k : IntKind) (hk : k.Valid) (hu : k.signed = false) (ca : Option CAttr) (o : ByteOrder)
    (m : BitMember) (hg : m.Good k ca o) (w : Nat) (hw : w < 256 ^ k.size) (suf : List Byte) :
    Reads (decInt k ca (some m.fr)) ((w &&& m.mask) / 2 ^ m.t) (toBytes o k.size w) suf := by
  obtain ⟨hb, hl, ho, hm⟩ := hg
  intro pre hp
  have h := decInt_bits k ca m.fr m.mask m.t m.q hb (Nat.mod_eq_of_lt hm) (.inl hu)
    ⟨pre ++ (toBytes o k.size w ++ suf), pre.length⟩
  have e : decInt k ca (some { m.fr with bits := none }) = takeScalar k.scalar o :=
    ((C19_byteorder ca (some { m.fr with bits := none }) o (by rw [← ho]; rfl)).1 k 0 rfl hl).1
  have r := Reads.scalar k.scalar o w suf (by rw [scalar_size hk]; exact hw)
  rw [scalar_size hk] at r
  rw [h, e, mapM'_apply, r pre hp]
  rfl

theorem decGroup_reads (k : IntKind) (hk : k.Valid) (hu : k.signed = false) (ca : Option CAttr) (o : ByteOrder)
    (w : Nat) (hw : w < 256 ^ k.size) (suf : List Byte) (ms : List BitMember) (hne : ms ≠ [])
    (hg : ∀ m ∈ ms, m.Good k ca o) :
    Reads (decGroup k ca (ms.map (·.fr))) (ms.map fun m => (w &&& m.mask) / 2 ^ m.t)
      (toBytes o k.size w) suf := by
  induction ms with
  | nil => exact absurd rfl hne
  | cons m ms ih =>
    have hm := decInt_member k hk hu ca o m (hg m (by simp)) w hw suf
    cases ms with
    | nil => exact hm.map _
    | cons m2 ms =>
      have h2 := ih (by simp) (fun x hx => hg x (by simp [hx]))
      intro pre hp
      have e1 := hm pre hp
      have e2 := h2 pre hp
      simp only [List.map_cons] at e2 ⊢
      simp only [decGroup, bind_apply, getPos, setPos, e1, e2, pure_apply]

/-- C24: for any number of members with pairwise disjoint masks and fitting values, the first marked
`bits_start`, encoding appends one word `w` that holds every member at its mask and nothing outside the masks,
and decoding the run from it, whatever follows, returns every value and consumes the word once. -/
theorem C24_group_roundtrip (k : IntKind) (hk : k.Valid) (h8 : k.size ≤ 8) (hu : k.signed = false)
    (ca : Option CAttr) (o : ByteOrder) (m : BitMember) (ms : List BitMember)
    (hg : ∀ x ∈ m :: ms, x.Good k ca o) (hf : ∀ x ∈ m :: ms, x.Fits)
    (hstart : m.fr.bitsStart = true) (hrest : ∀ x ∈ ms, x.fr.bitsStart = false)
    (hd : (m :: ms).Pairwise (fun a b => a.mask &&& b.mask = 0)) :
    ∃ w, w < 256 ^ k.size ∧
      (∀ x ∈ m :: ms, w &&& x.mask = x.v * 2 ^ x.t) ∧
      (∀ other, (∀ x ∈ m :: ms, other &&& x.mask = 0) → w &&& other = 0) ∧
      (∀ pre : List Byte, pre.length + k.size ≤ isizeMax →
        encGroup k ca (m :: ms) ⟨pre, pre.length⟩ =
          (.ok ((m :: ms).length * k.size), ⟨pre ++ toBytes o k.size w, pre.length + k.size⟩)) ∧
      ∀ suf, Reads (decGroup k ca ((m :: ms).map (·.fr))) ((m :: ms).map (·.v)) (toBytes o k.size w) suf := by
  have hlt : orAll BitMember.placed (m :: ms) < 256 ^ k.size :=
    orAll_lt _ _ _ (fun x hx => (Fits.lt (hg x hx) (hf x hx)).1)
  have hmem := orAll_member (m :: ms) hf hd
  refine ⟨orAll BitMember.placed (m :: ms), hlt, hmem, fun other ho => orAll_disjoint _ _ hf ho, ?_, ?_⟩
  · intro pre hp
    obtain ⟨hpl, hv⟩ := Fits.lt (hg m (by simp)) (hf m (by simp))
    have e1 := encBits_start k hu ca o m (hg m (by simp)) hstart hv
    rw [Nat.mod_eq_of_lt hpl] at e1
    have a := Appends.scalar k.scalar m.placed o pre (by rw [toBytes_length, scalar_size hk]; exact hp)
    rw [toBytes_length, scalar_size hk] at a
    have e2 := encGroup_rest k hk h8 hu ca o pre hp ms m.placed hpl
      (fun x hx => ⟨hg x (by simp [hx]), hf x (by simp [hx])⟩) hrest
    simp only [encGroup, bind_apply, e1, a, e2, pure_apply, orAll, List.length_cons]
    rw [Nat.add_mul, Nat.one_mul, Nat.add_comm (_ * _)]
  · intro suf
    have r := decGroup_reads k hk hu ca o _ hlt suf (m :: ms) (by simp) hg
    have e : ((m :: ms).map fun x => (orAll BitMember.placed (m :: ms) &&& x.mask) / 2 ^ x.t)
        = (m :: ms).map (·.v) := by
      apply List.map_congr_left
      intro x hx
      rw [hmem x hx]
      exact Nat.mul_div_cancel _ (Nat.pow_pos (by omega))
    rwa [e] at r

example : encGroup ⟨2, false⟩ none
      [⟨{ bits := some 0xF000, bitsStart := true }, 12, 7, 0xA⟩, ⟨{ bits := some 0x0F00 }, 8, 7, 0xB⟩,
       ⟨{ bits := some 0x00FF }, 0, 127, 0xCD⟩] ⟨[0x99], 1⟩ = (.ok 6, ⟨[0x99, 0xAB, 0xCD], 3⟩) ∧
    decGroup ⟨2, false⟩ none [{ bits := some 0xF000, bitsStart := true }, { bits := some 0x0F00 },
      { bits := some 0x00FF }] ⟨[0x99, 0xAB, 0xCD], 1⟩ = (.ok [0xA, 0xB, 0xCD], ⟨[0x99, 0xAB, 0xCD], 3⟩) ∧
    (0xF000 : Nat) &&& 0x0F00 = 0 ∧ (0xF000 : Nat) = 2 ^ 12 * (2 * 7 + 1) := by decide +kernel

/-- Every non-zero mask has the form assumed by `BitMember`. -/
theorem mask_form (m : Nat) (h : m ≠ 0) : ∃ t q, m = 2 ^ t * (2 * q + 1) := by
  induction m using Nat.strongRecOn with
  | ind m ih =>
    rcases Nat.mod_two_eq_zero_or_one m with h2 | h2
    · obtain ⟨t, q, e⟩ := ih (m / 2) (by omega) (by omega)
      exact ⟨t + 1, q, by rw [Nat.pow_succ, Nat.mul_comm (2 ^ t), Nat.mul_assoc, ← e]; omega⟩
    · exact ⟨0, m / 2, by omega⟩

end JBytes
