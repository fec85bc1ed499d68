import Verif.Safe
import Verif.PropBytes
/-!
# Lists, arrays, tuples and options: C27 (lists), C29 - C35

The element codec is arbitrary.  `img a` is the wire image of the element `a`.
-/

namespace JBytes
open M

variable {α β : Type}

/-! ## Specification of the element count -/

/-- Number of elements stated by the type definition (`count`, else `try_count`), when there is one. -/
def statedCount (fa : Option FAttr) : Option Nat := (fa.bind (·.count)).or (fa.bind (·.tryCount))

/-- Width of an explicit count prefix. -/
def outsideWidth (fa : Option FAttr) : Option Nat := fa.bind (·.byteCountOutside)

/-- The image of the count: nothing when the count is stated, else a prefix of the chosen width (1 byte when
none is chosen). -/
def countWire (ca : Option CAttr) (fa : Option FAttr) (n : Nat) : List Byte :=
  match statedCount fa, outsideWidth fa with
  | none, none => [UInt8.ofNat n]
  | none, some k => toBytes (effectiveOrder ca fa) k n
  | some _, _ => []

/-- When a list of `n` elements can be represented: its length is the stated one, or fits the prefix.  The
combination of a stated count with an explicit prefix is excluded here (see C30). -/
def CountFits (fa : Option FAttr) (n : Nat) : Prop :=
  match statedCount fa, outsideWidth fa with
  | none, none => n < 256
  | none, some k => k ≤ 8 ∧ n < 256 ^ k
  | some c, none => n = c
  | some _, some _ => False

theorem countWire_given {ca : Option CAttr} {fr : FAttr} {c : Nat} (h : statedCount (some fr) = some c) (n : Nat) :
    countWire ca (some fr) n = [] := by
  unfold countWire
  rw [h]

theorem pushCount_appends (ca : Option CAttr) (fa : Option FAttr) (n : Nat)
    (h : outsideWidth fa = none ∨ ∃ k, outsideWidth fa = some k ∧ k ≤ 8 ∧ statedCount fa = none) :
    Appends (pushCount ca fa n) (countWire ca fa n) := by
  unfold pushCount countWire
  cases fa with
  | none => exact Appends.pushU8 _
  | some fr =>
    simp only [outsideWidth, statedCount, Option.bind_some] at h ⊢
    rw [getByteorder_eq]
    cases ho : fr.byteCountOutside with
    | some k =>
      rcases h with h | ⟨k', h, h8, hs⟩
      · simp [ho] at h
      · rw [ho] at h
        injection h with h
        subst h
        rw [hs]
        exact Appends.uint n k _ h8
    | none =>
      simp only
      cases hc : fr.count with
      | some c =>
        simp only [Option.isSome_some, if_true, Option.some_or]
        exact Appends.pure0
      | none =>
        cases ht : fr.tryCount with
        | some c =>
          simp only [Option.isSome_some, Option.isSome_none, if_true, Option.none_or]
          exact Appends.pure0
        | none => exact Appends.pushU8 _

/-- What the decoder makes of the count: `(n, none)` is "read exactly `n`", `(0, some n)` "read up to `n`". -/
def countResult (fa : Option FAttr) (n : Nat) : Nat × Option Nat :=
  if (fa.bind (·.count)).isNone && (fa.bind (·.tryCount)).isSome then (0, some n) else (n, none)

theorem getCount_reads (ca : Option CAttr) (fa : Option FAttr) (n : Nat) (suf : List Byte) (h : CountFits fa n) :
    Reads (getCount ca fa) (countResult fa n) (countWire ca fa n) suf := by
  have h8 : n < 256 → (UInt8.ofNat n).toNat = n := fun h => by rw [byte_toNat_ofNat]; omega
  unfold getCount countWire countResult
  unfold CountFits at h
  cases fa with
  | none =>
    have := (Reads.u8 (UInt8.ofNat n) suf).map fun x => (x.toNat, (none : Option Nat))
    rw [h8 h] at this
    exact this
  | some fr =>
    rw [getByteorder_eq]
    rcases fr with ⟨_, _, _, _, _, _, _, _, count, tryCount, outside, _, _, _, _⟩
    cases count with
    | some c =>
      cases outside with
      | some k => exact h.elim
      | none =>
        have hn : n = c := h
        subst hn
        exact Reads.pure _ _
    | none =>
      cases tryCount with
      | some c =>
        cases outside with
        | some k => exact h.elim
        | none =>
          have hn : n = c := h
          subst hn
          exact Reads.pure _ _
      | none =>
        cases outside with
        | some k => exact (Reads.uint _ k n suf h.1 h.2).map fun x => (x, (none : Option Nat))
        | none =>
          have := (Reads.u8 (UInt8.ofNat n) suf).map fun x => (x.toNat, (none : Option Nat))
          rw [h8 h] at this
          exact this

theorem CountFits.outside {fa : Option FAttr} {n : Nat} (h : CountFits fa n) :
    outsideWidth fa = none ∨ ∃ k, outsideWidth fa = some k ∧ k ≤ 8 ∧ statedCount fa = none := by
  unfold CountFits at h
  cases ho : outsideWidth fa with
  | none => exact .inl rfl
  | some k =>
    refine .inr ⟨k, rfl, ?_⟩
    rw [ho] at h
    cases hs : statedCount fa with
    | none => rw [hs] at h; exact ⟨h.1, rfl⟩
    | some c => rw [hs] at h; exact h.elim

/-- The part of `decVec`, `decSet` and `decEntries` after the count. -/
def countedBody (m : M α) (r : Nat × Option Nat) : M (List α) :=
  match r.2 with
  | some t => tryRepeatM m t
  | none => repeatM m r.1

theorem decCounted_eq (d : Dec α) (ca : Option CAttr) (fa : Option FAttr) :
    decCounted d ca fa = getCount ca fa >>= countedBody (d ca fa) := rfl

theorem countedBody_reads {m : M α} {img : α → List Byte} {l : List α}
    (h : ∀ a ∈ l, ∀ suf, Reads m a (img a) suf) (fa : Option FAttr) (suf : List Byte) :
    Reads (countedBody m (countResult fa l.length)) l (l.flatMap img) suf := by
  unfold countResult
  split
  · exact Reads.tryRepeatM h suf
  · exact Reads.repeatM h suf

theorem decCounted_reads {d : Dec α} {ca : Option CAttr} {fa : Option FAttr} {img : α → List Byte} {l : List α}
    (h : ∀ a ∈ l, ∀ suf, Reads (d ca fa) a (img a) suf) (hf : CountFits fa l.length) (suf : List Byte) :
    Reads (decCounted d ca fa) l (countWire ca fa l.length ++ l.flatMap img) suf := by
  rw [decCounted_eq]
  exact Reads.bind (getCount_reads ca fa _ _ hf) (countedBody_reads h fa suf)

theorem decVec_noloop (fuel : Nat) (d : Dec α) (ca : Option CAttr) (fa : Option FAttr)
    (h : fa.bind (·.loopSkipStarts) = none) : decVec fuel d ca fa = decCounted d ca fa := by
  unfold decVec
  rw [h]

theorem encVec_noloop (e : Enc α) (l : List α) (ca : Option CAttr) (fa : Option FAttr)
    (h : fa.bind (·.loopSkipStarts) = none) : encVec e l ca fa = (do
    let n ← pushCount ca fa l.length
    let m ← encAll (fun a => e a ca fa) l
    return n + m) := by
  unfold encVec
  rw [h]

/-! ## C29 -/

/-- C29 (lists): if the elements append and read back their images, the list appends its count and the images,
and reads back as itself, consuming exactly that; for every count modifier the length fits. -/
theorem C29_vec_roundtrip (e : Enc α) (d : Dec α) (ca : Option CAttr) (fa : Option FAttr) (fuel : Nat)
    (img : α → List Byte) (l : List α) (he : ∀ a ∈ l, Appends (e a ca fa) (img a))
    (hd : ∀ a ∈ l, ∀ suf, Reads (d ca fa) a (img a) suf) (hloop : fa.bind (·.loopSkipStarts) = none)
    (hf : CountFits fa l.length) :
    Appends (encVec e l ca fa) (countWire ca fa l.length ++ l.flatMap img) ∧
    ∀ suf, Reads (decVec fuel d ca fa) l (countWire ca fa l.length ++ l.flatMap img) suf := by
  rw [encVec_noloop e l ca fa hloop, decVec_noloop fuel d ca fa hloop]
  exact ⟨Appends.seq (pushCount_appends ca fa _ hf.outside) (Appends.encAll he), decCounted_reads hd hf⟩

/-- C29 (arrays): no count is written or read. -/
theorem C29_array_roundtrip (e : Enc α) (d : Dec α) (ca : Option CAttr) (fa : Option FAttr)
    (img : α → List Byte) (l : List α) (he : ∀ a ∈ l, Appends (e a ca fa) (img a))
    (hd : ∀ a ∈ l, ∀ suf, Reads (d ca fa) a (img a) suf) :
    Appends (encArray e l ca fa) (l.flatMap img) ∧
    ∀ suf, Reads (decArray l.length d ca fa) l (l.flatMap img) suf :=
  ⟨Appends.encAll he, Reads.repeatM hd⟩

/-- C29 (tuples): components with different codecs, in order. -/
theorem C29_tuple_roundtrip (ca : Option CAttr) (fa : Option FAttr) (cs : List (Enc α × Dec α × α × List Byte))
    (he : ∀ c ∈ cs, Appends (c.1 c.2.2.1 ca fa) c.2.2.2)
    (hd : ∀ c ∈ cs, ∀ suf, Reads (c.2.1 ca fa) c.2.2.1 c.2.2.2 suf) :
    Appends (encTuple (cs.map (·.1)) (cs.map (·.2.2.1)) ca fa) (cs.flatMap (·.2.2.2)) ∧
    ∀ suf, Reads (decTuple (cs.map (·.2.1)) ca fa) (cs.map (·.2.2.1)) (cs.flatMap (·.2.2.2)) suf := by
  induction cs with
  | nil => exact ⟨Appends.pure0, fun suf => Reads.pure _ _⟩
  | cons c cs ih =>
    obtain ⟨i1, i2⟩ := ih (fun c hc => he c (by simp [hc])) (fun c hc => hd c (by simp [hc]))
    simp only [List.map_cons, List.flatMap_cons]
    refine ⟨?_, fun suf => ?_⟩
    · exact Appends.seq (he c (by simp)) i1
    · exact Reads.bind (hd c (by simp) _) ((i2 suf).map _)

/-- The element used in the examples: a big-endian `u16`. -/
theorem u16_roundtrip (v : Nat) (h : v < 65536) : Appends (encInt ⟨2, false⟩ v none none) (toBE 2 v) ∧
    ∀ suf, Reads (decInt ⟨2, false⟩ none none) v (toBE 2 v) suf := by
  refine ⟨?_, fun suf => ?_⟩
  · have := (C19_byteorder none none .be rfl).1 ⟨2, false⟩ v rfl rfl
    rw [this.2]
    exact Appends.scalar .u16 v .be
  · have := (C19_byteorder none none .be rfl).1 ⟨2, false⟩ v rfl rfl
    rw [this.1]
    exact Reads.scalar .u16 .be v suf h

/-- The hypotheses of C29 are met by every list of `u16` shorter than 256. -/
example (l : List Nat) (hl : l.length < 256) (hv : ∀ v ∈ l, v < 65536) (suf : List Byte) :
    Reads (decVec 0 (decInt ⟨2, false⟩) none none) l (UInt8.ofNat l.length :: l.flatMap (toBE 2)) suf :=
  (C29_vec_roundtrip (encInt ⟨2, false⟩) (decInt ⟨2, false⟩) none none 0 (toBE 2) l
    (fun v h => (u16_roundtrip v (hv v h)).1) (fun v h => (u16_roundtrip v (hv v h)).2) rfl hl).2 suf

example : decVec 0 (decInt ⟨2, false⟩) none none ⟨[9, 2, 0, 1, 1, 2, 7], 1⟩
    = (.ok [1, 258], ⟨[9, 2, 0, 1, 1, 2, 7], 6⟩) := by decide +kernel

/-! ## C27 for lists -/

/-- C27 (lists): what happens for every length.  With a `k`-byte prefix (`k = 1` by default) the count is written
modulo `256 ^ k`, without an error; decoding returns only that many elements and leaves the others unread. -/
theorem C27_list_truncates (e : Enc α) (d : Dec α) (ca : Option CAttr) (fa : Option FAttr) (fuel k : Nat)
    (img : α → List Byte) (l : List α) (he : ∀ a ∈ l, Appends (e a ca fa) (img a))
    (hd : ∀ a ∈ l, ∀ suf, Reads (d ca fa) a (img a) suf) (hloop : fa.bind (·.loopSkipStarts) = none)
    (hs : statedCount fa = none) (hk : outsideWidth fa = some k ∧ k ≤ 8 ∨ outsideWidth fa = none ∧ k = 1) :
    ∃ w, Appends (encVec e l ca fa) (w ++ (l.drop (l.length % 256 ^ k)).flatMap img) ∧
      (∀ suf, Reads (decVec fuel d ca fa) (l.take (l.length % 256 ^ k)) w
        ((l.drop (l.length % 256 ^ k)).flatMap img ++ suf)) ∧
      (l.take (l.length % 256 ^ k) = l ↔ l.length < 256 ^ k) := by
  have hlt : l.length % 256 ^ k < 256 ^ k := Nat.mod_lt _ (Nat.pow_pos (by omega))
  have hle : l.length % 256 ^ k ≤ l.length := Nat.mod_le _ _
  have hlen : (l.take (l.length % 256 ^ k)).length = l.length % 256 ^ k := by simp; omega
  have hw : countWire ca fa l.length = countWire ca fa (l.length % 256 ^ k) := by
    unfold countWire
    rw [hs]
    rcases hk with ⟨h, _⟩ | ⟨h, rfl⟩
    · rw [h]
      exact (toBytes_mod _ _ _).symm
    · rw [h]
      simp only [Nat.pow_one]
      congr 1
      apply UInt8.toNat_inj.mp
      simp
  refine ⟨countWire ca fa (l.length % 256 ^ k) ++ (l.take (l.length % 256 ^ k)).flatMap img, ?_, fun suf => ?_, ?_⟩
  · rw [encVec_noloop e l ca fa hloop, List.append_assoc, ← List.flatMap_append, List.take_append_drop, ← hw]
    refine Appends.seq (pushCount_appends ca fa _ ?_) (Appends.encAll he)
    rcases hk with ⟨h, h8⟩ | ⟨h, _⟩
    · exact .inr ⟨k, h, h8, hs⟩
    · exact .inl h
  · rw [decVec_noloop fuel d ca fa hloop]
    have := decCounted_reads (d := d) (ca := ca) (fa := fa) (img := img) (l := l.take (l.length % 256 ^ k))
      (fun a ha => hd a (List.mem_of_mem_take ha)) (by
        unfold CountFits
        rw [hs, hlen]
        rcases hk with ⟨h, h8⟩ | ⟨h, rfl⟩
        · rw [h]
          exact ⟨h8, hlt⟩
        · rw [h]
          simpa using hlt)
    rw [hlen] at this
    exact this _
  · constructor
    · intro e
      have := congrArg List.length e
      omega
    · intro h
      rw [Nat.mod_eq_of_lt h, List.take_length]

/-- C27 fails for lists: 256 bytes encode without an error to something that decodes to the empty list. -/
theorem C27_list_violated : ∃ w b,
    encVec encBool (List.replicate 256 false) none none ⟨[], 0⟩ = (.ok 257, ⟨w, 257⟩) ∧
    decVec 0 decBool none none ⟨w, 0⟩ = (.ok [], b) ∧ b.pos = 1 :=
  ⟨0 :: List.replicate 256 0, ⟨0 :: List.replicate 256 0, 1⟩, by decide +kernel⟩

/-! ## C30 -/

/-- C30, the part that holds: unless a stated count and an explicit prefix are combined, the decoder finds the
count exactly where the encoder put it, for every length the modifiers allow.  Missing from the full statement:
the combination, for which it fails (`C30_conflict`, `C30_violated`). -/
theorem C30_counts_agree_partial (ca : Option CAttr) (fa : Option FAttr) (n : Nat)
    (hc : statedCount fa = none ∨ outsideWidth fa = none) (hk : ∀ k, outsideWidth fa = some k → k ≤ 8 ∧ n < 256 ^ k)
    (hn : statedCount fa = none → outsideWidth fa = none → n < 256) (hs : ∀ c, statedCount fa = some c → n = c) :
    ∃ w, Appends (pushCount ca fa n) w ∧
      ∀ suf, Reads (getCount ca fa) (countResult fa n) w suf := by
  have hf : CountFits fa n := by
    unfold CountFits
    cases h1 : statedCount fa with
    | none =>
      cases h2 : outsideWidth fa with
      | none => exact hn h1 h2
      | some k => exact hk k h2
    | some c =>
      cases h2 : outsideWidth fa with
      | none => exact hs c h1
      | some k => simp [h1, h2] at hc
  exact ⟨_, pushCount_appends ca fa n hf.outside, fun suf => getCount_reads ca fa n suf hf⟩

/-- C30, what happens in the remaining case: the encoder writes a `k`-byte count and the decoder reads none. -/
theorem C30_conflict (ca : Option CAttr) (fr : FAttr) (k c n : Nat) (hk : fr.byteCountOutside = some k) (h8 : k ≤ 8)
    (hc : statedCount (some fr) = some c) :
    Appends (pushCount ca (some fr) n) (toBytes (effectiveOrder ca (some fr)) k n) ∧
    ∀ b, ∃ r, getCount ca (some fr) b = (.ok r, b) := by
  constructor
  · unfold pushCount
    simp only [hk, getByteorder_eq]
    exact Appends.uint n k _ h8
  · intro b
    unfold getCount
    simp only [statedCount, Option.bind_some] at hc
    cases h1 : fr.count with
    | some c => exact ⟨(c, none), by simp only [h1]; rfl⟩
    | none =>
      cases h2 : fr.tryCount with
      | some c => exact ⟨(0, some c), by simp only [h1, h2]; rfl⟩
      | none => simp [h1, h2] at hc

/-- C30 fails: with `count = 2, byte_count_outside = 1` the list `[5, 6]` is decoded as `[2, 5]`. -/
theorem C30_violated : ∃ fa : Option FAttr, ∃ b,
    encVec (encInt ⟨1, false⟩) [5, 6] none fa ⟨[], 0⟩ = (.ok 3, ⟨[2, 5, 6], 3⟩) ∧
    decVec 0 (decInt ⟨1, false⟩) none fa ⟨[2, 5, 6], 0⟩ = (.ok [2, 5], b) ∧ b.pos = 2 :=
  ⟨some { count := some 2, byteCountOutside := some 1 }, ⟨[2, 5, 6], 2⟩, by decide +kernel⟩

/-! ## C31 -/

/-- A tried loop: the elements are the longest run from the start, cut at `n`; it ends where the element that
failed ended; an `Err` is never returned. -/
theorem tryRepeatM_spec (m : M α) : ∀ (n : Nat) (b : Buf),
    ∃ as b1, Runs m b as b1 ∧ as.length ≤ n ∧
      (as.length = n ∧ tryRepeatM m n b = (.ok as, b1) ∨
       as.length < n ∧ (∃ e b2, m b1 = (.err e, b2) ∧ tryRepeatM m n b = (.ok as, b2)) ∨
       as.length < n ∧ (∃ b2, m b1 = (.panic, b2) ∧ tryRepeatM m n b = (.panic, b2)) ∨
       as.length < n ∧ (∃ b2, m b1 = (.timeout, b2) ∧ tryRepeatM m n b = (.timeout, b2))) := by
  intro n
  induction n with
  | zero =>
    intro b
    exact ⟨[], b, .nil b, Nat.le_refl _, .inl ⟨rfl, rfl⟩⟩
  | succ n ih =>
    intro b
    have hstep : tryRepeatM m (n + 1) b = (match m b with
        | (.ok a, b1) => (match tryRepeatM m n b1 with
          | (.ok as, b2) => (.ok (a :: as), b2)
          | (.err e, b2) => (.err e, b2)
          | (.panic, b2) => (.panic, b2)
          | (.timeout, b2) => (.timeout, b2))
        | (.err _, b1) => (.ok [], b1)
        | (.panic, b1) => (.panic, b1)
        | (.timeout, b1) => (.timeout, b1)) := by
      rw [tryRepeatM]
      simp only [bind_apply, attempt_apply]
      rcases m b with ⟨o, b1⟩
      cases o with
      | ok a =>
        simp only [bind_apply]
        rcases tryRepeatM m n b1 with ⟨o2, b2⟩
        cases o2 <;> rfl
      | _ => rfl
    rw [hstep]
    rcases hm : m b with ⟨o, b1⟩
    cases o with
    | ok a =>
      obtain ⟨as, b2, hr, hl, h⟩ := ih b1
      refine ⟨a :: as, b2, .cons hm hr, by simpa using hl, ?_⟩
      rcases h with ⟨h1, h2⟩ | ⟨h1, e, b3, h2, h3⟩ | ⟨h1, b3, h2, h3⟩ | ⟨h1, b3, h2, h3⟩
      · exact .inl ⟨by simp [h1], by simp only [h2]⟩
      · exact .inr (.inl ⟨by simpa using h1, e, b3, h2, by simp only [h3]⟩)
      · exact .inr (.inr (.inl ⟨by simpa using h1, b3, h2, by simp only [h3]⟩))
      · exact .inr (.inr (.inr ⟨by simpa using h1, b3, h2, by simp only [h3]⟩))
    | err e => exact ⟨[], b, .nil b, by simp, .inr (.inl ⟨by simp, e, b1, hm, rfl⟩)⟩
    | panic => exact ⟨[], b, .nil b, by simp, .inr (.inr (.inl ⟨by simp, b1, hm, rfl⟩))⟩
    | timeout => exact ⟨[], b, .nil b, by simp, .inr (.inr (.inr ⟨by simp, b1, hm, rfl⟩))⟩

theorem decVec_try (fuel : Nat) (d : Dec α) (ca : Option CAttr) (fr : FAttr) (n : Nat) (hc : fr.count = none)
    (ht : fr.tryCount = some n) (hloop : fr.loopSkipStarts = none) :
    decVec fuel d ca (some fr) = tryRepeatM (d ca (some fr)) n := by
  rw [decVec_noloop fuel d ca (some fr) hloop, decCounted_eq]
  funext b
  rw [bind_apply]
  unfold getCount
  simp only [hc, ht]
  rfl

/-- C31: with `try_count = n`, decoding a list does not fail, for every element codec that does not panic (nor
loop) and every state: it returns the elements of a run from the current position, and the run either has `n`
elements or cannot be continued. -/
theorem C31_try_count (d : Dec α) (ca : Option CAttr) (fr : FAttr) (fuel n : Nat) (b : Buf) (hc : fr.count = none)
    (ht : fr.tryCount = some n) (hloop : fr.loopSkipStarts = none)
    (hd : ∀ b', (d ca (some fr) b').1 ≠ .panic ∧ (d ca (some fr) b').1 ≠ .timeout) :
    ∃ as b1 b2, decVec fuel d ca (some fr) b = (.ok as, b2) ∧ Runs (d ca (some fr)) b as b1 ∧
      (as.length = n ∧ b2 = b1 ∨ as.length < n ∧ ∃ e, d ca (some fr) b1 = (.err e, b2)) := by
  rw [decVec_try fuel d ca fr n hc ht hloop]
  obtain ⟨as, b1, hr, _, h⟩ := tryRepeatM_spec (d ca (some fr)) n b
  rcases h with ⟨h1, h2⟩ | ⟨h1, e, b3, h2, h3⟩ | ⟨h1, b3, h2, h3⟩ | ⟨h1, b3, h2, h3⟩
  · exact ⟨as, b1, b1, h2, hr, .inl ⟨h1, rfl⟩⟩
  · exact ⟨as, b1, b3, h3, hr, .inr ⟨h1, e, h2⟩⟩
  · exact absurd (by rw [h2]) (hd b1).1
  · exact absurd (by rw [h2]) (hd b1).2

/-- C31: the run is determined: two runs of `m` from `b`, the one not longer than the other, agree. -/
theorem C31_runs_prefix (m : M α) {b b1 b2 : Buf} {as bs : List α} (h1 : Runs m b as b1) (h2 : Runs m b bs b2)
    (hl : as.length ≤ bs.length) : as = bs.take as.length := by
  induction h1 generalizing bs with
  | nil => simp
  | cons hm hr ih =>
    cases h2 with
    | nil => simp at hl
    | cons hm' hr' =>
      rw [hm] at hm'
      simp only [Prod.mk.injEq, Out.ok.injEq] at hm'
      obtain ⟨rfl, rfl⟩ := hm'
      simp only [List.length_cons, List.take_succ_cons, List.cons.injEq, true_and]
      exact ih hr' (by simpa using hl)

example : decVec 0 (decInt ⟨2, false⟩) none (some { tryCount := some 10 }) ⟨[0, 1, 0, 2, 9], 0⟩
    = (.ok [1, 2], ⟨[0, 1, 0, 2, 9], 4⟩) := by decide +kernel

/-! ## C32 -/

/-- A decoder that leaves the position alone when it fails. -/
def Restores (m : M α) : Prop := ∀ b, b.Ok → ∀ e b', m b = (.err e, b') → b' = b

theorem Tame.restores {m : M α} (h : Tame m) : Restores m := by
  intro b hb e b' hm
  rcases h b hb with ⟨v, k, he, hk⟩ | ⟨c, he⟩
  · rw [he] at hm; simp at hm
  · rw [he] at hm
    simp only [Prod.mk.injEq] at hm
    exact hm.2.symm

/-- C32, the part that holds: for elements that leave the position alone when they fail, an option that decodes
to `None` and a tried list that stops early leave the position before the failed element.  Missing from the full
statement: the other elements, for which it fails (`C32_position_of_failure`, `C32_violated`). -/
theorem C32_position_kept_partial (d : Dec α) (ca : Option CAttr) (fr : FAttr) (fuel n : Nat) (b : Buf) (hb : b.Ok)
    (hr : Restores (d ca (some fr))) (hi : Inside (d ca (some fr))) (hc : fr.count = none)
    (ht : fr.tryCount = some n) (hloop : fr.loopSkipStarts = none) :
    (∀ b', decOption d ca (some fr) b = (.ok none, b') → b' = b) ∧
    (∀ as b', decVec fuel d ca (some fr) b = (.ok as, b') → Runs (d ca (some fr)) b as b') := by
  constructor
  · intro b' h
    unfold decOption at h
    split at h
    · rw [pure_apply] at h
      simp only [Prod.mk.injEq, true_and] at h
      exact h.symm
    · rw [attempt_apply] at h
      rcases hm : d ca (some fr) b with ⟨o, b1⟩
      rw [hm] at h
      cases o with
      | err e =>
        simp only [Prod.mk.injEq, true_and] at h
        subst h
        exact hr b hb e _ hm
      | _ => simp at h
  · intro as b' h
    rw [decVec_try fuel d ca fr n hc ht hloop] at h
    obtain ⟨as', b1, hrun, _, h'⟩ := tryRepeatM_spec (d ca (some fr)) n b
    have hok : ∀ {b as b1}, Runs (d ca (some fr)) b as b1 → b.Ok → b1.Ok := by
      intro b as b1 h
      induction h with
      | nil => exact id
      | cons hm _ ih =>
        intro hb
        refine ih ?_
        have := hi.ok hb
        rw [hm] at this
        exact this
    rcases h' with ⟨h1, h2⟩ | ⟨h1, e, b3, h2, h3⟩ | ⟨h1, b3, h2, h3⟩ | ⟨h1, b3, h2, h3⟩
    · rw [h2] at h
      simp only [Prod.mk.injEq, Out.ok.injEq] at h
      obtain ⟨rfl, rfl⟩ := h
      exact hrun
    · rw [h3] at h
      simp only [Prod.mk.injEq, Out.ok.injEq] at h
      obtain ⟨rfl, rfl⟩ := h
      have := hr b1 (hok hrun hb) e _ h2
      subst this
      exact hrun
    · rw [h3] at h; simp at h
    · rw [h3] at h; simp at h

/-- Integers of every width and modifier satisfy the hypothesis of `C32_position_kept_partial` (the 16-byte ones
with a little-endian `length` above 8, which panic, excepted). -/
theorem tame_decInt (k : IntKind) (ca : Option CAttr) (fa : Option FAttr)
    (h : effectiveOrder ca fa = .le → k.size ≤ 8 ∨ ∀ n, fa.bind (·.length) = some n → n ≤ 8) :
    Tame (decInt k ca fa) := by
  have hw : Tame (decWord k (getByteorder ca fa) (fa.bind (·.length))) := by
    rw [getByteorder_eq]
    unfold decWord
    cases hl : fa.bind (·.length) with
    | none => exact tame_takeScalar _ _
    | some n =>
      simp only
      split
      · exact tame_fail _
      · refine (tame_takeN _ 8 n fun ho => ?_).pureMap
        rcases h ho with h | h
        · omega
        · exact h n hl
  unfold decInt
  cases fa.bind (·.bits) with
  | none => exact hw.pureMap
  | some m => exact hw.pureMap

/-- C32: the position after a `None` or a stopped list is the one the failed element left behind, for every
element. -/
theorem C32_position_of_failure (d : Dec α) (ca : Option CAttr) (fa : Option FAttr) (b b' : Buf) (e : JErr)
    (h : d ca fa b = (.err e, b')) (h0 : fa.bind (·.length) ≠ some 0) :
    decOption d ca fa b = (.ok none, b') := by
  unfold decOption
  rw [if_neg h0, attempt_apply, h]

/-- C32 fails: an optional byte string whose length prefix promises more than there is decodes to `None` and has
consumed the length prefix, so that the next field starts one byte too late. -/
theorem C32_violated : ∃ b : Buf, b.Ok ∧ ∃ b', decOption decBytes none none b = (.ok none, b') ∧ b.pos < b'.pos :=
  ⟨⟨[5, 1], 0⟩, ⟨by decide, by rw [isizeMax_def]; decide⟩, ⟨[5, 1], 1⟩, by decide +kernel, by decide⟩

/-- C32 fails for `try_count` too: a list of pairs of bytes stops with half a pair consumed. -/
theorem C32_try_violated : ∃ b',
    decVec 0 (decTuple [decInt ⟨1, false⟩, decInt ⟨1, false⟩]) none (some { tryCount := some 3 }) ⟨[1, 2, 3], 0⟩
      = (.ok [[1, 2]], b') ∧ b'.pos = 3 :=
  ⟨⟨[1, 2, 3], 3⟩, by decide +kernel, rfl⟩

/-! ## C33, C34 -/

/-- C33 (termination): the loop over a non-empty prefix ends on every input, within one iteration per remaining
byte, provided the element decoder ends and stays inside the data. -/
theorem C33_loop_terminates (d : Dec α) (ca : Option CAttr) (fr : FAttr) (p : List Byte) (fuel : Nat) (b : Buf)
    (hp : fr.loopSkipStarts = some p) (hne : p ≠ []) (hb : b.Ok) (hi : Inside (d ca (some fr)))
    (hd : ∀ b', b'.Ok → (d ca (some fr) b').1 ≠ .timeout) (hf : b.data.length - b.pos < fuel) :
    (decVec fuel d ca (some fr) b).1 ≠ .timeout ∧
    decVec fuel d ca (some fr) b = decVec (b.data.length - b.pos + 1) d ca (some fr) b := by
  have e : ∀ f, decVec f d ca (some fr) = whileStarts p (d ca (some fr)) f := by
    intro f
    unfold decVec
    simp only [Option.bind_some, hp]
  simp only [e]
  refine ⟨whileStarts_halts hi p hne fuel b hb (fun b' h _ _ => hd b' h) hf, ?_⟩
  have hmin := whileStarts_halts hi p hne (b.data.length - b.pos + 1) b hb (fun b' h _ _ => hd b' h) (by omega)
  generalize hN : b.data.length - b.pos + 1 = N at hmin
  have : ∀ j, whileStarts p (d ca (some fr)) (N + j) b = whileStarts p (d ca (some fr)) N b := by
    intro j
    induction j with
    | zero => rfl
    | succ j ih => rw [← Nat.add_assoc, whileStarts_mono _ _ _ _ (by rw [ih]; exact hmin), ih]
  have hj := this (fuel - N)
  rwa [show N + (fuel - N) = fuel by omega] at hj

/-- C33 (round trip): each element is preceded by the prefix; the list reads back when what follows does not
start with the prefix. -/
theorem C33_loop_roundtrip (e : Enc α) (d : Dec α) (ca : Option CAttr) (fr : FAttr) (p : List Byte) (fuel : Nat)
    (img : α → List Byte) (l : List α) (suf : List Byte) (hp : fr.loopSkipStarts = some p)
    (he : ∀ a ∈ l, Appends (e a ca (some fr)) (img a))
    (hd : ∀ a ∈ l, ∀ suf, Reads (d ca (some fr)) a (img a) suf) (hs : ¬ p <+: suf) (hf : l.length < fuel) :
    Appends (encVec e l ca (some fr)) (l.flatMap fun a => p ++ img a) ∧
    Reads (decVec fuel d ca (some fr)) l (l.flatMap fun a => p ++ img a) suf := by
  have e1 : decVec fuel d ca (some fr) = whileStarts p (d ca (some fr)) fuel := by
    unfold decVec
    simp only [Option.bind_some, hp]
  have e2 : encVec e l ca (some fr) = encAll (fun a => do
      let n ← push p
      let m ← e a ca (some fr)
      return n + m) l := by
    unfold encVec
    simp only [Option.bind_some, hp]
  rw [e1, e2]
  exact ⟨Appends.encAll fun a ha => Appends.seq (Appends.push p) (he a ha), Reads.whileStarts hd suf hs fuel hf⟩

example : decVec 9 (decInt ⟨1, false⟩) none (some { loopSkipStarts := some [58, 58] }) ⟨[58, 58, 1, 58, 58, 2, 58], 0⟩
    = (.ok [1, 2], ⟨[58, 58, 1, 58, 58, 2, 58], 6⟩) := by decide +kernel

/-- C34 fails: with an empty `loop_skip_starts` a list of zero-size elements loops for ever, on every input. -/
theorem C34_violated (b : Buf) (hb : b.Ok) : ∀ fuel,
    (decVec fuel decUnit none (some { loopSkipStarts := some [] }) b).1 = .timeout := by
  have e : ∀ f, decVec f decUnit none (some { loopSkipStarts := some [] })
      = whileStarts [] (decUnit none (some { loopSkipStarts := some [] })) f := fun f => rfl
  intro fuel
  rw [e]
  induction fuel with
  | zero => rfl
  | succ fuel ih =>
    rw [whileStarts_succ, takeBytesStarts_apply [] b hb]
    simp only [List.length_nil, Nat.not_lt_zero, if_false, List.isPrefixOf_nil_left, if_true, Nat.add_zero]
    unfold decUnit
    simp only [pure_apply]
    rcases hw : whileStarts [] (decUnit none (some { loopSkipStarts := some [] })) fuel b with ⟨o, b'⟩
    rw [hw] at ih
    simp only at ih
    subst ih
    have hb' : (⟨b.data, b.pos⟩ : Buf) = b := rfl
    rw [hb']
    unfold decUnit at hw
    rw [hw]

/-! ## C35 -/

/-- A decoder that consumes at least one byte whenever it succeeds. -/
def Consumes (m : M α) : Prop := ∀ b, b.Ok → ∀ a b', m b = (.ok a, b') → b.pos < b'.pos

theorem Runs.length_le {m : M α} (hi : Inside m) (hc : Consumes m) {b b' : Buf} {as : List α} (h : Runs m b as b') :
    b.Ok → b'.Ok ∧ b'.data = b.data ∧ b.pos + as.length ≤ b'.pos := by
  induction h with
  | nil => exact fun hb => ⟨hb, rfl, Nat.le_refl _⟩
  | cons hm _ ih =>
    intro hb
    have h1 := hi _ hb
    have h2 := hi.ok hb
    have h3 := hc _ hb _ _ hm
    rw [hm] at h1 h2
    obtain ⟨i1, i2, i3⟩ := ih h2
    refine ⟨i1, by rw [i2, h1.1], ?_⟩
    simp only [List.length_cons]
    omega

theorem getCount_inside (ca : Option CAttr) (fa : Option FAttr) : Inside (getCount ca fa) := by
  unfold getCount
  cases fa with
  | none => exact (tame_takeU8.inside).bind fun _ => Inside.pure _
  | some fr =>
    simp only
    split
    · exact Inside.pure _
    · split
      · exact Inside.pure _
      · split
        · exact (Inside.takeUint _ _).bind fun _ => Inside.pure _
        · exact (tame_takeU8.inside).bind fun _ => Inside.pure _

/-- The elements of a counted list are a run starting behind the count. -/
theorem countedBody_runs {m : M α} {r : Nat × Option Nat} {b b' : Buf} {as : List α}
    (h : countedBody m r b = (.ok as, b')) :
    ∃ b1, Runs m b as b1 ∧ (b' = b1 ∨ ∃ e, m b1 = (.err e, b')) := by
  rcases r with ⟨n, _ | t⟩
  · exact ⟨b', ((repeatM_iff m _ b as b').mp h).1, .inl rfl⟩
  · replace h : tryRepeatM m t b = (.ok as, b') := h
    obtain ⟨as', b1, hrun, _, h'⟩ := tryRepeatM_spec m t b
    rcases h' with ⟨h1, h2⟩ | ⟨h1, e, b3, h2, h3⟩ | ⟨h1, b3, h2, h3⟩ | ⟨h1, b3, h2, h3⟩
    · rw [h2] at h
      simp only [Prod.mk.injEq, Out.ok.injEq] at h
      obtain ⟨rfl, rfl⟩ := h
      exact ⟨b1, hrun, .inl rfl⟩
    · rw [h3] at h
      simp only [Prod.mk.injEq, Out.ok.injEq] at h
      obtain ⟨rfl, rfl⟩ := h
      exact ⟨b1, hrun, .inr ⟨e, h2⟩⟩
    · rw [h3] at h; simp at h
    · rw [h3] at h; simp at h

theorem decCounted_length_le {d : Dec α} {ca : Option CAttr} {fa : Option FAttr} (hi : Inside (d ca fa))
    (hc : Consumes (d ca fa)) {b b' : Buf} {as : List α} (hb : b.Ok) (h : decCounted d ca fa b = (.ok as, b')) :
    b.pos + as.length ≤ b'.pos ∧ b'.pos ≤ b.data.length := by
  rw [decCounted_eq, bind_apply] at h
  have h1 := getCount_inside ca fa b hb
  have h2 := (getCount_inside ca fa).ok hb
  rcases hg : getCount ca fa b with ⟨o, b1⟩
  rw [hg] at h h1 h2
  cases o with
  | ok r =>
    simp only at h h1
    obtain ⟨b2, hrun, he⟩ := countedBody_runs h
    obtain ⟨r1, r2, r3⟩ := hrun.length_le hi hc h2
    have h3 := r1.1
    rw [r2, h1.1] at h3
    rcases he with rfl | ⟨e, he⟩
    · exact ⟨by omega, h3⟩
    · have h4 := hi _ r1
      rw [he] at h4
      simp only at h4
      rw [r2, h1.1] at h4
      exact ⟨by omega, h4.2.2⟩
  | _ => simp at h

theorem whileStarts_length_le {m : M α} (hi : Inside m) (p : List Byte) (hc : p ≠ [] ∨ Consumes m) : ∀ (fuel : Nat)
    (b b' : Buf) (as : List α), b.Ok → whileStarts p m fuel b = (.ok as, b') →
    b.pos + as.length ≤ b'.pos ∧ b'.pos ≤ b.data.length := by
  intro fuel
  induction fuel with
  | zero => intro b b' as _ h; exact nomatch h
  | succ fuel ih =>
    intro b b' as hb h
    rw [whileStarts_succ] at h
    have h1 := hb.1
    by_cases hpre : p <+: b.data.drop b.pos
    · have hlen : ¬ b.data.length - b.pos < p.length := by
        have := hpre.length_le
        rw [List.length_drop] at this
        omega
      have ht := takeBytesStarts_apply p b hb
      rw [if_neg hlen, if_pos (by simpa using hpre)] at ht
      rw [ht] at h
      have hok : (⟨b.data, b.pos + p.length⟩ : Buf).Ok :=
        ⟨by show b.pos + p.length ≤ b.data.length; omega, hb.2⟩
      have h2 := hi _ hok
      have h3 := hi.ok hok
      simp only at h
      rcases hm : m ⟨b.data, b.pos + p.length⟩ with ⟨o, b2⟩
      rw [hm] at h h2 h3
      cases o with
      | ok a =>
        simp only at h h2
        rcases hw : whileStarts p m fuel b2 with ⟨o3, b3⟩
        rw [hw] at h
        cases o3 with
        | ok as' =>
          simp only [Prod.mk.injEq, Out.ok.injEq] at h
          obtain ⟨rfl, rfl⟩ := h
          have h4 := ih b2 _ as' h3 hw
          rw [h2.1] at h4
          simp only [List.length_cons]
          refine ⟨?_, h4.2⟩
          rcases hc with hc | hc
          · have := List.length_pos_iff.mpr hc
            omega
          · have := hc _ hok _ _ hm
            simp only at this
            omega
        | _ => simp at h
      | _ => simp at h
    · obtain ⟨e, ht⟩ := takeBytesStarts_not p b hb hpre
      rw [ht] at h
      simp only [Prod.mk.injEq, Out.ok.injEq] at h
      obtain ⟨rfl, rfl⟩ := h
      exact ⟨by simp, h1⟩

/-- C35: a decoded list has at most as many elements as bytes consumed, whatever the count on the wire or the
modifiers say, if each element consumes at least one byte; and so it is bounded by the data. -/
theorem C35_list_bounded (d : Dec α) (ca : Option CAttr) (fa : Option FAttr) (fuel : Nat) (b b' : Buf) (as : List α)
    (hb : b.Ok) (hi : Inside (d ca fa)) (hc : Consumes (d ca fa)) (h : decVec fuel d ca fa b = (.ok as, b')) :
    as.length ≤ b'.pos - b.pos ∧ b'.pos ≤ b.data.length := by
  cases hl : fa.bind (·.loopSkipStarts) with
  | some p =>
    simp only [decVec, hl] at h
    have := whileStarts_length_le hi _ (.inr hc) fuel b b' as hb h
    omega
  | none =>
    rw [decVec_noloop fuel d ca fa hl] at h
    have := decCounted_length_le hi hc hb h
    omega

/-- C35: elements behind a non-empty prefix need not consume anything themselves. -/
theorem C35_prefixed_bounded (d : Dec α) (ca : Option CAttr) (fr : FAttr) (p : List Byte) (fuel : Nat) (b b' : Buf)
    (as : List α) (hb : b.Ok) (hi : Inside (d ca (some fr))) (hp : fr.loopSkipStarts = some p) (hne : p ≠ [])
    (h : decVec fuel d ca (some fr) b = (.ok as, b')) : as.length ≤ b'.pos - b.pos ∧ b'.pos ≤ b.data.length := by
  unfold decVec at h
  simp only [Option.bind_some, hp] at h
  have := whileStarts_length_le hi p (.inl hne) fuel b b' as hb h
  omega

/-- The hypotheses of C35 are met by `u32` elements. -/
theorem u32_consumes : Inside (decInt ⟨4, false⟩ none none) ∧ Consumes (decInt ⟨4, false⟩ none none) := by
  have e := ((C19_byteorder none none .be rfl).1 ⟨4, false⟩ 0 rfl rfl).1
  rw [e]
  refine ⟨(tame_takeScalar _ _).inside, ?_⟩
  intro b hb a b' h
  rw [takeScalar_eq_fixed _ _ _ hb] at h
  unfold takeFixed at h
  rw [bind_apply, takeBytes_apply _ _ hb] at h
  by_cases hl : b.data.length - b.pos < (IntKind.scalar ⟨4, false⟩).size
  · rw [if_pos hl] at h
    simp at h
  · rw [if_neg hl] at h
    simp only [pure_apply, Prod.mk.injEq] at h
    rw [← h.2]
    show b.pos < b.pos + 4
    omega

end JBytes
