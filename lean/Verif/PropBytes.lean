import Verif.RoundTrip
import Verif.CodecBytes
import Verif.PropInt
import Verif.Utf8
/-!
# Byte strings and text: C26, C27, C28
-/

namespace JBytes
open M

/-! ## Specification of the framings -/

/-- How the end of a byte string is marked on the wire. -/
inductive Framing
  | len8
  | lenN (k : Nat)
  | fixed (n : Nat)
  | line
  | endWith (x : List Byte)
  | rest

/-- The framing chosen by the modifiers: `length`, else `byte_count`, else `linend`, else `linend_value`, else
`remaining`, else a one-byte length. -/
def framingOf (fa : Option FAttr) : Framing :=
  (((((fa.bind (·.length)).map Framing.fixed).or
    ((fa.bind (·.byteCount)).map Framing.lenN)).or
    (if (fa.map (·.linend)).getD false then some Framing.line else none)).or
    ((fa.bind (·.linendValue)).map Framing.endWith)).getD
    (if (fa.map (·.remaining)).getD false then Framing.rest else Framing.len8)

/-- The framed image of a byte string. -/
def Framing.wire (o : ByteOrder) (d : List Byte) : Framing → List Byte
  | .len8 => UInt8.ofNat d.length :: d
  | .lenN k => toBytes o k d.length ++ d
  | .fixed _ => d
  | .line => d ++ [13, 10]
  | .endWith x => d ++ x
  | .rest => d

/-- When the image determines the byte string: the length fits its prefix / is the fixed one / no terminator
occurs earlier / nothing follows. -/
def Framing.Fits (d suf : List Byte) : Framing → Prop
  | .len8 => d.length < 256
  | .lenN k => k ≤ 8 ∧ d.length < 256 ^ k
  | .fixed n => d.length = n
  | .line => (10 : Byte) ∉ d ∧ (0 : Byte) ∉ d
  | .endWith x => ∀ l r, d ++ x = l ++ x ++ r → d.length ≤ l.length
  | .rest => suf = []

/-- The optional `key` and `split` texts in front. -/
def heads (fa : Option FAttr) : List Byte :=
  ((fa.bind (·.key)).getD []) ++ ((fa.bind (·.split)).getD [])

/-- The complete image of a byte string. -/
def bytesWire (ca : Option CAttr) (fa : Option FAttr) (d : List Byte) : List Byte :=
  heads fa ++ (framingOf fa).wire (effectiveOrder ca fa) d

/-! ## C26 -/

theorem Appends.pushU8 (x : Byte) : Appends (pushU8 x) [x] := Appends.push [x]

theorem Appends.pushOpt (x : Option (List Byte)) : Appends (pushOpt x) (x.getD []) := by
  cases x with
  | none => exact Appends.pure0
  | some x => exact Appends.push x

theorem encBytes_appends (d : List Byte) (ca : Option CAttr) (fa : Option FAttr)
    (hk : ∀ k, framingOf fa = .lenN k → k ≤ 8) :
    Appends (encBytes d ca fa) (bytesWire ca fa d) := by
  have hframe : ∃ w1 w2, Appends (encBytesPrefix ca fa d.length) w1 ∧
      Appends (JBytes.pushOpt (encBytesEnd fa)) w2 ∧
      (framingOf fa).wire (effectiveOrder ca fa) d = w1 ++ (d ++ w2) := by
    unfold encBytesPrefix encBytesEnd framingOf at *
    cases fa with
    | none => exact ⟨_, _, Appends.pushU8 _, Appends.pushOpt _, by simp [Framing.wire]⟩
    | some fr =>
      cases hl : fr.length with
      | some n =>
        refine ⟨[], _, ?_, Appends.pushOpt _, ?_⟩
        · simp only [hl]
          exact Appends.pure0
        · simp [hl, Framing.wire]
      | none =>
        cases hb : fr.byteCount with
        | some k =>
          have h8 : k ≤ 8 := hk k (by simp [hl, hb])
          refine ⟨toBytes (effectiveOrder ca (some fr)) k d.length, _, ?_, Appends.pushOpt _, ?_⟩
          · simp only [hl, hb, getByteorder_eq]
            exact Appends.uint _ k _ h8
          · simp [hl, hb, Framing.wire]
        | none =>
          cases hle : fr.linend with
          | true =>
            refine ⟨[], _, ?_, Appends.pushOpt _, ?_⟩
            · simp only [hl, hb, hle, if_true]
              exact Appends.pure0
            · simp [hl, hb, hle, Framing.wire]
          | false =>
            cases hlv : fr.linendValue with
            | some x =>
              refine ⟨[], _, ?_, Appends.pushOpt _, ?_⟩
              · simp [hl, hb, hle, hlv]
                exact Appends.pure0
              · simp [hl, hb, hle, hlv, Framing.wire]
            | none =>
              cases hr : fr.remaining with
              | true =>
                refine ⟨[], _, ?_, Appends.pushOpt _, ?_⟩
                · simp [hl, hb, hle, hlv, hr]
                  exact Appends.pure0
                · simp [hl, hb, hle, hlv, hr, Framing.wire]
              | false =>
                refine ⟨[UInt8.ofNat d.length], _, ?_, Appends.pushOpt _, ?_⟩
                · simp [hl, hb, hle, hlv, hr]
                  exact Appends.pushU8 _
                · simp [hl, hb, hle, hlv, hr, Framing.wire]
  obtain ⟨w1, w2, h1, h2, e⟩ := hframe
  unfold bytesWire heads
  rw [e]
  have ka := Appends.pushOpt (fa.bind (·.key))
  have sa := Appends.pushOpt (fa.bind (·.split))
  have pa := Appends.push d
  intro pre hp
  simp only [List.length_append] at hp
  unfold encBytes
  simp only [bind_apply, pure_apply]
  have s1 := ka pre (by omega)
  have s2 := sa (pre ++ (fa.bind (·.key)).getD []) (by simp only [List.length_append]; omega)
  have s3 := h1 (pre ++ (fa.bind (·.key)).getD [] ++ (fa.bind (·.split)).getD [])
    (by simp only [List.length_append]; omega)
  have s4 := pa (pre ++ (fa.bind (·.key)).getD [] ++ (fa.bind (·.split)).getD [] ++ w1)
    (by simp only [List.length_append]; omega)
  have s5 := h2 (pre ++ (fa.bind (·.key)).getD [] ++ (fa.bind (·.split)).getD [] ++ w1 ++ d)
    (by simp only [List.length_append]; omega)
  simp only [List.length_append] at s1 s2 s3 s4 s5
  simp only [s1, s2, s3, s4, s5]
  simp [Nat.add_assoc]

theorem Reads.needle (x suf : List Byte) : Reads (findSubsequenceNeedle x true) x x suf := by
  intro pre hp
  have hs : pre.length + (x ++ suf).length ≤ isizeMax := by simp only [List.length_append]; omega
  have := C09_find_needle x (pre ++ (x ++ suf)) true pre.length (by simp) (by simpa using hs) [] suf
    (by simp) (by simp)
  simpa using this

theorem Reads.skipNeedle (x : Option (List Byte)) (suf : List Byte) :
    Reads (skipNeedle x) () (x.getD []) suf := by
  cases x with
  | none => exact Reads.pure () suf
  | some x => exact (Reads.needle x suf).map (fun _ => ())

theorem Reads.prefixed (d suf : List Byte) (h : d.length < 256) :
    Reads takePrefixed d (UInt8.ofNat d.length :: d) suf := by
  have : Reads takePrefixed d ([UInt8.ofNat d.length] ++ d) suf := by
    refine Reads.bind (Reads.u8 _ _) ?_
    rw [UInt8.toNat_ofNat_of_lt' h]
    exact Reads.bytes d suf
  exact this

/-- A terminator that starts before `d.length` in `d ++ x ++ suf` ends inside `d ++ x`. -/
theorem first_occurrence {d x suf l r : List Byte} (h : ∀ l r, d ++ x = l ++ x ++ r → d.length ≤ l.length)
    (e : d ++ x ++ suf = l ++ x ++ r) : d.length ≤ l.length := by
  by_cases hlt : d.length ≤ l.length
  · exact hlt
  · have h1 : (d ++ x ++ suf).take (d ++ x).length = d ++ x := List.take_left
    have h2 : (l ++ x ++ r).take (d ++ x).length = l ++ x ++ r.take (d.length - l.length) := by
      rw [List.take_append, List.take_of_length_le (by simp; omega)]
      simp only [List.length_append]
      congr 2
      omega
    rw [← e, h1] at h2
    exact h _ _ h2

theorem Reads.terminated (d x suf : List Byte) (h : ∀ l r, d ++ x = l ++ x ++ r → d.length ≤ l.length) :
    Reads (findSubsequence x) d (d ++ x) suf := by
  intro pre hp
  have hs : (pre ++ (d ++ x ++ suf)).length ≤ isizeMax := by
    simp only [List.length_append] at hp ⊢
    omega
  have hdrop : (pre ++ (d ++ x ++ suf)).drop pre.length = d ++ x ++ suf := by simp
  have := (C09_find_leftmost x (pre ++ (d ++ x ++ suf)) pre.length (by simp) hs).1 d suf hdrop
    (fun l r e => first_occurrence h (hdrop ▸ e))
  simpa using this

theorem Reads.line (d suf : List Byte) (h1 : (10 : Byte) ∉ d) (h0 : (0 : Byte) ∉ d) :
    Reads (findSubsequences lineNeedles) d (d ++ [13, 10]) suf := by
  intro pre hp
  have hs : (pre ++ (d ++ [13, 10] ++ suf)).length ≤ isizeMax := by
    simp only [List.length_append] at hp ⊢
    omega
  have hdrop : (pre ++ (d ++ [13, 10] ++ suf)).drop pre.length = d ++ [13, 10] ++ suf := by simp
  have hf : acFind lineNeedles (d ++ [13, 10] ++ suf) = some (d.length, d.length + 2) := by
    have htake : (d ++ [13, 10] ++ suf).take (d.length + 2) = d ++ [13, 10] := by
      rw [show d.length + 2 = (d ++ [13, 10] : List Byte).length by simp, List.take_left]
    refine acFind_eq_some (by simp) ⟨[13, 10], by simp [lineNeedles], ?_, rfl⟩ ?_ ?_
    · rw [htake]
      exact ⟨d, rfl⟩
    · intro n hn _
      simp only [lineNeedles, List.mem_cons, List.not_mem_nil, or_false] at hn
      rcases hn with rfl | rfl | rfl <;> simp
    · intro k hk n hn hsuf
      have hpre : (d ++ [13, 10] ++ suf).take k <+: d ++ [13] := by
        rw [show d ++ [13, 10] ++ suf = (d ++ [13]) ++ ([10] ++ suf) by simp, List.take_append]
        rw [show k - (d ++ [13] : List Byte).length = 0 by simp; omega]
        simp only [List.take_zero, List.append_nil]
        exact List.take_prefix _ _
      have hmem : ∀ y ∈ n, y ∈ d ++ [13] := fun y hy => hpre.subset (hsuf.subset hy)
      simp only [lineNeedles, List.mem_cons, List.not_mem_nil, or_false] at hn
      rcases hn with rfl | rfl | rfl
      · have := hmem 10 (by simp)
        simp [h1] at this
      · have := hmem 10 (by simp)
        simp [h1] at this
      · have := hmem 0 (by simp)
        simp [h0] at this
  rw [findSubsequences_apply _ _ ⟨by simp, hs⟩]
  simp only [hdrop, hf]
  simp

theorem remainingLen_end (pre w : List Byte) :
    remainingLen ⟨pre ++ w, pre.length⟩ = (.ok w.length, ⟨pre ++ w, pre.length⟩) := by
  unfold remainingLen
  simp only [bind_apply, remaining_apply', pure_apply]
  simp

theorem decBytes_reads (d suf : List Byte) (ca : Option CAttr) (fa : Option FAttr)
    (hf : (framingOf fa).Fits d suf) : Reads (decBytes ca fa) d (bytesWire ca fa d) suf := by
  unfold bytesWire heads
  cases fa with
  | none => exact Reads.prefixed d suf hf
  | some fr =>
    simp only [Option.bind_some]
    rw [List.append_assoc]
    unfold decBytes
    refine Reads.bind (Reads.skipNeedle fr.key _) (Reads.bind (Reads.skipNeedle fr.split _) ?_)
    revert hf
    unfold framingOf
    cases hl : fr.length with
    | some n =>
      simp only [Option.bind_some, hl, Option.map_some, Option.some_or, Option.getD_some, Framing.Fits,
        Framing.wire]
      rintro rfl
      exact Reads.bytes d suf
    | none =>
      cases hb : fr.byteCount with
      | some k =>
        simp only [Option.bind_some, hl, hb, Option.map_some, Option.map_none, Option.none_or, Option.some_or,
          Option.getD_some, Framing.Fits, Framing.wire, getByteorder_eq]
        rintro ⟨h8, hd⟩
        exact Reads.bind (Reads.uint _ k _ _ h8 hd) (Reads.bytes d suf)
      | none =>
        cases hle : fr.linend with
        | true =>
          simp only [Option.bind_some, hl, hb, hle, Option.map_some, Option.map_none, Option.none_or,
            Option.some_or, Option.getD_some, Framing.Fits, Framing.wire, if_true]
          rintro ⟨h1, h0⟩
          exact Reads.line d suf h1 h0
        | false =>
          cases hlv : fr.linendValue with
          | some x =>
            simp only [Option.bind_some, hl, hb, hle, hlv, Option.map_some, Option.map_none, Option.none_or,
              Option.getD_some, Framing.Fits, Framing.wire, if_false, Bool.false_eq_true]
            intro h
            exact Reads.terminated d x suf h
          | none =>
            cases hr : fr.remaining with
            | true =>
              simp only [Option.bind_some, hl, hb, hle, hlv, hr, Option.map_some, Option.map_none,
                Option.none_or, Option.getD_some, Option.getD_none, Framing.Fits, Framing.wire, if_false, if_true,
                Bool.false_eq_true]
              rintro rfl
              intro pre hp
              have e := remainingLen_end pre d
              have e2 := Reads.bytes d [] pre hp
              simp only [List.append_nil] at e2 ⊢
              rw [bind_apply, e]
              exact e2
            | false =>
              simp only [Option.bind_some, hl, hb, hle, hlv, hr, Option.map_some, Option.map_none,
                Option.none_or, Option.getD_some, Option.getD_none, Framing.Fits, Framing.wire, if_false,
                Bool.false_eq_true]
              intro h
              exact Reads.prefixed d suf h

/-- C26: under every combination of modifiers, if the byte string fits its framing, encoding appends one image
and decoding that image, with anything before it and `suf` behind it, returns the byte string and consumes
exactly the image. -/
theorem C26_framing_roundtrip (d suf : List Byte) (ca : Option CAttr) (fa : Option FAttr)
    (hf : (framingOf fa).Fits d suf) :
    ∃ w, Appends (encBytes d ca fa) w ∧ Reads (decBytes ca fa) d w suf ∧ d.length ≤ w.length := by
  refine ⟨bytesWire ca fa d, encBytes_appends d ca fa ?_, decBytes_reads d suf ca fa hf, ?_⟩
  · intro k hk
    rw [hk] at hf
    exact hf.1
  · unfold bytesWire
    cases framingOf fa <;> simp [Framing.wire] <;> omega

example : (framingOf (some { key := some [1], split := some [2], linendValue := some [0xFF, 0xFE] })).Fits
    [0xFF, 3] [9] := by
  intro l r e
  match l, e with
  | [], e => simp at e
  | [_], e => simp at e
  | _ :: _ :: _, _ => simp

example : encBytes [0xFF, 3] none
      (some { key := some [1], split := some [2], linendValue := some [0xFF, 0xFE] }) ⟨[7], 1⟩
      = (.ok 6, ⟨[7, 1, 2, 0xFF, 3, 0xFF, 0xFE], 7⟩) ∧
    decBytes none (some { key := some [1], split := some [2], linendValue := some [0xFF, 0xFE] })
      ⟨[7, 1, 2, 0xFF, 3, 0xFF, 0xFE, 9], 1⟩ = (.ok [0xFF, 3], ⟨[7, 1, 2, 0xFF, 3, 0xFF, 0xFE, 9], 7⟩) := by
  decide +kernel

/-! ## C27 -/

/-- C27, what the code does: with a length prefix of `k` bytes (`byte_count = k`, or 1 by default) the encoder
writes the length modulo `256^k`, so the decoder returns only the first `length mod 256^k` bytes and leaves the
others unread.  The round trip holds exactly for lengths below `256^k`. -/
theorem C27_prefix_truncates (d suf : List Byte) (ca : Option CAttr) (fa : Option FAttr) (k : Nat)
    (hf : framingOf fa = .lenN k ∧ k ≤ 8 ∨ framingOf fa = .len8 ∧ k = 1) :
    ∃ w, Appends (encBytes d ca fa) (w ++ d.drop (d.length % 256 ^ k)) ∧
      Reads (decBytes ca fa) (d.take (d.length % 256 ^ k)) w (d.drop (d.length % 256 ^ k) ++ suf) ∧
      (d.take (d.length % 256 ^ k) = d ↔ d.length < 256 ^ k) := by
  have hlt : d.length % 256 ^ k < 256 ^ k := Nat.mod_lt _ (Nat.pow_pos (by omega))
  have hle : d.length % 256 ^ k ≤ d.length := Nat.mod_le _ _
  have hlen : (d.take (d.length % 256 ^ k)).length = d.length % 256 ^ k := by simp; omega
  refine ⟨bytesWire ca fa (d.take (d.length % 256 ^ k)), ?_, ?_, ?_⟩
  · have h := encBytes_appends d ca fa (by
      intro k' hk'
      rcases hf with ⟨h, h8⟩ | ⟨h, _⟩
      · rw [h] at hk'
        injection hk' with e
        omega
      · rw [h] at hk'
        cases hk')
    have e : bytesWire ca fa d
        = bytesWire ca fa (d.take (d.length % 256 ^ k)) ++ d.drop (d.length % 256 ^ k) := by
      unfold bytesWire
      rcases hf with ⟨h, h8⟩ | ⟨h, rfl⟩
      · simp only [h, Framing.wire, hlen, toBytes_mod, List.append_assoc, List.take_append_drop]
      · simp only [h, Framing.wire, hlen, List.append_assoc, List.cons_append, List.take_append_drop]
        congr 2
        apply UInt8.toNat_inj.mp
        simp
    rwa [e] at h
  · apply decBytes_reads
    rcases hf with ⟨h, h8⟩ | ⟨h, rfl⟩
    · rw [h]
      exact ⟨h8, by omega⟩
    · rw [h]
      show _ < 256
      omega
  · constructor
    · intro e
      have := congrArg List.length e
      omega
    · intro h
      rw [Nat.mod_eq_of_lt h, List.take_length]

/-- C27, the part that holds: a length prefix wider than 8 bytes is refused, in every state.  Missing from the
full statement: lengths that do not fit a prefix of at most 8 bytes (`C27_bytes_violated`). -/
theorem C27_wide_refused_partial (d : List Byte) (ca : Option CAttr) (fr : FAttr) (k : Nat)
    (hf : framingOf (some fr) = .lenN k) (hk : 8 < k) (hkey : fr.key = none) (hsplit : fr.split = none) (b : Buf) :
    encBytes d ca (some fr) b = (.err ⟨b.pos, .invalidByteLength⟩, b) := by
  have hl : fr.length = none := by
    cases hl : fr.length with
    | none => rfl
    | some n => simp [framingOf, hl] at hf
  have hb : fr.byteCount = some k := by
    cases hb : fr.byteCount with
    | none =>
      exfalso
      simp only [framingOf, Option.bind_some, hl, hb, Option.map_none, Option.none_or, Option.map_some,
        Option.getD_some] at hf
      cases h1 : fr.linend <;> cases h2 : fr.linendValue <;> cases h3 : fr.remaining <;> simp [h1, h2, h3] at hf
    | some n =>
      simp [framingOf, hl, hb] at hf
      rw [hf]
  unfold encBytes encBytesPrefix
  simp only [Option.bind_some, hkey, hsplit, pushOpt, hl, hb, bind_apply, pure_apply, pushUint_wide _ k _ hk]

/-- C27 is violated: 256 zero bytes with the default one-byte prefix are accepted and decode to nothing. -/
theorem C27_bytes_violated : ∃ w b,
    encBytes (List.replicate 256 0) none none ⟨[], 0⟩ = (.ok 257, ⟨w, 257⟩) ∧
    decBytes none none ⟨w, 0⟩ = (.ok [], b) ∧ b.pos = 1 :=
  ⟨0 :: List.replicate 256 0, ⟨0 :: List.replicate 256 0, 1⟩, by decide +kernel⟩

/-! ## C28 -/

theorem decStr_cases (ca : Option CAttr) (fa : Option FAttr) (b : Buf) :
    (∀ v b', decStr ca fa b = (.ok v, b') ↔ decBytes ca fa b = (.ok v, b') ∧ utf8Valid v = true) ∧
    (∀ v b', decBytes ca fa b = (.ok v, b') → utf8Valid v = false →
      decStr ca fa b = (.err ⟨b'.pos, .fail⟩, b')) ∧
    (∀ e b', decBytes ca fa b = (.err e, b') → decStr ca fa b = (.err e, b')) := by
  unfold decStr
  rw [bind_apply]
  rcases decBytes ca fa b with ⟨o, b1⟩
  cases o with
  | ok v =>
    cases h : utf8Valid v with
    | true =>
      simp only [h, if_true, pure_apply]
      refine ⟨?_, ?_, ?_⟩
      · intro v' b'
        constructor
        · intro e
          simp only [Prod.mk.injEq, Out.ok.injEq] at e
          obtain ⟨rfl, rfl⟩ := e
          exact ⟨rfl, h⟩
        · rintro ⟨e, _⟩
          exact e
      · intro v' b' e hf
        simp only [Prod.mk.injEq, Out.ok.injEq] at e
        obtain ⟨rfl, rfl⟩ := e
        simp [h] at hf
      · intro e b' hh
        simp at hh
    | false =>
      simp only [h, Bool.false_eq_true, if_false, fail_apply]
      refine ⟨?_, ?_, ?_⟩
      · intro v' b'
        constructor
        · intro e
          simp at e
        · rintro ⟨e, hv⟩
          simp only [Prod.mk.injEq, Out.ok.injEq] at e
          obtain ⟨rfl, rfl⟩ := e
          simp [h] at hv
      · intro v' b' e _
        simp only [Prod.mk.injEq, Out.ok.injEq] at e
        obtain ⟨rfl, rfl⟩ := e
        rfl
      · intro e b' hh
        simp at hh
  | err e => simp
  | panic => simp
  | timeout => simp

/-- C28: a text is decoded exactly when the byte string under the same modifiers is decoded and is the UTF-8
encoding of some text; then the result is those bytes.  A byte string that encodes no text is an error at the
position after it; a framing error is passed on. -/
theorem C28_text_decode (ca : Option CAttr) (fa : Option FAttr) (b : Buf) :
    (∀ v b', decStr ca fa b = (.ok v, b') ↔
      decBytes ca fa b = (.ok v, b') ∧ ∃ text : List Char, v = utf8Of text) ∧
    (∀ v b', decBytes ca fa b = (.ok v, b') → (¬ ∃ text : List Char, v = utf8Of text) →
      decStr ca fa b = (.err ⟨b'.pos, .fail⟩, b')) ∧
    (∀ e b', decBytes ca fa b = (.err e, b') → decStr ca fa b = (.err e, b')) := by
  obtain ⟨h1, h2, h3⟩ := decStr_cases ca fa b
  simp only [← utf8Valid_iff]
  exact ⟨h1, fun v b' e h => h2 v b' e (by simpa using h), h3⟩

/-- C28: a text that fits its framing comes back. -/
theorem C28_text_roundtrip (text : List Char) (suf : List Byte) (ca : Option CAttr) (fa : Option FAttr)
    (hf : (framingOf fa).Fits (utf8Of text) suf) :
    ∃ w, Appends (encBytes (utf8Of text) ca fa) w ∧ Reads (decStr ca fa) (utf8Of text) w suf := by
  obtain ⟨w, h1, h2, _⟩ := C26_framing_roundtrip (utf8Of text) suf ca fa hf
  exact ⟨w, h1, fun pre hp => ((C28_text_decode ca fa _).1 _ _).mpr ⟨h2 pre hp, text, rfl⟩⟩

example : utf8Of ['h', 'é', '€', '😀'] = [0x68, 0xC3, 0xA9, 0xE2, 0x82, 0xAC, 0xF0, 0x9F, 0x98, 0x80] ∧
    decStr none none ⟨[3, 0xE2, 0x82, 0xAC, 7], 0⟩ = (.ok [0xE2, 0x82, 0xAC], ⟨[3, 0xE2, 0x82, 0xAC, 7], 4⟩) ∧
    decStr none none ⟨[2, 0xC0, 0x80], 0⟩ = (.err ⟨3, .fail⟩, ⟨[2, 0xC0, 0x80], 3⟩) := by decide +kernel

end JBytes
