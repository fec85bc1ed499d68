import Verif.Reencode
import Verif.PropStructRT
import Verif.Placed
/-!
# Decoding, encoding and decoding again

`Renews last m e`: whatever `m` decodes, `e` encodes, and `m` decodes that to the same value and consumes all of it,
whatever follows - or, with `last`, when nothing follows.
-/

namespace JBytes
open M

variable {α β V : Type}

/-- `e` succeeds, and `m` reads `v` from what it appends (followed by nothing if `last`). -/
def Back (last : Bool) (m : M α) (e : M Nat) (v : α) : Prop :=
  ∃ w, Writes e w ∧ ∀ suf, (last = true → suf = []) → Reads m v w suf

/-- What `m` decodes is encoded by `e` to something that `m` decodes to the same. -/
def Renews (last : Bool) (m : M α) (e : α → M Nat) : Prop :=
  ∀ b v b', b.Ok → m b = (.ok v, b') → b'.Ok ∧ Back last m (e v) v

theorem Back.last {m : M α} {e : M Nat} {v : α} (h : Back false m e v) (last : Bool) : Back last m e v := by
  obtain ⟨w, h1, h2⟩ := h
  exact ⟨w, h1, fun suf _ => h2 suf fun h => nomatch h⟩

theorem Renews.last {m : M α} {e : α → M Nat} (h : Renews false m e) (last : Bool) : Renews last m e :=
  fun b v b' hb he => let ⟨h1, h2⟩ := h b v b' hb he; ⟨h1, h2.last last⟩

theorem Gives.ok {R : α → List Byte → Prop} {m : M α} (h : Gives R m) {b b' : Buf} {v : α} (hb : b.Ok)
    (he : m b = (.ok v, b')) : b'.Ok := by
  obtain ⟨h1, h2, h3, _⟩ := h b hb v b' he
  rw [Buf.Ok, h1]
  exact ⟨h3, hb.2⟩

/-! ## Reads that can be repeated anywhere -/

/-- The bytes consumed give the same value anywhere. -/
def Repeats (m : M α) : Prop := Gives (fun v w => ∀ suf, Reads m v w suf) m

theorem Repeats.of {R : α → List Byte → Prop} {m : M α} (h : Gives R m) (hr : ∀ v w, R v w → ∀ suf, Reads m v w suf) :
    Repeats m := h.mono hr

theorem Repeats.bind {m : M α} (h : Repeats m) {f : α → M β} (hf : ∀ a, Repeats (f a)) : Repeats (m >>= f) :=
  Gives.bind h fun a w ha => (hf a).mono fun v w' hv suf => Reads.bind (ha _) (hv suf)

theorem Repeats.pure (v : α) : Repeats (Pure.pure v : M α) := Gives.pure fun suf => Reads.pure v suf

theorem Repeats.map {m : M α} (h : Repeats m) (f : α → β) : Repeats (m >>= fun a => (Pure.pure (f a) : M β)) :=
  h.bind fun _ => Repeats.pure _

theorem Repeats.fail {c : ErrCode} : Repeats (M.fail c : M α) := Gives.fail

theorem Repeats.panic : Repeats (M.panic : M α) := Gives.panic

theorem Repeats.takeBytes (n : Nat) : Repeats (takeBytes n) :=
  Repeats.of (Gives.takeBytes n) fun v w ⟨h1, h2⟩ suf => by subst h1; subst h2; exact Reads.bytes _ suf

theorem Repeats.takeU8 : Repeats takeU8 :=
  Repeats.of Gives.takeU8 fun v w h suf => by subst h; exact Reads.u8 v suf

theorem Repeats.takeScalar (s : Scalar) (o : ByteOrder) : Repeats (takeScalar s o) :=
  Repeats.of (Gives.takeScalar s o) fun v w ⟨h1, h2⟩ suf => by subst h1; exact Reads.scalar s o v suf h2

theorem Repeats.takeUint (n : Nat) (o : ByteOrder) : Repeats (takeUint n o) :=
  Repeats.of (Gives.takeUint o n) fun v w ⟨h1, h2, h3⟩ suf => by subst h1; exact Reads.uint o n v suf h3 h2

theorem Repeats.index0 (l : List Byte) : Repeats (index0 l) := by
  cases l with
  | nil => exact Repeats.panic
  | cons x _ => exact Repeats.pure x

theorem Repeats.ite {c : Prop} [Decidable c] {m n : M α} (h1 : Repeats m) (h2 : Repeats n) :
    Repeats (if c then m else n) := by
  split
  · exact h1
  · exact h2

theorem Repeats.decInt (k : IntKind) (ca : Option CAttr) (fa : Option FAttr) : Repeats (decInt k ca fa) := by
  have hw : Repeats (decWord k (getByteorder ca fa) (fa.bind (·.length))) := by
    unfold decWord
    cases fa.bind (·.length) with
    | none => exact Repeats.takeScalar _ _
    | some n => exact Repeats.ite Repeats.fail ((Repeats.takeUint _ _).map _)
  unfold JBytes.decInt
  refine hw.bind fun v => ?_
  cases fa.bind (·.bits) with
  | none => exact Repeats.pure _
  | some m => exact Repeats.pure _

theorem Repeats.decIpv4 (ca : Option CAttr) (fa : Option FAttr) : Repeats (decIpv4 ca fa) := (Repeats.takeScalar _ _).map _

theorem Repeats.decIpv6 (ca : Option CAttr) (fa : Option FAttr) : Repeats (decIpv6 ca fa) := (Repeats.takeScalar _ _).map _

theorem Repeats.decMac (ca : Option CAttr) (fa : Option FAttr) : Repeats (decMac ca fa) := (Repeats.takeUint _ _).map _

theorem Repeats.decIpAddr (ca : Option CAttr) (fa : Option FAttr) : Repeats (decIpAddr ca fa) := by
  unfold JBytes.decIpAddr
  cases fa.bind (·.length) with
  | none => exact Repeats.fail
  | some n =>
    exact Repeats.ite ((Repeats.decIpv6 ca fa).map _) (Repeats.ite ((Repeats.decIpv4 ca fa).map _) Repeats.fail)

theorem Repeats.decNet (ca : Option CAttr) (fa : Option FAttr) : Repeats (decNet ca fa) := by
  unfold JBytes.decNet
  cases fa.bind (·.length) with
  | none => exact Repeats.fail
  | some n =>
    exact Repeats.ite Repeats.fail (Repeats.ite ((Repeats.decIpv4 ca fa).map _)
      (Repeats.ite ((Repeats.decMac ca fa).map _) (Repeats.ite ((Repeats.decIpv6 ca fa).map _)
        ((Repeats.decInt _ ca fa).map _))))

theorem Repeats.getCount (ca : Option CAttr) (fa : Option FAttr) : Repeats (getCount ca fa) := by
  have h8 : Repeats (JBytes.takeU8 >>= fun n => (Pure.pure (n.toNat, none) : M (Nat × Option Nat))) :=
    Repeats.takeU8.map fun n => (n.toNat, none)
  unfold JBytes.getCount
  cases fa with
  | none => exact h8
  | some fr =>
    simp only
    cases fr.count with
    | some n => exact Repeats.pure _
    | none =>
      cases fr.tryCount with
      | some t => exact Repeats.pure _
      | none =>
        simp only
        cases fr.byteCountOutside with
        | some k => exact (Repeats.takeUint _ _).map _
        | none => exact h8

/-- What is consumed can be repeated and is written again. -/
theorem Renews.of {m : M α} {e : α → M Nat} (h1 : Repeats m) (h2 : Gives (fun v w => Writes (e v) w) m) (last : Bool) :
    Renews last m e := by
  intro b v b' hb he
  obtain ⟨_, _, _, r⟩ := h1 b hb v b' he
  obtain ⟨_, _, _, w⟩ := h2 b hb v b' he
  exact ⟨h1.ok hb he, _, w, fun suf _ => r suf⟩

theorem Renews.ofRe {d : Dec α} {e : Enc α} {ca : Option CAttr} {fa : Option FAttr} (h1 : Repeats (d ca fa))
    (h2 : Re d e ca fa) (last : Bool) : Renews last (d ca fa) (fun v => e v ca fa) :=
  Renews.of h1 (Gives.mono h2 fun _ _ h => h.writes) last

theorem Renews.timeout (last : Bool) (e : α → M Nat) : Renews last (M.timeout : M α) e :=
  fun b v b' _ h => by cases h

/-- Whatever is read, it is one of the values that round trip. -/
theorem Renews.fits {P : α → Prop} {m : M α} {e : α → M Nat} {last : Bool} (h1 : Gives (fun v _ => P v) m)
    (h2 : ∀ v, P v → Back last m (e v) v) : Renews last m e := by
  intro b v b' hb he
  obtain ⟨_, _, _, p⟩ := h1 b hb v b' he
  exact ⟨h1.ok hb he, h2 v p⟩

/-! ## Byte strings -/

theorem Gives.skipNeedle (o : Option (List Byte)) : Gives (fun _ _ => True) (skipNeedle o) := by
  cases o with
  | none => exact Gives.pure trivial
  | some x =>
    unfold JBytes.skipNeedle
    refine Gives.bind (R := fun _ _ => True) ?_ fun _ _ _ => Gives.pure trivial
    intro b hb v b' e
    rw [findSubsequenceNeedle_apply x true b hb] at e
    cases hf : findSub x (b.data.drop b.pos) with
    | none => rw [hf] at e; simp at e
    | some i =>
      rw [hf] at e
      simp only [Prod.mk.injEq, Out.ok.injEq] at e
      obtain ⟨_, rfl⟩ := e
      obtain ⟨⟨l, r, h1, h2⟩, _⟩ := findSub_some hf
      have hl : b.data.length - b.pos = l.length + x.length + r.length := by
        rw [← List.length_drop, h1]; simp; omega
      have := hb.1
      exact ⟨rfl, by simp, by simp; omega, trivial⟩

theorem Gives.firstEnd (x : List Byte) :
    Gives (fun v _ => ∀ l r, v ++ x = l ++ x ++ r → v.length ≤ l.length) (JBytes.findSubsequence x) := by
  intro b hb v b' e
  obtain ⟨g1, g2, g3, g4⟩ := Gives.findSubsequence x b hb v b' e
  refine ⟨g1, g2, g3, fun l r h => ?_⟩
  rw [findSubsequence_apply x b hb] at e
  cases hf : findSub x (b.data.drop b.pos) with
  | none => rw [hf] at e; simp at e
  | some i =>
    rw [hf] at e
    simp only [Prod.mk.injEq, Out.ok.injEq] at e
    obtain ⟨rfl, rfl⟩ := e
    obtain ⟨⟨l', r', h1, h2⟩, hmin⟩ := findSub_some hf
    rw [h1, ← h2] at h ⊢
    simp only [List.append_assoc, List.take_left'] at h ⊢
    by_cases hlt : l.length < l'.length
    · refine absurd ?_ (hmin l.length (by omega))
      refine ⟨l, r ++ r', ?_, rfl⟩
      rw [h1, h]
      simp only [List.append_assoc]
    · omega

theorem Gives.line : Gives (fun v _ => (10 : Byte) ∉ v ∧ (0 : Byte) ∉ v) (findSubsequences lineNeedles) := by
  intro b hb v b' e
  by_cases hex : (10 : Byte) ∈ b.data.drop b.pos ∨ (0 : Byte) ∈ b.data.drop b.pos
  · obtain ⟨line, term, rest, h1, _, h3, h4, _, h6⟩ := C10_line b.data b.pos hb.1 hb.2 hex
    have e' : findSubsequences lineNeedles b = (.ok line, ⟨b.data, b.pos + (line.length + term.length)⟩) := h6
    rw [e', Prod.mk.injEq, Out.ok.injEq] at e
    obtain ⟨rfl, rfl⟩ := e
    have hl : b.data.length - b.pos = line.length + term.length + rest.length := by
      rw [← List.length_drop, h1]; simp; omega
    have := hb.1
    exact ⟨rfl, by simp only; omega, by simp only; omega, h3, h4⟩
  · exfalso
    have hn : ¬ ∃ n ∈ lineEnds, ∃ l r, b.data.drop b.pos = l ++ n ++ r := by
      rintro ⟨n, hn, l, r, h⟩
      simp only [lineEnds, List.mem_cons, List.not_mem_nil, or_false] at hn
      apply hex
      rcases hn with rfl | rfl | rfl <;> simp [h]
    have e' : findSubsequences lineNeedles b = _ := ((C10_finds_earliest lineEnds b.data b.pos hb.1 hb.2).2 hn).1
    rw [e'] at e
    simp at e

/-- Every byte string that is read fits its framing. -/
theorem Gives.fits (ca : Option CAttr) (fa : Option FAttr) :
    Gives (fun v _ => ∀ suf, (framingOf fa = .rest → suf = []) → (framingOf fa).Fits v suf) (JBytes.decBytes ca fa) := by
  have h8 : Gives (fun v _ => v.length < 256) JBytes.takePrefixed :=
    Gives.takeU8.bind fun a w h => (Gives.takeBytes _).mono fun v w' h' => by rw [h'.2]; exact a.toNat_lt
  cases fa with
  | none => exact h8.mono fun v w h suf _ => h
  | some fr =>
    unfold JBytes.decBytes
    refine (Gives.skipNeedle _).bind fun _ _ _ => (Gives.skipNeedle _).bind fun _ _ _ => ?_
    unfold framingOf
    cases hl : fr.length with
    | some n =>
      simp only [Option.bind_some, hl, Option.map_some, Option.some_or, Option.getD_some, Framing.Fits]
      exact (Gives.takeBytes n).mono fun v w h suf _ => h.2
    | none =>
      cases hb : fr.byteCount with
      | some k =>
        simp only [Option.bind_some, hl, hb, Option.map_some, Option.map_none, Option.none_or, Option.some_or,
          Option.getD_some, Framing.Fits]
        exact (Gives.takeUint _ k).bind fun n w h => (Gives.takeBytes n).mono fun v w' h' suf _ =>
          ⟨h.2.2, by rw [h'.2]; exact h.2.1⟩
      | none =>
        cases hle : fr.linend with
        | true =>
          simp only [Option.bind_some, hl, hb, hle, Option.map_some, Option.map_none, Option.none_or,
            Option.some_or, Option.getD_some, Framing.Fits, if_true]
          exact Gives.line.mono fun v w h suf _ => h
        | false =>
          cases hlv : fr.linendValue with
          | some x =>
            simp only [Option.bind_some, hl, hb, hle, hlv, Option.map_some, Option.map_none, Option.none_or,
              Option.getD_some, Framing.Fits, if_false, Bool.false_eq_true]
            exact (Gives.firstEnd x).mono fun v w h suf _ => h
          | none =>
            cases hr : fr.remaining with
            | true =>
              simp only [Option.bind_some, hl, hb, hle, hlv, hr, Option.map_some, Option.map_none,
                Option.none_or, Option.getD_some, Option.getD_none, Framing.Fits, if_false, if_true,
                Bool.false_eq_true]
              refine Gives.bind (R := fun _ _ => True) ?_ fun n w _ => (Gives.takeBytes n).mono fun v w' _ suf hs => hs trivial
              intro b hb v b' e
              rw [remainingLen_apply, Prod.mk.injEq] at e
              rw [← e.2]
              exact ⟨rfl, Nat.le_refl _, hb.1, trivial⟩
            | false =>
              simp only [Option.bind_some, hl, hb, hle, hlv, hr, Option.map_some, Option.map_none,
                Option.none_or, Option.getD_some, Option.getD_none, Framing.Fits, if_false, Bool.false_eq_true]
              exact h8.mono fun v w h suf _ => h

theorem Renews.bytes (ca : Option CAttr) (fa : Option FAttr) (last : Bool) (h : last = true ∨ framingOf fa ≠ .rest) :
    Renews last (decBytes ca fa) (fun v => encBytes v ca fa) := by
  refine Renews.fits (Gives.fits ca fa) fun v hv => ⟨bytesWire ca fa v, ?_, fun suf hs => decBytes_reads v suf ca fa ?_⟩
  · refine (encBytes_appends v ca fa fun k hk => ?_).writes
    have := hv [] (fun _ => rfl)
    rw [hk] at this
    exact this.1
  · refine hv suf fun hr => ?_
    rcases h with h | h
    · exact hs h
    · exact absurd hr h

theorem Renews.str (ca : Option CAttr) (fa : Option FAttr) (last : Bool) (h : last = true ∨ framingOf fa ≠ .rest) :
    Renews last (decStr ca fa) (fun v => encBytes v ca fa) := by
  intro b v b' hb he
  unfold decStr at he
  rw [bind_apply] at he
  rcases hd : decBytes ca fa b with ⟨o, b1⟩
  rw [hd] at he
  cases o with
  | ok x =>
    simp only [ite_apply'] at he
    by_cases hu : utf8Valid x = true
    · rw [if_pos hu, pure_apply, Prod.mk.injEq, Out.ok.injEq] at he
      obtain ⟨rfl, rfl⟩ := he
      obtain ⟨h1, w, h2, h3⟩ := Renews.bytes ca fa last h b x b1 hb hd
      refine ⟨h1, w, h2, fun suf hs pre hp => ?_⟩
      unfold decStr
      rw [bind_apply, h3 suf hs pre hp]
      simp only [ite_apply', if_pos hu, pure_apply]
    · rw [if_neg hu, fail_apply] at he
      simp at he
  | _ => simp at he

theorem Renews.bool (ca : Option CAttr) (fa : Option FAttr) (last : Bool) :
    Renews last (decBool ca fa) (fun v => encBool v ca fa) := by
  have g : Gives (fun _ _ => True) (decBool ca fa) :=
    Gives.congr (Gives.map (Q := fun _ _ => True) (f := fun x : Byte => x != 0) Gives.takeU8 fun _ _ _ => trivial)
      fun b hb => takeBool_apply b hb
  refine Renews.fits (P := fun _ => True) g fun v _ => ⟨[if v then 1 else 0], (Appends.push _).writes, fun suf _ => ?_⟩
  intro pre hp
  rw [decBool, takeBool_apply _ (ok_of_size hp), mapM'_apply, Reads.u8 _ suf pre hp]
  cases v <;> rfl

/-! ## Sequences -/

theorem Renews.repeatM {m : M α} {e : α → M Nat} (h : Renews false m e) : ∀ (n : Nat) (b : Buf) (l : List α) (b' : Buf),
    b.Ok → repeatM m n b = (.ok l, b') → b'.Ok ∧ l.length = n ∧ Back false (repeatM m n) (encAll e l) l := by
  intro n
  induction n with
  | zero =>
    intro b l b' hb he
    rw [JBytes.repeatM, pure_apply, Prod.mk.injEq, Out.ok.injEq] at he
    obtain ⟨rfl, rfl⟩ := he
    exact ⟨hb, rfl, [], Appends.pure0.writes, fun suf _ => Reads.pure _ _⟩
  | succ n ih =>
    intro b l b' hb he
    obtain ⟨a, b1, h1, h2⟩ := bind_ok he
    obtain ⟨as, b2, h3, h4⟩ := bind_ok h2
    rw [pure_apply, Prod.mk.injEq, Out.ok.injEq] at h4
    obtain ⟨rfl, rfl⟩ := h4
    obtain ⟨o1, w1, e1, r1⟩ := h b a b1 hb h1
    obtain ⟨o2, hl, w2, e2, r2⟩ := ih b1 as b2 o1 h3
    refine ⟨o2, by simp [hl], w1 ++ w2, e1.seq e2, fun suf _ => ?_⟩
    exact Reads.bind (r1 _ (fun h => nomatch h)) ((r2 suf (fun h => nomatch h)).map _)

theorem Renews.array {d : Dec α} {e : Enc α} {ca : Option CAttr} {fa : Option FAttr}
    (h : Renews false (d ca fa) (fun v => e v ca fa)) (k : Nat) (last : Bool) :
    Renews last (decArray k d ca fa) (fun l => encArray e l ca fa) := fun b l b' hb he =>
  let ⟨h1, _, h3⟩ := h.repeatM k b l b' hb he; ⟨h1, h3.last last⟩

theorem Renews.vec {d : Dec α} {e : Enc α} {ca : Option CAttr} {fa : Option FAttr}
    (h : Renews false (d ca fa) (fun v => e v ca fa)) (fuel : Nat) (last : Bool)
    (hf : ∀ fr, fa = some fr → fr.loopSkipStarts = none ∧ fr.tryCount = none ∧
      (fr.count = none ∨ fr.byteCountOutside = none)) :
    Renews last (decVec fuel d ca fa) (fun l => encVec e l ca fa) := by
  have hloop : fa.bind (·.loopSkipStarts) = none := by
    cases fa with
    | none => rfl
    | some fr => exact (hf fr rfl).1
  have hg := Gives.getCount ca fa fun fr h => (hf fr h).2
  intro b l b' hb he
  unfold decVec at he
  rw [hloop] at he
  obtain ⟨r, b1, h1, h2⟩ := bind_ok he
  obtain ⟨_, _, _, hr, hp⟩ := hg b hb r b1 h1
  obtain ⟨_, _, _, hq⟩ := Repeats.getCount ca fa b hb r b1 h1
  obtain ⟨n, t⟩ := r
  obtain rfl : t = none := hr
  obtain ⟨o2, hl, w2, e2, r2⟩ := h.repeatM n b1 l b' (hg.ok hb h1) h2
  generalize (b.data.drop b.pos).take (b1.pos - b.pos) = w1 at hp hq
  refine ⟨o2, w1 ++ w2, ?_, fun suf _ => ?_⟩
  · unfold encVec
    rw [hloop]
    dsimp only
    rw [hl]
    exact hp.writes.seq e2
  · unfold decVec
    rw [hloop]
    exact Reads.bind (hq _) (r2 suf (fun h => nomatch h))

theorem Renews.option {d : Dec α} {e : Enc α} {ca : Option CAttr} {fa : Option FAttr}
    (h : Renews true (d ca fa) (fun v => e v ca fa)) (hi : ∀ b x b', b.Ok → d ca fa b = (.err x, b') → b'.Ok)
    (hn : ∀ pre : List Byte, pre.length ≤ isizeMax → ∃ x, d ca fa ⟨pre, pre.length⟩ = (.err x, ⟨pre, pre.length⟩)) :
    Renews true (decOption d ca fa) (fun v => encOption e v ca fa) := by
  intro b v b' hb he
  unfold decOption at he ⊢
  by_cases h0 : fa.bind (·.length) = some 0
  · rw [if_pos h0, pure_apply, Prod.mk.injEq, Out.ok.injEq] at he
    obtain ⟨rfl, rfl⟩ := he
    rw [if_pos h0]
    exact ⟨hb, [], Appends.pure0.writes, fun suf _ => Reads.pure _ _⟩
  · rw [if_neg h0, attempt_apply] at he
    rw [if_neg h0]
    rcases hd : d ca fa b with ⟨o, b1⟩
    rw [hd] at he
    cases o with
    | ok a =>
      simp only [Prod.mk.injEq, Out.ok.injEq] at he
      obtain ⟨rfl, rfl⟩ := he
      obtain ⟨h1, w, h2, h3⟩ := h b a b1 hb hd
      refine ⟨h1, w, h2, fun suf hs pre hp => ?_⟩
      rw [attempt_apply, h3 suf hs pre hp]
    | err x =>
      simp only [Prod.mk.injEq, Out.ok.injEq] at he
      obtain ⟨rfl, rfl⟩ := he
      refine ⟨hi b x b1 hb hd, [], Appends.pure0.writes, fun suf hs pre hp => ?_⟩
      rw [hs rfl] at hp ⊢
      obtain ⟨y, hy⟩ := hn pre (by simpa using hp)
      simp only [List.append_nil, List.length_nil, Nat.add_zero]
      rw [attempt_apply, hy]
    | _ => simp at he

theorem Renews.inject {d : Dec α} {e : Enc α} {ca : Option CAttr} {fa : Option FAttr} {last : Bool}
    (h : Renews last (d ca fa) (fun v => e v ca fa)) (f : α → β) (g : β → Option α) (hg : ∀ a, g (f a) = some a) :
    Renews last (d ca fa >>= fun a => (Pure.pure (f a) : M β)) (fun v => encOption e (g v) ca fa) := by
  intro b v b' hb he
  obtain ⟨a, b1, h1, h2⟩ := bind_ok he
  rw [pure_apply, Prod.mk.injEq, Out.ok.injEq] at h2
  obtain ⟨rfl, rfl⟩ := h2
  obtain ⟨o, w, e1, r1⟩ := h b a b1 hb h1
  refine ⟨o, w, ?_, fun suf hs => (r1 suf hs).map f⟩
  dsimp only
  rw [hg]
  exact e1

end JBytes
