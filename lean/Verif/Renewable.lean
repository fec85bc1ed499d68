import Verif.RenewLoop
/-!
# Types for which decoding, encoding and decoding again gives the same value

`Renewable last A α d e`: `d` and `e` are the decoder and the encoder of a type built from the codecs of the crate and
derived structs and enums, used with modifiers in `A`, and, with `last`, where nothing follows.  Unlike `Faithful` this
includes constructions that accept several encodings of one value: `bool`, `key`, `split` and line ends, words of bit
fields, `offset`, ranges and default variants, lists with `try_count` or a marker before every element, and fields with `value_decode` and `value_encode`.
-/

namespace JBytes
open M

variable {α β V : Type}

/-- A run of fields of a derived type. -/
inductive Stretch (V : Type) where
  | plain (f : Field V)
  | skip (f : Field V)
  | word (inj : Nat → V) (k : IntKind) (o : ByteOrder) (fs : List (Field V)) (m : BitMember) (ms : List BitMember)

/-- The fields of a run. -/
def Stretch.fields : Stretch V → List (Field V)
  | .plain f => [f]
  | .skip f => [f]
  | .word _ _ _ fs _ _ => fs

/-- What is asked of a run beside the codecs of its fields. -/
def Stretch.Fine (ca : Option CAttr) (As : Field V → Option FAttr → Prop) : Stretch V → Prop
  | .plain f => Steady f ∧ (∀ env, As f (ownModifiers f.attrs env)) ∧
      (f.attrs.ifExpr = none ∨ ∀ env, Writes (f.enc f.noneV ca (ownModifiers f.attrs env)) []) ∧
      (f.attrs.offset = none ∨ f.attrs.ifExpr = none ∧ ∀ env (b : Buf), b.data.length < b.pos → b.pos < usizeMod →
        ∀ v b', f.dec ca (ownModifiers f.attrs env) b ≠ (.ok v, b'))
  | .skip f => f.attrs.skip = true ∧ f.attrs.withDecode = none ∧ f.attrs.withEncode = none ∧ f.attrs.offset = none ∧
      f.attrs.variableName = none ∧ ∀ env, OrderOk f.attrs env
  | .word inj k o fs m ms => k.Valid ∧ k.size ≤ 8 ∧ k.signed = false ∧ IsWord inj k fs (m :: ms) ∧
      (∀ x ∈ m :: ms, x.Good k ca o) ∧ m.fr.bitsStart = true ∧ (∀ x ∈ ms, x.fr.bitsStart = false) ∧
      (m :: ms).Pairwise (fun a b => a.mask &&& b.mask = 0)

/-- Only the last run may rely on nothing following, and only if the whole does. -/
def Flags (last : Bool) : List (Bool × Stretch V) → Prop
  | [] => True
  | [p] => p.1 = true → last = true
  | p :: q :: ps => p.1 = false ∧ Flags last (q :: ps)

inductive Renewable : Bool → (Option FAttr → Prop) → (α : Type) → Dec α → Enc α → Prop where
  /-- No stack left (see `decRec`, `encRec`). -/
  | stop {last : Bool} {A : Option FAttr → Prop} {α : Type} : Renewable last A α (fun _ _ => timeout) (fun _ _ _ => timeout)
  | int {last : Bool} {A : Option FAttr → Prop} (k : IntKind) : k.Valid → (∀ fr, A (some fr) → fr.bits = none) →
      Renewable last A Nat (decInt k) (encInt k)
  | f32 {last : Bool} {A : Option FAttr → Prop} : Renewable last A Nat decF32 encF32
  | f64 {last : Bool} {A : Option FAttr → Prop} : Renewable last A Nat decF64 encF64
  | char {last : Bool} {A : Option FAttr → Prop} : Renewable last A Nat decChar encChar
  | bool {last : Bool} {A : Option FAttr → Prop} : Renewable last A Bool decBool encBool
  | bytes {last : Bool} {A : Option FAttr → Prop} : (last = true ∨ ∀ fa, A fa → framingOf fa ≠ .rest) →
      Renewable last A (List Byte) decBytes encBytes
  | str {last : Bool} {A : Option FAttr → Prop} : (last = true ∨ ∀ fa, A fa → framingOf fa ≠ .rest) →
      Renewable last A (List Byte) decStr encBytes
  | ipv4 {last : Bool} {A : Option FAttr → Prop} : Renewable last A (List Byte) decIpv4 encIp
  | ipv6 {last : Bool} {A : Option FAttr → Prop} : Renewable last A (List Byte) decIpv6 encIp
  | ip {last : Bool} {A : Option FAttr → Prop} : Renewable last A IpAddr decIpAddr encIpAddr
  | mac {last : Bool} {A : Option FAttr → Prop} : Renewable last A (List Byte) decMac encMac
  | net {last : Bool} {A : Option FAttr → Prop} : (∀ fr, A (some fr) → fr.bits = none) → Renewable last A NetAddr decNet encNet
  | unit {last : Bool} {A : Option FAttr → Prop} : Renewable last A Unit decUnit encUnit
  | vec {last : Bool} {A : Option FAttr → Prop} {α : Type} {d : Dec α} {e : Enc α} (fuel : Nat) :
      (∀ fr, A (some fr) → fr.loopSkipStarts = none ∧ fr.tryCount = none ∧
        (fr.count = none ∨ fr.byteCountOutside = none)) →
      Renewable false A α d e → Renewable last A (List α) (decVec fuel d) (encVec e)
  /-- A list with `loop_skip_starts` where nothing follows. -/
  | loop {A : Option FAttr → Prop} {α : Type} {d : Dec α} {e : Enc α} (fuel : Nat) :
      (∀ fa, A fa → ∃ p, p ≠ [] ∧ fa.bind (·.loopSkipStarts) = some p) →
      Renewable false A α d e → Renewable true A (List α) (decVec fuel d) (encVec e)
  /-- A list with `try_count` where nothing follows: after nothing the decoder of the elements fails. -/
  | tries {A : Option FAttr → Prop} {α : Type} {d : Dec α} {e : Enc α} (fuel : Nat) :
      (∀ fa, A fa → ∃ fr n, fa = some fr ∧ fr.loopSkipStarts = none ∧ fr.count = none ∧ fr.tryCount = some n ∧
        fr.byteCountOutside = none) →
      (∀ ca fa, A fa → ∀ b x b', b.Ok → d ca fa b = (.err x, b') → b'.Ok) →
      (∀ ca fa, A fa → ∀ pre : List Byte, pre.length ≤ isizeMax →
        ∃ x, d ca fa ⟨pre, pre.length⟩ = (.err x, ⟨pre, pre.length⟩)) →
      Renewable false A α d e → Renewable true A (List α) (decVec fuel d) (encVec e)
  | array {last : Bool} {A : Option FAttr → Prop} {α : Type} {d : Dec α} {e : Enc α} (k : Nat) :
      Renewable false A α d e → Renewable last A (List α) (decArray k d) (encArray e)
  | tuple {last : Bool} {A : Option FAttr → Prop} {α : Type} (cs : List (Dec α × Enc α)) :
      (∀ c ∈ cs, Renewable false A α c.1 c.2) →
      Renewable last A (List α) (decTuple (cs.map (·.1))) (encTuple (cs.map (·.2)))
  /-- An `Option` where nothing follows: after nothing the inner decoder fails. -/
  | option {A : Option FAttr → Prop} {α : Type} {d : Dec α} {e : Enc α} :
      (∀ ca fa, A fa → ∀ b x b', b.Ok → d ca fa b = (.err x, b') → b'.Ok) →
      (∀ ca fa, A fa → ∀ pre : List Byte, pre.length ≤ isizeMax →
        ∃ x, d ca fa ⟨pre, pre.length⟩ = (.err x, ⟨pre, pre.length⟩)) →
      Renewable true A α d e → Renewable true A (Option α) (decOption d) (encOption e)
  /-- A type seen as a part of a sum type. -/
  | inject {last : Bool} {A : Option FAttr → Prop} {α β : Type} {d : Dec α} {e : Enc α} (f : α → β) (g : β → Option α) :
      (∀ a, g (f a) = some a) → Renewable last A α d e →
      Renewable last A β (fun ca fa => do
        let a ← d ca fa
        return f a) (fun v ca fa => encOption e (g v) ca fa)
  | struct {last : Bool} {A : Option FAttr → Prop} {V : Type} (S : StructDef V) (As : Field V → Option FAttr → Prop)
      (ps : List (Bool × Stretch V)) : S.withDecode = none → S.withEncode = none →
      (S.tuple = true → ∀ f ∈ S.fields, f.attrs.isUse = true) →
      S.fields = ps.flatMap (·.2.fields) → Flags last ps → (∀ p ∈ ps, p.2.Fine S.container As) →
      (∀ p ∈ ps, ∀ f, p.2 = .plain f → Renewable p.1 (As f) V f.dec f.enc) →
      Renewable last A (List V) (decStruct S) (encStruct S)
  | enum {last : Bool} {A : Option FAttr → Prop} {V : Type} (E : EnumDef V) (As : Field V → Option FAttr → Prop)
      (ps : Variant V → List (Bool × Stretch V)) : E.withDecode = none → (∀ u, E.mode ≠ .startsWith u) →
      (∀ ca fa, A fa → TagsBack E ca fa) →
      (∀ v ∈ E.variants, v.attrs.isUse = false ∧ v.attrs.byteorder = none ∧ v.attrs.offset = none ∧ NoLeak none v.fields) →
      (∀ v ∈ E.variants, v.fields = (ps v).flatMap (·.2.fields) ∧ Flags last (ps v)) →
      (∀ v ∈ E.variants, ∀ p ∈ ps v, p.2.Fine E.container As) →
      (∀ v ∈ E.variants, ∀ p ∈ ps v, ∀ f, p.2 = .plain f → Renewable p.1 (As f) V f.dec f.enc) →
      Renewable last A (Nat × List V) (decEnum E) (encEnum E)
  /-- An enum with `branch_starts_with`, no default variant, and words none of which begins another. -/
  | words {last : Bool} {A : Option FAttr → Prop} {V : Type} (E : EnumDef V) (As : Field V → Option FAttr → Prop)
      (ps : Variant V → List (Bool × Stretch V)) : E.withDecode = none → E.mode = .startsWith false → WordsApart E →
      (∀ v ∈ E.variants, v.attrs.isUse = false ∧ v.attrs.byteorder = none ∧ v.attrs.offset = none ∧ NoLeak none v.fields) →
      (∀ v ∈ E.variants, v.fields = (ps v).flatMap (·.2.fields) ∧ Flags last (ps v)) →
      (∀ v ∈ E.variants, ∀ p ∈ ps v, p.2.Fine E.container As) →
      (∀ v ∈ E.variants, ∀ p ∈ ps v, ∀ f, p.2 = .plain f → Renewable p.1 (As f) V f.dec f.enc) →
      Renewable last A (Nat × List V) (decEnum E) (encEnum E)

theorem Repeats.takeChar : Repeats takeChar :=
  (Repeats.takeBytes 1).bind fun v => (Repeats.index0 v).map _

theorem Renews.tuple (last : Bool) (ca : Option CAttr) (fa : Option FAttr) (cs : List (Dec α × Enc α))
    (h : ∀ c ∈ cs, Renews false (c.1 ca fa) (fun v => c.2 v ca fa)) :
    Renews last (decTuple (cs.map (·.1)) ca fa) (fun v => encTuple (cs.map (·.2)) v ca fa) := by
  refine Renews.last ?_ last
  induction cs with
  | nil =>
    intro b v b' hb he
    cases he
    exact ⟨hb, [], Appends.pure0.writes, fun suf _ => Reads.pure _ _⟩
  | cons c cs ih =>
    intro b v b' hb he
    obtain ⟨a, b1, e1, e2⟩ := bind_ok (m := c.1 ca fa) he
    obtain ⟨as, b2, e3, e4⟩ := bind_ok (m := decTuple (cs.map (·.1)) ca fa) e2
    rw [pure_apply, Prod.mk.injEq, Out.ok.injEq] at e4
    obtain ⟨rfl, rfl⟩ := e4
    obtain ⟨o1, w1, p1, p2⟩ := h c (by simp) b a b1 hb e1
    obtain ⟨o2, w2, q1, q2⟩ := ih (fun c hc => h c (by simp [hc])) b1 as b2 o1 e3
    exact ⟨o2, w1 ++ w2, p1.seq q1, fun suf hs => Reads.bind (p2 _ (fun h => nomatch h)) ((q2 suf hs).map _)⟩

theorem Stretch.variables {ca : Option CAttr} {As : Field V → Option FAttr → Prop} {p : Stretch V} (h : p.Fine ca As) :
    ∀ f ∈ p.fields, f.attrs.variableName = none := by
  cases p with
  | plain f => intro g hg; simp only [Stretch.fields, List.mem_singleton] at hg; subst hg; exact h.1.variables
  | skip f => intro g hg; simp only [Stretch.fields, List.mem_singleton] at hg; subst hg; exact h.2.2.2.2.1
  | word inj k o fs m ms =>
    have hw := h.2.2.2.1
    simp only [Stretch.fields]
    clear h
    generalize m :: ms = l at hw
    induction fs generalizing l with
    | nil => intro g hg; simp at hg
    | cons f fs ih =>
      rcases l with _ | ⟨m', l⟩
      · cases fs <;> exact hw.elim
      · rcases fs with _ | ⟨g, fs⟩
        · rcases l with _ | ⟨m2, l⟩
          · intro g hg
            simp only [List.mem_singleton] at hg
            subst hg
            exact hw.1.variables
          · exact hw.elim
        · intro x hx
          rw [List.mem_cons] at hx
          rcases hx with rfl | hx
          · exact hw.1.variables
          · exact ih l hw.2.2 x hx

theorem Stretch.renews {ca : Option CAttr} {As : Field V → Option FAttr → Prop} {last : Bool} {p : Stretch V} (h : p.Fine ca As)
    (hp : ∀ f, p = .plain f → ∀ ca fa, As f fa → Renews last (f.dec ca fa) (fun v => f.enc v ca fa)) :
    SegRenews last ca p.fields := by
  cases p with
  | plain f => exact SegRenews.plain f h.1 (fun env => hp f rfl _ _ (h.2.1 env)) h.2.2.1 h.2.2.2
  | skip f => exact SegRenews.skip f h.2.2.2.2.2 h.2.1 h.2.2.1 h.1 h.2.2.2.1
  | word inj k o fs m ms =>
    obtain ⟨h1, h2, h3, h4, h5, h6, h7, h8⟩ := h
    exact SegRenews.word h1 h2 h3 o fs m ms h4 h5 h6 h7 h8

theorem SegRenews.last {ca : Option CAttr} {fs : List (Field V)} {c last : Bool} (h : SegRenews c ca fs)
    (hc : c = true → last = true) : SegRenews last ca fs := fun env b vs b' hb he =>
  let ⟨h1, w, h2⟩ := h env b vs b' hb he
  ⟨h1, w, fun suf hs => h2 suf fun h => hs (hc h)⟩

theorem stretches_renew {ca : Option CAttr} {As : Field V → Option FAttr → Prop} {last : Bool} :
    ∀ (ps : List (Bool × Stretch V)), Flags last ps → (∀ p ∈ ps, p.2.Fine ca As) →
    (∀ p ∈ ps, ∀ f, p.2 = .plain f → ∀ ca fa, As f fa → Renews p.1 (f.dec ca fa) (fun v => f.enc v ca fa)) →
    SegRenews last ca (ps.flatMap (·.2.fields))
  | [], _, _, _ => SegRenews.nil last ca
  | [p], h1, h2, h3 => by
    have r := Stretch.renews (h2 p (by simp)) (h3 p (by simp))
    simpa using r.last h1
  | p :: q :: ps, h1, h2, h3 => by
    have r := Stretch.renews (h2 p (by simp)) (h3 p (by simp))
    rw [h1.1] at r
    rw [List.flatMap_cons]
    exact r.append (stretches_renew (q :: ps) h1.2 (fun x hx => h2 x (by simp [hx])) fun x hx => h3 x (by simp [hx]))
      (Stretch.variables (h2 p (by simp)))

theorem Renewable.renews {last : Bool} {A : Option FAttr → Prop} {d : Dec α} {e : Enc α} (h : Renewable last A α d e) :
    ∀ ca fa, A fa → Renews last (d ca fa) (fun v => e v ca fa) := by
  induction h with
  | stop => exact fun ca fa _ => Renews.timeout _ _
  | int k hk hb =>
    exact fun ca fa hA => Renews.ofRe (Repeats.decInt k ca fa) (Re.int k hk ca fa fun fr h => hb fr (h ▸ hA)) _
  | f32 => exact fun ca fa _ => Renews.ofRe (Repeats.takeScalar _ _) (Re.f32 ca fa) _
  | f64 => exact fun ca fa _ => Renews.ofRe (Repeats.takeScalar _ _) (Re.f64 ca fa) _
  | char => exact fun ca fa _ => Renews.ofRe Repeats.takeChar (Re.char ca fa) _
  | bool => exact fun ca fa _ => Renews.bool ca fa _
  | bytes h => exact fun ca fa hA => Renews.bytes ca fa _ (h.imp id fun h => h fa hA)
  | str h => exact fun ca fa hA => Renews.str ca fa _ (h.imp id fun h => h fa hA)
  | ipv4 => exact fun ca fa _ => Renews.ofRe (Repeats.decIpv4 ca fa) (Re.ipv4 ca fa) _
  | ipv6 => exact fun ca fa _ => Renews.ofRe (Repeats.decIpv6 ca fa) (Re.ipv6 ca fa) _
  | ip => exact fun ca fa _ => Renews.ofRe (Repeats.decIpAddr ca fa) (Re.ip ca fa) _
  | mac => exact fun ca fa _ => Renews.ofRe (Repeats.decMac ca fa) (Re.mac ca fa) _
  | net hb =>
    exact fun ca fa hA => Renews.ofRe (Repeats.decNet ca fa) (Re.net ca fa fun fr h => hb fr (h ▸ hA)) _
  | unit => exact fun ca fa _ => Renews.ofRe (d := decUnit) (e := encUnit) (Repeats.pure ()) (Gives.pure Appends.pure0) _
  | vec fuel hf _ ih => exact fun ca fa hA => Renews.vec (ih ca fa hA) fuel _ fun fr h => hf fr (h ▸ hA)
  | loop fuel hf _ ih =>
    intro ca fa hA
    obtain ⟨p, h1, h2⟩ := hf fa hA
    exact Renews.loop (ih ca fa hA) fuel h2 h1
  | tries fuel hf h1 h2 _ ih =>
    intro ca fa hA
    obtain ⟨fr, n, rfl, a1, a2, a3, a4⟩ := hf fa hA
    exact Renews.tries (ih ca _ hA) fuel a1 a2 a3 a4 (h1 ca _ hA) (h2 ca _ hA)
  | array k _ ih => exact fun ca fa hA => Renews.array (ih ca fa hA) k _
  | tuple cs _ ih => exact fun ca fa hA => Renews.tuple _ ca fa cs fun c hc => ih c hc ca fa hA
  | option h1 h2 _ ih => exact fun ca fa hA => Renews.option (ih ca fa hA) (h1 ca fa hA) (h2 ca fa hA)
  | inject f g hg _ ih => exact fun ca fa hA => Renews.inject (ih ca fa hA) f g hg
  | struct S As ps h1 h2 h3 h4 h5 h6 _ ih =>
    exact fun ca fa _ => Renews.struct S h1 h2 h3 (h4 ▸ stretches_renew ps h5 h6 ih) ca fa
  | enum E As ps h1 h2 h3 h4 h5 h6 _ ih =>
    exact fun ca fa hA => Renews.enum E h1 h2 h4
      (fun v hv => (h5 v hv).1 ▸ stretches_renew (ps v) (h5 v hv).2 (h6 v hv) (ih v hv)) ca fa (h3 ca fa hA)
  | words E As ps h1 h2 h3 h4 h5 h6 _ ih =>
    exact fun ca fa _ => Renews.words E h1 h2 h4
      (fun v hv => (h5 v hv).1 ▸ stretches_renew (ps v) (h5 v hv).2 (h6 v hv) (ih v hv)) h3 ca fa

end JBytes
