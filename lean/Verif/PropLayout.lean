import Verif.LayoutWrite
import Verif.PropPackets
import Verif.PropStruct
/-!
# Types of fixed layout (C111)

A type built from numbers, addresses, flags, byte strings of a stated length, arrays and lists of a stated count, structs
of these and enums whose variants have one size takes a number of bytes that can be read off its definition.  Every field
stands at a fixed distance from the beginning, can be read there by itself, and depends on no other byte.
-/

namespace JBytes
open M

variable {α β V : Type}

theorem Room.of_ok {need size : Nat} {b : Buf} (hb : b.Ok) (hn : need ≤ isizeMax) (hs : size ≤ isizeMax) :
    Room need size b := by
  have h1 := hb.1
  have h2 := hb.2
  rw [isizeMax_def] at h2 hn hs
  exact ⟨hb.2, by rw [usizeMod_def]; omega, by rw [usizeMod_def]; omega⟩

/-! ## Decoding -/

/-- C111, decoding: a type of fixed layout without checks is decoded exactly if its bytes are there, whatever they are,
and its size is always the same. -/
theorem C111_decode {G : Option FAttr → Prop} {need size : Nat} (d : Dec α) (h : Fixed true G need size α d)
    (ca : Option CAttr) (fa : Option FAttr) (hg : G fa) (hn : need ≤ isizeMax) (hs : size ≤ isizeMax) (b : Buf)
    (hb : b.Ok) :
    (b.pos + need ≤ b.data.length → ∃ v, d ca fa b = (.ok v, ⟨b.data, b.pos + size⟩)) ∧
    (b.data.length < b.pos + need → ∃ e b', d ca fa b = (.err e, b') ∧ e.code = .invalidByteLength) := by
  have r := Room.of_ok hb hn hs
  have hr := h.reads ca fa hg
  refine ⟨fun he => ?_, fun he => ?_⟩
  · rcases hr.enough b b r r (.inr he) (.inr he) rfl with ⟨v, h1, _⟩ | ⟨h1, _⟩
    · exact ⟨v, h1⟩
    · cases h1
  · obtain ⟨e, b', h1, h2⟩ := hr.short b r fun h => by
      rcases h with h | h
      · have := hb.1; omega
      · omega
    exact ⟨e, b', h1, h2 rfl⟩

/-- C111, decoding with checks (`check_value`, text, tags): the result is a value behind as many bytes as always, or an
error; it is an error if the bytes are not there. -/
theorem C111_checked {total : Bool} {G : Option FAttr → Prop} {need size : Nat} (d : Dec α)
    (h : Fixed total G need size α d) (ca : Option CAttr) (fa : Option FAttr) (hg : G fa) (hn : need ≤ isizeMax)
    (hs : size ≤ isizeMax) (b : Buf) (hb : b.Ok) :
    (∃ v, d ca fa b = (.ok v, ⟨b.data, b.pos + size⟩) ∧ b.pos + need ≤ b.data.length) ∨
    ∃ e b', d ca fa b = (.err e, b') := by
  have r := Room.of_ok hb hn hs
  have hr := h.reads ca fa hg
  rcases Classical.em (Enough need b) with he | he
  · rcases hr.enough b b r r he he rfl with ⟨v, h1, _⟩ | ⟨_, h1, _⟩
    · refine .inl ⟨v, h1, ?_⟩
      rcases he with he | he
      · have := hb.1; omega
      · exact he
    · exact .inr h1
  · obtain ⟨e, b', h1, _⟩ := hr.short b r he
    exact .inr ⟨e, b', h1⟩

/-- C111, what the value depends on: the bytes of the layout and no others, wherever they stand. -/
theorem C111_window {total : Bool} {G : Option FAttr → Prop} {need size : Nat} (d : Dec α)
    (h : Fixed total G need size α d) (ca : Option CAttr) (fa : Option FAttr) (hg : G fa) (hn : need ≤ isizeMax)
    (hs : size ≤ isizeMax) (b1 b2 : Buf) (h1 : b1.Ok) (h2 : b2.Ok) (he1 : b1.pos + need ≤ b1.data.length)
    (he2 : b2.pos + need ≤ b2.data.length)
    (hw : (b1.data.drop b1.pos).take need = (b2.data.drop b2.pos).take need) (v : α) :
    d ca fa b1 = (.ok v, ⟨b1.data, b1.pos + size⟩) ↔ d ca fa b2 = (.ok v, ⟨b2.data, b2.pos + size⟩) := by
  rcases (h.reads ca fa hg).enough b1 b2 (Room.of_ok h1 hn hs) (Room.of_ok h2 hn hs) (.inr he1) (.inr he2) hw with
    ⟨v', e1, e2⟩ | ⟨_, ⟨x1, y1, e1⟩, ⟨x2, y2, e2⟩⟩
  · rw [e1, e2]
    constructor <;> (intro h; cases h; rfl)
  · rw [e1, e2]
    constructor <;> (intro h; cases h)

/-- C111 at the crate root: `decode` succeeds exactly if the input is long enough, and the bytes behind the layout make
no difference. -/
theorem C111_top {need size : Nat} {G : Option FAttr → Prop} (d : Dec α) (h : Fixed true G need size α d) (hg : G none)
    (hn : need ≤ isizeMax) (hs : size ≤ isizeMax) (input : List Byte) (hl : input.length ≤ isizeMax) :
    ((∃ v, decodeTop d input = .ok v) ↔ need ≤ input.length) ∧
    (need ≤ input.length → decodeTop d input = decodeTop d (input.take need)) := by
  have hb : Buf.Ok (Buf.ofBytes input) := ⟨Nat.zero_le _, hl⟩
  have h1 := C111_decode d h none none hg hn hs (Buf.ofBytes input) hb
  have e1 : (Buf.ofBytes input).pos + need = need := Nat.zero_add _
  rw [e1] at h1
  refine ⟨⟨fun ⟨v, hv⟩ => ?_, fun hle => ?_⟩, fun hle => ?_⟩
  · rcases Nat.lt_or_ge input.length need with h2 | h2
    · obtain ⟨e, b', h3, _⟩ := h1.2 h2
      unfold decodeTop at hv
      rw [h3] at hv
      cases hv
    · exact h2
  · obtain ⟨v, hv⟩ := h1.1 hle
    exact ⟨v, by unfold decodeTop; rw [hv]⟩
  · obtain ⟨v, hv⟩ := h1.1 hle
    have hb2 : Buf.Ok (Buf.ofBytes (input.take need)) := ⟨Nat.zero_le _, by
      show (input.take need).length ≤ _; rw [List.length_take]; omega⟩
    have := (C111_window d h none none hg hn hs (Buf.ofBytes input) (Buf.ofBytes (input.take need)) hb hb2
      (by show 0 + need ≤ input.length; omega)
      (by show 0 + need ≤ (input.take need).length; rw [List.length_take]; omega)
      (by
        show (input.drop 0).take need = ((input.take need).drop 0).take need
        rw [List.drop_zero, List.drop_zero, List.take_take, Nat.min_self]) v).mp hv
    unfold decodeTop
    rw [hv, this]

/-! ## Fields -/

theorem fields_at {total : Bool} (keep : Bool) (Q : Option FAttr → Prop) (ps : List (Field V × GetPlace)) :
    (∀ p ∈ ps, LaidAttrs total p.1.attrs p.2.off) →
    (∀ p ∈ ps, PassesOn keep Q p.1.attrs p.2.under) →
    (∀ p ∈ ps, p.1.attrs.untake = true → p.2.size ≤ p.2.need) →
    (∀ p ∈ ps, ∀ ca fa, p.2.under fa → FixedRead total p.2.need p.2.size (p.1.dec ca fa)) →
    ∀ (ca : Option CAttr) (old : Option FAttr) (env : Env V), Q old → ∀ (b b' : Buf) (vs : List V),
      Room (layNeed ps) (laySize ps) b →
      decFields keep (ps.map Prod.fst) ca old env b = (.ok vs, b') →
      vs.length = ps.length ∧ ∀ i p, ps[i]? = some p → ∃ v ca' fa, vs[i]? = some v ∧ p.2.under fa ∧
        (keep = false → ∀ c, p.1.attrs.toCode { env with fields := env.fields ++ vs.take i } c = (.ok fa, c)) ∧
        ((∀ q ∈ ps, q.1.attrs.variableName = none) → ca' = ca) ∧
        Room (fieldNeed p.1.attrs p.2) (fieldSize p.1.attrs p.2) ⟨b.data, b.pos + laySize (ps.take i)⟩ ∧
        decField p.1 { env with fields := env.fields ++ vs.take i } ca' fa ⟨b.data, b.pos + laySize (ps.take i)⟩ =
          (.ok v, ⟨b.data, b.pos + laySize (ps.take i) + fieldSize p.1.attrs p.2⟩) := by
  induction ps with
  | nil =>
    intro _ _ _ _ ca old env _ b b' vs _ he
    cases he
    exact ⟨rfl, fun i p h => by cases h⟩
  | cons p ps ih =>
    intro ha hp hu hd ca old env hq b b' vs hr he
    have hp0 := List.mem_cons_self (a := p) (l := ps)
    rw [List.map_cons, decFields] at he
    obtain ⟨fa, b0, e0, he⟩ := bind_ok he
    obtain ⟨v, b1, e1, he⟩ := bind_ok he
    obtain ⟨rest, b2, e2, he⟩ := bind_ok he
    cases he
    have hfa : b0 = b ∧ p.2.under fa ∧ Q fa ∧ (keep = false → ∀ c, p.1.attrs.toCode env c = (.ok fa, c)) := by
      by_cases hk : (keep && !p.1.attrs.isUse) = true
      · rw [if_pos hk] at e0
        simp only [Bool.and_eq_true, Bool.not_eq_true'] at hk
        cases e0
        refine ⟨rfl, (hp p hp0).kept hk.1 hk.2 old hq, hq, fun h => ?_⟩
        rw [hk.1] at h; cases h
      · rw [if_neg hk] at e0
        have hk' : keep = false ∨ p.1.attrs.isUse = true := by
          cases keep <;> simp_all
        unfold FieldAttrs.toCode at e0 ⊢
        by_cases h : (p.1.attrs.isUse && p.1.attrs.anySet) = true
        · rw [if_pos h] at e0 ⊢
          obtain ⟨o, b3, e3, e4⟩ := bind_ok e0
          cases e4
          have hc : ∀ c, orderCode p.1.attrs.byteorder env c = (.ok o, c) ∧ b0 = b := by
            intro c
            unfold orderCode at e3 ⊢
            cases hbo : p.1.attrs.byteorder with
            | none => simp only [hbo] at e3 ⊢; cases e3; exact ⟨rfl, rfl⟩
            | some x =>
              cases x with
              | lit o => simp only [hbo] at e3 ⊢; cases e3; exact ⟨rfl, rfl⟩
              | expr e =>
                simp only [hbo] at e3 ⊢
                rcases (ha p hp0).order e env hbo with h0 | h0 <;> simp only [h0] at e3 ⊢ <;> cases e3 <;> exact ⟨rfl, rfl⟩
          refine ⟨(hc b).2, ((hp p hp0).set h o env).1, ((hp p hp0).set h o env).2, fun _ c => ?_⟩
          rw [bind_apply, (hc c).1]
          rfl
        · rw [if_neg h] at e0 ⊢
          cases e0
          have h' : (p.1.attrs.isUse && p.1.attrs.anySet) = false := by simpa using h
          exact ⟨rfl, ((hp p hp0).unset h' hk').1, ((hp p hp0).unset h' hk').2, fun _ c => rfl⟩
    obtain ⟨rfl, hg, hqa, hcode⟩ := hfa
    have hfr := FixedRead.decField (env := env) (ha p hp0) (hu p hp0) (hd p hp0 ca fa hg)
    have hr2 := hr.split
    obtain ⟨_, rfl⟩ := hfr.ok hr2.1 e1
    obtain ⟨hl, hi⟩ := ih (fun q hm => ha q (List.mem_cons_of_mem _ hm)) (fun q hm => hp q (List.mem_cons_of_mem _ hm))
      (fun q hm => hu q (List.mem_cons_of_mem _ hm)) (fun q hm => hd q (List.mem_cons_of_mem _ hm)) _ fa (env.push v) hqa
      _ _ rest hr2.2 e2
    refine ⟨by simp only [List.length_cons, hl], fun i q hq' => ?_⟩
    cases i with
    | zero =>
      simp only [List.getElem?_cons_zero, Option.some.injEq] at hq'
      subst hq'
      refine ⟨v, ca, fa, rfl, hg, ?_, fun _ => rfl, ?_, ?_⟩
      · simpa using hcode
      · simpa [laySize] using hr2.1
      · simpa [laySize] using e1
    | succ i =>
      simp only [List.getElem?_cons_succ] at hq'
      obtain ⟨w, ca', fa', h1, h2, h3, h4, h5, h6⟩ := hi i q hq'
      have henv : ({ env.push v with fields := (env.push v).fields ++ rest.take i } : Env V) =
          { env with fields := env.fields ++ (v :: rest).take (i + 1) } := by
        simp [Env.push]
      rw [henv] at h3 h6
      refine ⟨w, ca', fa', h1, h2, h3, fun hv => ?_, ?_, ?_⟩
      · rw [h4 fun q hm => hv q (List.mem_cons_of_mem _ hm)]
        unfold cacheVars
        rw [hv p hp0]
      · simpa [laySize, Nat.add_assoc] using h5
      · simpa [laySize, Nat.add_assoc] using h6

/-- What the theorems about structs ask of the fields. -/
structure LaidOut (total : Bool) (S : StructDef V) (ps : List (Field V × GetPlace)) (Q : Option FAttr → Prop) : Prop where
  custom : S.withDecode = none
  fields : S.fields = ps.map Prod.fst
  start : Q none
  attrs : ∀ p ∈ ps, LaidAttrs total p.1.attrs p.2.off
  passes : ∀ p ∈ ps, PassesOn S.tuple Q p.1.attrs p.2.under
  untake : ∀ p ∈ ps, p.1.attrs.untake = true → p.2.size ≤ p.2.need
  types : ∀ p ∈ ps, Fixed total p.2.under p.2.need p.2.size V p.1.dec

/-- C111, fields in place: after a struct of fixed layout is decoded, each of its fields can be decoded by itself at its
distance from the beginning (the sizes of the fields before it), and gives the value it has in the struct. -/
theorem C111_field {total : Bool} (S : StructDef V) (ps : List (Field V × GetPlace)) (Q : Option FAttr → Prop)
    (h : LaidOut total S ps Q) (hn : layNeed ps ≤ isizeMax) (hs : laySize ps ≤ isizeMax) (ca : Option CAttr)
    (fa : Option FAttr) (b b' : Buf) (hb : b.Ok) (vs : List V) (he : decStruct S ca fa b = (.ok vs, b')) :
    vs.length = S.fields.length ∧ b' = ⟨b.data, b.pos + laySize ps⟩ ∧
    ∀ i p, ps[i]? = some p → ∃ v env ca' fa', vs[i]? = some v ∧ p.2.under fa' ∧ env.fields = vs.take i ∧
      decField p.1 env ca' fa' ⟨b.data, b.pos + laySize (ps.take i)⟩ =
        (.ok v, ⟨b.data, b.pos + laySize (ps.take i) + fieldSize p.1.attrs p.2⟩) := by
  have hr := Room.of_ok hb hn hs
  have hfr := (Fixed.struct S ps Q h.custom h.fields h.start h.attrs h.passes h.untake h.types).reads ca fa trivial
  obtain ⟨_, hb'⟩ := hfr.ok hr he
  unfold decStruct at he
  rw [h.custom, h.fields] at he
  obtain ⟨h1, h2⟩ := fields_at S.tuple Q ps h.attrs h.passes h.untake (fun p hm ca fa hg => (h.types p hm).reads ca fa hg)
    _ none _ h.start b b' vs hr he
  refine ⟨by rw [h1, h.fields, List.length_map], hb', fun i p hp => ?_⟩
  obtain ⟨v, ca', fa', g1, g2, _, _, _, g6⟩ := h2 i p hp
  exact ⟨v, _, ca', fa', g1, g2, by simp, g6⟩

/-- The modifiers of a field do not look at the other fields. -/
structure Alone (f : Field V) : Prop where
  code : ∀ env env', f.attrs.toCode env = f.attrs.toCode env'
  dec : ∀ env env' ca fa, decField f env ca fa = decField f env' ca fa

/-- C111, damage is contained: if two inputs hold the same bytes at the place of a field whose modifiers do not look at
other fields, the field has the same value in both, whatever the other bytes. -/
theorem C111_contained {total : Bool} (S : StructDef V) (ht : S.tuple = false) (ps : List (Field V × GetPlace))
    (Q : Option FAttr → Prop) (h : LaidOut total S ps Q) (hn : layNeed ps ≤ isizeMax) (hs : laySize ps ≤ isizeMax)
    (hvn : ∀ p ∈ ps, p.1.attrs.variableName = none) (ca : Option CAttr) (fa : Option FAttr) (b1 b2 c1 c2 : Buf)
    (hb1 : b1.Ok) (hb2 : b2.Ok) (vs1 vs2 : List V) (he1 : decStruct S ca fa b1 = (.ok vs1, c1))
    (he2 : decStruct S ca fa b2 = (.ok vs2, c2)) (i : Nat) (p : Field V × GetPlace) (hp : ps[i]? = some p)
    (hal : Alone p.1)
    (hw : (b1.data.drop (b1.pos + laySize (ps.take i))).take (fieldNeed p.1.attrs p.2) =
      (b2.data.drop (b2.pos + laySize (ps.take i))).take (fieldNeed p.1.attrs p.2)) :
    vs1[i]? = vs2[i]? := by
  have hm : p ∈ ps := List.mem_of_getElem? hp
  unfold decStruct at he1 he2
  rw [h.custom, h.fields] at he1 he2
  obtain ⟨_, h1⟩ := fields_at S.tuple Q ps h.attrs h.passes h.untake (fun p hm ca fa hg => (h.types p hm).reads ca fa hg)
    _ none _ h.start b1 c1 vs1 (Room.of_ok hb1 hn hs) he1
  obtain ⟨_, h2⟩ := fields_at S.tuple Q ps h.attrs h.passes h.untake (fun p hm ca fa hg => (h.types p hm).reads ca fa hg)
    _ none _ h.start b2 c2 vs2 (Room.of_ok hb2 hn hs) he2
  obtain ⟨v1, ca1, fa1, g1, g2, g3, g4, g5, g6⟩ := h1 i p hp
  obtain ⟨v2, ca2, fa2, k1, k2, k3, k4, k5, k6⟩ := h2 i p hp
  have hc1 := g4 hvn
  have hc2 := k4 hvn
  subst hc1 hc2
  have hf : fa1 = fa2 := by
    have e1 := g3 ht b1
    have e2 := k3 ht b1
    rw [hal.code _ { vars := [], fields := [] }] at e1 e2
    rw [e1] at e2
    cases e2
    rfl
  subst hf
  have hfr := FixedRead.decField (env := { vars := [], fields := [] }) (h.attrs p hm) (h.untake p hm)
    ((h.types p hm).reads S.container fa1 g2)
  rw [hal.dec _ { vars := [], fields := [] }] at g6 k6
  rw [g1, k1]
  rcases hfr.enough _ _ g5 k5 (hfr.ok g5 g6).1 (hfr.ok k5 k6).1 hw with ⟨v, e1, e2⟩ | ⟨_, ⟨x, y, e1⟩, _⟩
  · rw [e1] at g6
    rw [e2] at k6
    cases g6
    cases k6
    rfl
  · rw [e1] at g6; cases g6

/-! ## Encoding -/

/-- C111, encoding: every value of a type of fixed layout makes the buffer longer by the same number of bytes. -/
theorem C111_encode_partial {G : Option FAttr → Prop} {P : α → Prop} {size : Nat} (e : Enc α) (h : FixedEnc G P 0 size e)
    (v : α) (hv : P v) (ca : Option CAttr) (fa : Option FAttr) (hg : G fa) (data : List Byte)
    (hs : data.length + size ≤ isizeMax) :
    ∃ n data', e v ca fa ⟨data, data.length⟩ = (.ok n, ⟨data', data'.length⟩) ∧ data'.length = data.length + size := by
  obtain ⟨n, ⟨data', pos⟩, h1, h2, h3⟩ := h.writes v ca fa hv hg ⟨data, data.length⟩ rfl (Nat.zero_le _) hs
  change pos = data'.length at h2
  subst h2
  exact ⟨n, data', h1, h3⟩

/-- C111 at the crate root, and in both directions: all values are encoded to the same number of bytes, and what is
encoded can be decoded, behind the same number of bytes. -/
theorem C111_both_partial {G H : Option FAttr → Prop} {P : α → Prop} {need size : Nat} (e : Enc α) (d : Dec α)
    (he : FixedEnc H P 0 size e) (hd : Fixed true G need size α d) (hg : G none) (hh : H none) (hn : need ≤ size)
    (hs : size ≤ isizeMax) (v : α) (hv : P v) :
    ∃ b, encodeTop e v = .ok b ∧ b.data.length = size ∧
      ∃ v', d none none ⟨b.data, 0⟩ = (.ok v', ⟨b.data, b.data.length⟩) := by
  obtain ⟨n, data', h1, h2⟩ := C111_encode_partial e he v hv none none hh [] (by simpa using hs)
  have h3 : data'.length = size := by simpa using h2
  refine ⟨⟨data', data'.length⟩, ?_, h3, ?_⟩
  · unfold encodeTop
    have : Buf.new = ⟨[], ([] : List Byte).length⟩ := rfl
    rw [this, h1]
  · obtain ⟨v', hv'⟩ := (C111_decode d hd none none hg (by omega) hs ⟨data', 0⟩ ⟨Nat.zero_le _, by
      show data'.length ≤ _; omega⟩).1 (by show 0 + need ≤ data'.length; omega)
    refine ⟨v', ?_⟩
    rw [hv']
    show (_, (⟨data', 0 + size⟩ : Buf)) = (_, ⟨data', data'.length⟩)
    rw [h3, Nat.zero_add]

/-! ## Where the size is not fixed -/

/-- `#[jbytes(length = 4)] name: String` -/
def namePlate : StructDef Val := { fields := [bytesField { isUse := true, length := some fun _ => 4 }, u8Field {}] }

/-- C111 fails for byte strings and texts: `length = 4` is asked of the input, but not of the value.  A shorter value is
written as it is, and what is written is refused or read as something else. -/
theorem C111_violated :
    encStruct namePlate [.bytes [65, 66], .num 7] none none ⟨[], 0⟩ = (.ok 3, ⟨[65, 66, 7], 3⟩) ∧
    (decStruct namePlate none none ⟨[65, 66, 7], 0⟩).1 = .err ⟨0, .invalidByteLength⟩ ∧
    (decStruct namePlate none none ⟨[65, 66, 7, 65, 66, 7], 0⟩).1 = .ok [.bytes [65, 66, 7, 65], .num 66] := by
  refine ⟨?_, ?_, ?_⟩ <;> decide +kernel

/-! ## Instances -/

/-- A number without a `length`. -/
def noLength (fa : Option FAttr) : Prop := fa.bind (·.length) = none

theorem Pkt.int_fixed (k : IntKind) (hk : k.Valid) (a : FieldAttrs Pkt) :
    Fixed true noLength k.size k.size Pkt (Pkt.int k a).dec := .inject Pkt.num (.int k hk)

/-- The number in a value. -/
def Pkt.num? : Pkt → Option Nat
  | .num n => some n
  | _ => none

theorem Pkt.int_project (k : IntKind) (a : FieldAttrs Pkt) :
    (Pkt.int k a).enc = fun v ca fa => encOption (encInt k) v.num? ca fa := by
  funext v ca fa
  cases v <;> rfl

/-- A field of `tcpFixed` or `udp` with its place for reading, `w` bytes wide. -/
def tcpGet (x : Field Pkt × Nat) : Field Pkt × GetPlace := (x.1, ⟨0, x.2, x.2, noLength⟩)

/-- The fields of the fixed part of the TCP header with their places: the two members of the word at 12 overlap. -/
def tcpPlaces : List (Field Pkt × GetPlace) := (tcpFixed.zip [2, 2, 4, 4, 2, 2, 2, 2, 2]).map tcpGet

/-- A number that begins a word (`w = 0`) or completes one. -/
def wordPart (w : Nat) (fa : Option FAttr) : Prop :=
  noLength fa ∧ (w = 0 → fa.bind (·.bits) = none ∨ fa.map (·.bitsStart) = some true) ∧
    (w ≠ 0 → (fa.bind (·.bits)).isSome ∧ fa.map (·.bitsStart) = some false)

/-- The same for encoding: the first member of the word writes it, the second one completes it. -/
def tcpPut : List (Field Pkt × PutPlace Pkt) :=
  (tcpFixed.zip [(0, 2), (0, 2), (0, 4), (0, 4), (0, 2), (2, 0), (0, 2), (0, 2), (0, 2)]).map fun x =>
    (x.1, ⟨0, x.2.1, x.2.2, fun v => ∃ n, v = .num n,
      wordPart x.2.1⟩)

/-- The fixed part of the TCP header (`tcp` without its options). -/
def tcpHead : StructDef Pkt := { fields := tcpFixed }

theorem tcpHead_laid : LaidOut true tcpHead tcpPlaces fun _ => True where
  custom := rfl
  fields := rfl
  start := trivial
  attrs := by
    simp only [tcpPlaces, tcpFixed, tcpGet, List.zip_cons_cons, List.zip_nil_left, List.map_cons, List.map_nil,
      List.forall_mem_cons, Pkt.int]
    refine ⟨?_, ?_, ?_, ?_, ?_, ?_, ?_, ?_, ?_, fun _ h => nomatch h⟩ <;>
      exact ⟨rfl, rfl, rfl, fun _ => rfl, .inl ⟨rfl, rfl⟩, fun _ _ h => nomatch h⟩
  passes := by
    simp only [tcpPlaces, tcpFixed, tcpGet, List.zip_cons_cons, List.zip_nil_left, List.map_cons, List.map_nil,
      List.forall_mem_cons, Pkt.int]
    refine ⟨?_, ?_, ?_, ?_, ?_, ?_, ?_, ?_, ?_, fun _ h => nomatch h⟩ <;>
      exact ⟨fun _ _ _ => ⟨rfl, trivial⟩, fun _ _ => ⟨rfl, trivial⟩, fun h => nomatch h⟩
  untake := by
    simp only [tcpPlaces, tcpFixed, tcpGet, List.zip_cons_cons, List.zip_nil_left, List.map_cons, List.map_nil,
      List.forall_mem_cons, Pkt.int]
    refine ⟨?_, ?_, ?_, ?_, ?_, ?_, ?_, ?_, ?_, fun _ h => nomatch h⟩ <;> exact fun _ => Nat.le_refl _
  types := by
    simp only [tcpPlaces, tcpFixed, tcpGet, List.zip_cons_cons, List.zip_nil_left, List.map_cons, List.map_nil,
      List.forall_mem_cons]
    refine ⟨?_, ?_, ?_, ?_, ?_, ?_, ?_, ?_, ?_, fun _ h => nomatch h⟩ <;>
      exact Pkt.int_fixed _ (.mk _ _ (by decide)) _

/-- The fixed part of the TCP header needs 20 bytes, and no others are wrong. -/
theorem tcpHead_fixed : Fixed true (fun _ => True) 20 20 (List Pkt) (decStruct tcpHead) :=
  .struct tcpHead tcpPlaces (fun _ => True) tcpHead_laid.custom tcpHead_laid.fields trivial tcpHead_laid.attrs
    tcpHead_laid.passes tcpHead_laid.untake tcpHead_laid.types

theorem Pkt.int_put (k : IntKind) (hk : k.Valid) (a : FieldAttrs Pkt) :
    FixedEnc (wordPart 0) (fun v => ∃ n, v = Pkt.num n) 0 k.size
      (Pkt.int k a).enc := by
  rw [Pkt.int_project]
  refine .weaken (.project Pkt.num? (.int k hk)) (fun fa h => ⟨h.1, h.2.1 rfl⟩) fun v hv => ?_
  obtain ⟨n, rfl⟩ := hv
  exact ⟨n, rfl, trivial⟩

theorem Pkt.member_put (k : IntKind) (hk : k.Valid) (h8 : k.size ≤ 8) (w : Nat) (hw : w ≠ 0) (a : FieldAttrs Pkt) :
    FixedEnc (wordPart w) (fun v => ∃ n, v = Pkt.num n) k.size 0
      (Pkt.int k a).enc := by
  rw [Pkt.int_project]
  refine .weaken (.project Pkt.num? (.member k hk h8)) (fun fa h => ⟨h.1, h.2.2 hw⟩) fun v hv => ?_
  obtain ⟨n, rfl⟩ := hv
  exact ⟨n, rfl, trivial⟩

theorem tcpHead_put : FixedEnc (fun _ => True) (Valued tcpPut) 0 20 (encStruct tcpHead) := by
  refine .struct tcpHead tcpPut rfl rfl ?_ ?_ ?_
  · simp only [tcpPut, tcpFixed, List.zip_cons_cons, List.zip_nil_left, List.map_cons, List.map_nil,
      List.forall_mem_cons, Pkt.int]
    refine ⟨?_, ?_, ?_, ?_, ?_, ?_, ?_, ?_, ?_, fun _ h => nomatch h⟩ <;>
      refine ⟨rfl, rfl, ?_, .inl ⟨rfl, rfl⟩, fun _ _ h => nomatch h⟩
    all_goals
      intro g hg env v hv
      cases hg
    obtain ⟨n, rfl⟩ := hv
    exact ⟨_, rfl⟩
  · simp only [tcpPut, tcpFixed, List.zip_cons_cons, List.zip_nil_left, List.map_cons, List.map_nil,
      List.forall_mem_cons, Pkt.int]
    have plain : PassesOn false (fun _ => True) ({} : FieldAttrs Pkt) (wordPart 0) :=
      ⟨fun h => (nomatch h), fun _ _ => ⟨⟨rfl, fun _ => .inl rfl, fun h => (h rfl).elim⟩, trivial⟩, fun h => (nomatch h)⟩
    exact ⟨plain, plain, plain, plain,
      ⟨fun _ _ _ => ⟨⟨rfl, fun _ => .inr rfl, fun h => (h rfl).elim⟩, trivial⟩, fun h => (nomatch h), fun h => (nomatch h)⟩,
      ⟨fun _ _ _ => ⟨⟨rfl, fun h => (nomatch h), fun _ => ⟨rfl, rfl⟩⟩, trivial⟩, fun h => (nomatch h), fun h => (nomatch h)⟩,
      plain, plain, plain, fun _ h => nomatch h⟩
  · simp only [tcpPut, tcpFixed, List.zip_cons_cons, List.zip_nil_left, List.map_cons, List.map_nil,
      List.forall_mem_cons]
    have v2 : IntKind.Valid ⟨2, false⟩ := .mk _ _ (by decide)
    have v4 : IntKind.Valid ⟨4, false⟩ := .mk _ _ (by decide)
    exact ⟨Pkt.int_put _ v2 _, Pkt.int_put _ v2 _, Pkt.int_put _ v4 _, Pkt.int_put _ v4 _, Pkt.int_put _ v2 _,
      Pkt.member_put _ v2 (by decide) 2 (by decide) _, Pkt.int_put _ v2 _, Pkt.int_put _ v2 _, Pkt.int_put _ v2 _,
      fun _ h => nomatch h⟩

/-- C111 on the fixed part of the TCP header: an input is decoded exactly if it has 20 bytes; every nine numbers are
encoded to 20 bytes, which can be decoded; and inputs that agree in the bytes 14 and 15 have the same window. -/
theorem C111_tcp (input : List Byte) (hl : input.length ≤ isizeMax) :
    ((∃ v, decodeTop (decStruct tcpHead) input = .ok v) ↔ 20 ≤ input.length) ∧
    (∀ vs, Valued tcpPut vs → ∃ b, encodeTop (encStruct tcpHead) vs = .ok b ∧ b.data.length = 20 ∧
      ∃ v, decStruct tcpHead none none ⟨b.data, 0⟩ = (.ok v, ⟨b.data, b.data.length⟩)) ∧
    (∀ input2 : List Byte, input2.length ≤ isizeMax → (input.drop 14).take 2 = (input2.drop 14).take 2 →
      ∀ vs vs2 c c2, decStruct tcpHead none none ⟨input, 0⟩ = (.ok vs, c) →
        decStruct tcpHead none none ⟨input2, 0⟩ = (.ok vs2, c2) → vs[6]? = vs2[6]?) := by
  have h20 : 20 ≤ isizeMax := by rw [isizeMax_def]; decide
  refine ⟨(C111_top _ tcpHead_fixed trivial h20 h20 input hl).1, fun vs hv => ?_, ?_⟩
  · exact C111_both_partial _ _ tcpHead_put tcpHead_fixed trivial trivial (Nat.le_refl _) h20 vs hv
  · intro input2 hl2 hw vs vs2 c c2 h1 h2
    exact C111_contained tcpHead rfl tcpPlaces _ tcpHead_laid h20 h20
      (by
        simp only [tcpPlaces, tcpFixed, tcpGet, List.zip_cons_cons, List.zip_nil_left, List.map_cons, List.map_nil,
          List.forall_mem_cons, Pkt.int]
        exact ⟨trivial, trivial, trivial, trivial, trivial, trivial, trivial, trivial, trivial, fun _ h => nomatch h⟩)
      none none ⟨input, 0⟩ ⟨input2, 0⟩ c c2 ⟨Nat.zero_le _, hl⟩ ⟨Nat.zero_le _, hl2⟩ vs vs2 h1 h2 6 _ rfl
      ⟨fun _ _ => rfl, fun _ _ _ _ => rfl⟩ hw

/-- A mark that must be 7, two bytes to skip, four bytes, two of which are looked at first. -/
def badge : StructDef Val := { fields := [u8Field { isUse := true, checkValue := some fun _ v => v == .num 7 },
  u16Field { isUse := true, offset := some fun _ => 2, untake := true },
  bytesField { isUse := true, length := some fun _ => 4 }] }

/-- The places of the fields of `badge`. -/
def badgePlaces : List (Field Val × GetPlace) := (badge.fields.zip [(⟨0, 1, 1, noLength⟩ : GetPlace), ⟨2, 2, 2, noLength⟩,
  ⟨0, 4, 4, fun fa => fa.bind (·.length) = some 4 ∧ fa.bind (·.key) = none ∧ fa.bind (·.split) = none⟩])

theorem badge_laid : LaidOut false badge badgePlaces fun _ => True where
  custom := rfl
  fields := rfl
  start := trivial
  attrs := List.forall_mem_cons.mpr ⟨⟨rfl, rfl, rfl, fun h => (nomatch h), .inl ⟨rfl, rfl⟩, fun _ _ h => (nomatch h)⟩,
    List.forall_mem_cons.mpr ⟨⟨rfl, rfl, rfl, fun h => (nomatch h), .inr ⟨_, rfl, fun _ => rfl⟩, fun _ _ h => (nomatch h)⟩,
    List.forall_mem_cons.mpr ⟨⟨rfl, rfl, rfl, fun h => (nomatch h), .inl ⟨rfl, rfl⟩, fun _ _ h => (nomatch h)⟩,
    fun _ h => (nomatch h)⟩⟩⟩
  passes := List.forall_mem_cons.mpr ⟨⟨fun _ _ _ => ⟨rfl, trivial⟩, fun _ _ => ⟨rfl, trivial⟩, fun h => (nomatch h)⟩,
    List.forall_mem_cons.mpr ⟨⟨fun _ _ _ => ⟨rfl, trivial⟩, fun _ _ => ⟨rfl, trivial⟩, fun h => (nomatch h)⟩,
    List.forall_mem_cons.mpr ⟨⟨fun _ _ _ => ⟨⟨rfl, rfl, rfl⟩, trivial⟩, fun h => (nomatch h), fun h => (nomatch h)⟩,
    fun _ h => (nomatch h)⟩⟩⟩
  untake := List.forall_mem_cons.mpr ⟨fun _ => Nat.le_refl _, List.forall_mem_cons.mpr ⟨fun _ => Nat.le_refl _,
    List.forall_mem_cons.mpr ⟨fun _ => Nat.le_refl _, fun _ h => (nomatch h)⟩⟩⟩
  types := List.forall_mem_cons.mpr ⟨.inject Val.num (.int ⟨1, false⟩ (.mk _ _ (by decide))),
    List.forall_mem_cons.mpr ⟨.inject Val.num (.int ⟨2, false⟩ (.mk _ _ (by decide))),
    List.forall_mem_cons.mpr ⟨.inject Val.bytes (.bytes 4 (by decide)), fun _ h => (nomatch h)⟩⟩⟩

theorem badge_fixed : Fixed false (fun _ => True) 7 7 (List Val) (decStruct badge) :=
  .struct badge badgePlaces (fun _ => True) badge_laid.custom badge_laid.fields trivial badge_laid.attrs
    badge_laid.passes badge_laid.untake badge_laid.types

/-- `C111_field` on `badge`: the four bytes stand 3 bytes behind the beginning. -/
example (input : List Byte) (hl : input.length ≤ isizeMax) (vs : List Val) (c : Buf)
    (he : decStruct badge none none ⟨input, 0⟩ = (.ok vs, c)) :
    c.pos = 7 ∧ ∃ v env ca fa, vs[2]? = some v ∧ decField (bytesField { isUse := true, length := some fun _ => 4 }) env ca fa
      ⟨input, 3⟩ = (.ok v, ⟨input, 7⟩) := by
  have h7 : 7 ≤ isizeMax := by rw [isizeMax_def]; decide
  obtain ⟨_, h2, h3⟩ := C111_field badge badgePlaces _ badge_laid h7 h7 none none ⟨input, 0⟩ c ⟨Nat.zero_le _, hl⟩ vs he
  obtain ⟨v, env, ca, fa, g1, _, _, g2⟩ := h3 2 _ rfl
  exact ⟨by rw [h2]; rfl, v, env, ca, fa, g1, g2⟩

example : decStruct badge none none ⟨[7, 0, 0, 65, 66, 67, 68, 1], 0⟩ =
    (.ok [.num 7, .num 0x4142, .bytes [65, 66, 67, 68]], ⟨[7, 0, 0, 65, 66, 67, 68, 1], 7⟩) ∧
  (decStruct badge none none ⟨[8, 0, 0, 65, 66, 67, 68, 1], 0⟩).1 = .err ⟨1, .invalidValue⟩ := by
  refine ⟨?_, ?_⟩ <;> decide +kernel

/-- A tag of one byte, then a 16-bit number or two small ones. -/
def eitherWay : EnumDef Val :=
  { variants := [{ tuple := true, fields := [u16Field {}] }, { tuple := true, fields := [u8Field {}, u8Field {}] }] }

/-- `C111_checked` on an enum: all values take three bytes. -/
example (b : Buf) (hb : b.Ok) : (∃ v, decEnum eitherWay none none b = (.ok v, ⟨b.data, b.pos + 3⟩) ∧
    b.pos + 3 ≤ b.data.length) ∨ ∃ e b', decEnum eitherWay none none b = (.err e, b') := by
  have h3 : 3 ≤ isizeMax := by rw [isizeMax_def]; decide
  have plain : LaidAttrs false ({} : FieldAttrs Val) 0 :=
    ⟨rfl, rfl, rfl, fun _ => rfl, .inl ⟨rfl, rfl⟩, fun _ _ h => (nomatch h)⟩
  have pass : PassesOn true noLength ({} : FieldAttrs Val) noLength :=
    ⟨fun h => (nomatch h), fun _ _ => ⟨rfl, rfl⟩, fun _ _ _ h => h⟩
  have u8 : Fixed false noLength 1 1 Val (numDec ⟨1, false⟩) := .inject Val.num (.int ⟨1, false⟩ (.mk _ _ (by decide)))
  have u16 : Fixed false noLength 2 2 Val (numDec ⟨2, false⟩) := .inject Val.num (.int ⟨2, false⟩ (.mk _ _ (by decide)))
  have nil : ∀ {P : Field Val × GetPlace → Prop}, ∀ p ∈ ([] : List (Field Val × GetPlace)), P p := fun _ h => (nomatch h)
  have key : Fixed false (fun fa => TagWidth .uint none fa 1) 3 3 (Nat × List Val) (decEnum eitherWay) := by
    refine .enum eitherWay [⟨_, 0, [(u16Field {}, ⟨0, 2, 2, noLength⟩)]⟩,
      ⟨_, 0, [(u8Field {}, ⟨0, 1, 1, noLength⟩), (u8Field {}, ⟨0, 1, 1, noLength⟩)]⟩] noLength 1 2 2 rfl rfl rfl
      (List.forall_mem_cons.mpr ⟨rfl, List.forall_mem_cons.mpr ⟨rfl, fun _ h => (nomatch h)⟩⟩)
      (List.forall_mem_cons.mpr ⟨⟨rfl, rfl⟩, List.forall_mem_cons.mpr ⟨⟨rfl, rfl⟩, fun _ h => (nomatch h)⟩⟩)
      (List.forall_mem_cons.mpr ⟨plain, List.forall_mem_cons.mpr ⟨plain, fun _ h => (nomatch h)⟩⟩)
      (List.forall_mem_cons.mpr ⟨?_, List.forall_mem_cons.mpr ⟨?_, fun _ h => (nomatch h)⟩⟩)
      (List.forall_mem_cons.mpr ⟨List.forall_mem_cons.mpr ⟨plain, nil⟩, List.forall_mem_cons.mpr
        ⟨List.forall_mem_cons.mpr ⟨plain, List.forall_mem_cons.mpr ⟨plain, nil⟩⟩, fun _ h => (nomatch h)⟩⟩)
      (List.forall_mem_cons.mpr ⟨List.forall_mem_cons.mpr ⟨pass, nil⟩, List.forall_mem_cons.mpr
        ⟨List.forall_mem_cons.mpr ⟨pass, List.forall_mem_cons.mpr ⟨pass, nil⟩⟩, fun _ h => (nomatch h)⟩⟩)
      (fun _ _ _ _ _ => ?_)
      (List.forall_mem_cons.mpr ⟨List.forall_mem_cons.mpr ⟨u16, nil⟩, List.forall_mem_cons.mpr
        ⟨List.forall_mem_cons.mpr ⟨u8, List.forall_mem_cons.mpr ⟨u8, nil⟩⟩, fun _ h => (nomatch h)⟩⟩)
    · exact ⟨fun h => (nomatch h), fun _ _ => ⟨trivial, rfl⟩, fun h => (nomatch h)⟩
    · exact ⟨fun h => (nomatch h), fun _ _ => ⟨trivial, rfl⟩, fun h => (nomatch h)⟩
    · rename_i x hx p hp hu
      simp only [List.mem_cons, List.not_mem_nil, or_false] at hx
      rcases hx with rfl | rfl <;> simp only [List.mem_cons, List.not_mem_nil, or_false, or_self] at hp <;> subst hp <;>
        exact Nat.le_refl _
  exact C111_checked _ key none none rfl h3 h3 b hb

end JBytes
