import Verif.PropSame
import Verif.IoSim
import Verif.PropEnum
import Verif.PropStructRT
/-!
# C103: types can grow

A struct gets fields at its end, an enum gets variants: which messages the older and the newer program understand.
-/

namespace JBytes
open M

variable {V : Type}

/-- The struct with more fields at its end. -/
def StructDef.grown (S : StructDef V) (G : List (Field V)) : StructDef V := { S with fields := S.fields ++ G }

/-- The enum with more variants at its end. -/
def EnumDef.grown (E : EnumDef V) (W : List (Variant V)) : EnumDef V := { E with variants := E.variants ++ W }

/-- A struct with named fields and without a codec of its own. -/
structure Open (S : StructDef V) : Prop where
  tuple : S.tuple = false
  dec : S.withDecode = none
  enc : S.withEncode = none

/-- The scope behind the fields of a struct with the values `vs`. -/
def StructDef.after (S : StructDef V) (ca : Option CAttr) (vs : List V) : Env V :=
  { vars := localVars S.getVars ca, fields := vs }

/-! ## The older program -/

theorem grown_dec (S : StructDef V) (G : List (Field V)) (hS : Open S) (ca : Option CAttr) (fa : Option FAttr) (b : Buf) :
    decStruct (S.grown G) ca fa b = (decStruct S ca fa >>= fun vs =>
      decFields false G (cachedAfter S.fields S.container { vars := localVars S.getVars ca } vs) none (S.after ca vs) >>= fun ws =>
      (Pure.pure (vs ++ ws) : M (List V))) b := by
  have h1 : decStruct (S.grown G) ca fa b =
      decFields false (S.fields ++ G) S.container none { vars := localVars S.getVars ca } b := by
    unfold decStruct StructDef.grown
    simp only [hS.dec, hS.tuple]
  have h2 : decStruct S ca fa = decFields false S.fields S.container none { vars := localVars S.getVars ca } := by
    unfold decStruct
    simp only [hS.dec, hS.tuple]
  rw [h1, h2, decFields_append]
  rw [bind_apply, bind_apply]
  rcases decFields false S.fields S.container none { vars := localVars S.getVars ca } b with ⟨o, b1⟩
  cases o with
  | ok vs => simp only [Env.extend, List.nil_append, StructDef.after]
  | _ => rfl

/-- C103, older programs: on every input that the newer struct accepts, the older one gives the values of its fields;
and what the older one refuses, the newer one refuses with the same error at the same place. -/
theorem C103_older_decode (S : StructDef V) (G : List (Field V)) (hS : Open S) (ca : Option CAttr) (fa : Option FAttr)
    (b : Buf) :
    (∀ vs b', decStruct (S.grown G) ca fa b = (.ok vs, b') →
      ∃ b1, decStruct S ca fa b = (.ok (vs.take S.fields.length), b1)) ∧
    (∀ e b1, decStruct S ca fa b = (.err e, b1) → decStruct (S.grown G) ca fa b = (.err e, b1)) := by
  rw [grown_dec S G hS, bind_apply]
  rcases h : decStruct S ca fa b with ⟨o, b1⟩
  cases o with
  | ok vs =>
    have hl : vs.length = S.fields.length := by
      unfold decStruct at h
      simp only [hS.dec] at h
      exact decFields_length _ _ _ _ _ _ _ _ h
    refine ⟨fun us b' hu => ⟨b1, ?_⟩, (fun e b1 he => by simp at he)⟩
    simp only [bind_apply] at hu
    rcases hg : decFields false G (cachedAfter S.fields S.container { vars := localVars S.getVars ca } vs) none
      (S.after ca vs) b1 with ⟨o, b2⟩
    rw [hg] at hu
    cases o with
    | ok ws =>
      simp only [pure_apply, Prod.mk.injEq, Out.ok.injEq] at hu
      rw [← hu.1, ← hl, List.take_left]
    | _ => simp at hu
  | err e => exact ⟨(fun us b' hu => by simp at hu), fun e' b' he => by simpa using he⟩
  | panic => exact ⟨(fun us b' hu => by simp at hu), (fun e' b' he => by simp at he)⟩
  | timeout => exact ⟨(fun us b' hu => by simp at hu), (fun e' b' he => by simp at he)⟩

/-- C103, older programs: a message of the newer struct is the message of the older one followed by the added fields,
and the older program reads it and stops there, if it reads its own messages when something follows. -/
theorem C103_older_message (S : StructDef V) (G : List (Field V)) (hS : Open S) (ca ca' : Option CAttr)
    (fa fa' : Option FAttr) (vs ws : List V) (w x : List Byte) (hl : vs.length = S.fields.length)
    (hw : Writes (encStruct S vs ca fa) w) (hr : ∀ suf, Reads (decStruct S ca' fa') vs w suf)
    (hG : Writes (encFields false G S.container none (S.after ca vs) ws) x) :
    Writes (encStruct (S.grown G) (vs ++ ws) ca fa) (w ++ x) ∧
    ∀ pre suf : List Byte, pre.length + (w ++ x ++ suf).length ≤ isizeMax →
      decStruct S ca' fa' ⟨pre ++ (w ++ x ++ suf), pre.length⟩ =
        (.ok vs, ⟨pre ++ (w ++ x ++ suf), pre.length + w.length⟩) := by
  constructor
  · refine (hw.seq hG).congr fun b => ?_
    have h1 : encStruct (S.grown G) (vs ++ ws) ca fa b =
        encFields false (S.fields ++ G) S.container none { vars := localVars S.getVars ca } (vs ++ ws) b := by
      unfold encStruct StructDef.grown
      simp only [hS.enc]
    have h2 : encStruct S vs ca fa = encFields false S.fields S.container none { vars := localVars S.getVars ca } vs := by
      unfold encStruct
      simp only [hS.enc]
    rw [h1, h2, encFields_append _ _ _ _ _ _ hl.symm]
    simp only [Env.extend, List.nil_append, StructDef.after]
  · intro pre suf hp
    have := hr (x ++ suf) pre (by simp only [List.length_append] at hp ⊢; omega)
    simpa [List.append_assoc] using this

/-! ## The newer program -/

/-- At the end of the data, the field is there without being read. -/
def Absent (f : Field V) (env : Env V) (v : V) : Prop :=
  ∀ (ca : Option CAttr) (b : Buf), b.Ok → b.pos = b.data.length → fieldStep f ca env b = (.ok v, b)

/-- The added fields, each of which may look at those before it, are not in the message. -/
inductive Missing : List (Field V) → Env V → List V → Prop
  | nil (env : Env V) : Missing [] env []
  | cons {f : Field V} {G : List (Field V)} {env : Env V} {v : V} {vs : List V} :
    Absent f env v → Missing G (env.push v) vs → Missing (f :: G) env (v :: vs)

theorem decFields_missing {G : List (Field V)} {env : Env V} {ws : List V} (h : Missing G env ws) :
    ∀ (ca : Option CAttr) (b : Buf), b.Ok → b.pos = b.data.length → decFields false G ca none env b = (.ok ws, b) := by
  induction h with
  | nil env => intro ca b _ _; rfl
  | cons hf _ ih =>
    intro ca b hb hp
    rw [decFields_cons, bind_apply, hf ca b hb hp]
    simp only [bind_apply]
    rw [ih _ b hb hp]
    rfl

/-- C103, newer programs: a message of the older struct is read by the newer one, if nothing follows it, with the
added fields absent. -/
theorem C103_newer_decode (S : StructDef V) (G : List (Field V)) (hS : Open S) (ca : Option CAttr) (fa : Option FAttr)
    (b b' : Buf) (vs ws : List V) (hr : decStruct S ca fa b = (.ok vs, b')) (hb : b'.Ok) (he : b'.pos = b'.data.length)
    (hm : Missing G (S.after ca vs) ws) : decStruct (S.grown G) ca fa b = (.ok (vs ++ ws), b') := by
  rw [grown_dec S G hS, bind_apply, hr]
  simp only [bind_apply]
  rw [decFields_missing hm _ b' hb he]
  rfl

/-- A type that stays inside the data, returns, and needs a byte refuses the empty rest. -/
theorem eats_refuses {α : Type} {m : M α} (hg : Good true true 0 m) (he : Eats m) (b : Buf) (hb : b.Ok)
    (hp : b.pos = b.data.length) : ∃ e, m b = (.err e, b) := by
  obtain ⟨hi, hn, ht⟩ := hg
  have h1 := hi b hb
  have h2 := hn rfl b hb
  have h3 := ht rfl b hb (by omega)
  have h4 := he b hb
  rcases e : m b with ⟨o, d, p⟩
  rw [e] at h1 h2 h3
  simp only at h1 h2 h3
  obtain ⟨rfl, h5, h6⟩ := h1
  have hpp : p = b.pos := by omega
  subst hpp
  cases o with
  | ok v => exact absurd (h4 v _ e) (by simp)
  | err x => exact ⟨x, rfl⟩
  | panic => exact absurd rfl h2
  | timeout => exact absurd rfl h3

/-- C103: an added `Option<T>` is `None`, for every `T` that needs at least one byte, under all modifiers that do not
make it look elsewhere. -/
theorem C103_option_absent {α : Type} (f : Field V) (d : Dec α) (inj : Option α → V) (env : Env V)
    (hord : Ordinary f.attrs) (ho : f.attrs.byteorder = none) (hoff : f.attrs.offset = none) (hi : f.attrs.ifExpr = none)
    (hc : f.attrs.checkValue = none) (hu : f.attrs.untake = false) (hv : f.attrs.valueDecode = none)
    (hd : ∀ ca fa, f.dec ca fa = mapM' inj (decOption d ca fa))
    (hg : ∀ ca, Good true true 0 (d ca (ownModifiers f.attrs env))) (he : ∀ ca, Eats (d ca (ownModifiers f.attrs env))) :
    Absent f env (inj none) := by
  intro ca b hb hp
  rw [fieldStep_plain f hord ho hoff hi hc hu hv, hd, mapM'_apply]
  obtain ⟨e, h⟩ := eats_refuses (hg ca) (he ca) b hb hp
  have : decOption d ca (ownModifiers f.attrs env) b = (.ok none, b) := by
    unfold decOption
    split
    · rfl
    · rw [attempt_apply, h]
  rw [this]

/-- C103: an added `Vec<T>` with `try_count` is empty, for every `T` that needs at least one byte. -/
theorem C103_try_count_absent {α : Type} (f : Field V) (fuel : Nat) (d : Dec α) (inj : List α → V) (env : Env V)
    (n : Env V → Nat) (ha : f.attrs = { isUse := true, tryCount := some n })
    (hd : ∀ ca fa, f.dec ca fa = mapM' inj (decVec fuel d ca fa))
    (hg : ∀ ca, Good true true 0 (d ca (some { tryCount := some (n env) })))
    (he : ∀ ca, Eats (d ca (some { tryCount := some (n env) }))) : Absent f env (inj []) := by
  intro ca b hb hp
  have hm : ownModifiers f.attrs env = some { tryCount := some (n env) } := by
    rw [ha]
    simp [ownModifiers, askedOrder]
  rw [fieldStep_plain f (by rw [ha]; exact ⟨rfl, rfl, rfl, rfl, rfl, rfl⟩) (by rw [ha]) (by rw [ha]) (by rw [ha]) (by rw [ha])
    (by rw [ha]) (by rw [ha]), hd, mapM'_apply, hm]
  obtain ⟨e, h⟩ := eats_refuses (hg ca) (he ca) b hb hp
  have : decVec fuel d ca (some { tryCount := some (n env) }) b = (.ok [], b) := by
    show (tryRepeatM (d ca (some { tryCount := some (n env) })) (n env)) b = _
    generalize d ca (some { tryCount := some (n env) }) = m at h
    cases n env with
    | zero => rfl
    | succ k =>
      unfold tryRepeatM
      rw [bind_apply, attempt_apply, h]
      rfl
  rw [this]

/-- C103: an added byte string that takes the rest is empty. -/
theorem C103_remaining_absent (f : Field V) (inj : List Byte → V) (env : Env V)
    (ha : f.attrs = { isUse := true, remaining := true }) (hd : ∀ ca fa, f.dec ca fa = mapM' inj (decBytes ca fa)) :
    Absent f env (inj []) := by
  intro ca b hb hp
  have hm : ownModifiers f.attrs env = some { remaining := true } := by
    rw [ha]
    simp [ownModifiers, askedOrder]
  rw [fieldStep_plain f (by rw [ha]; exact ⟨rfl, rfl, rfl, rfl, rfl, rfl⟩) (by rw [ha]) (by rw [ha]) (by rw [ha]) (by rw [ha])
    (by rw [ha]) (by rw [ha]), hd, mapM'_apply, hm]
  have : decBytes ca (some { remaining := true }) b = (.ok [], b) := by
    simp only [decBytes, skipNeedle, bind_apply, pure_apply, Bool.false_eq_true, if_false, if_true, remainingLen_apply]
    rw [takeBytes_apply _ b hb]
    obtain ⟨data, pos⟩ := b
    simp only at hp
    subst hp
    simp
  rw [this]

/-- C103: an added `Option` with `if_expr` is `None` where the condition is false, also if something follows. -/
theorem C103_condition_absent (f : Field V) (c : Env V → Bool) (env : Env V) (hord : Ordinary f.attrs)
    (ho : f.attrs.byteorder = none) (hoff : f.attrs.offset = none) (hi : f.attrs.ifExpr = some c)
    (hc : f.attrs.checkValue = none) (hv : f.attrs.valueDecode = none) (hf : c env = false)
    (ca : Option CAttr) (b : Buf) : fieldStep f ca env b = (.ok f.noneV, b) := by
  obtain ⟨h1, h2, h3, h4, h5, h6⟩ := hord
  rw [fieldStep, bind_apply, toCode_ok _ _ (by intro e he; rw [ho] at he; cases he)]
  have e : decCond f env ca (ownModifiers f.attrs env) = (Pure.pure f.noneV : M V) := by
    unfold decCond
    simp [hi, hf]
  simp only [decField, skipOffset, hoff, h1, h3, h5, h6, decPlain, e, bind_apply, pure_apply, getPos_apply,
    finishValue, hc, hv, Bool.or_self, Bool.false_eq_true, if_false]
  split
  · rfl
  · rfl

/-! ## Enums -/

theorem variantNumbers_append (W : List (Variant V)) : ∀ (vs : List (Variant V)) (cur : Nat),
    ∃ tail, variantNumbers cur (vs ++ W) = variantNumbers cur vs ++ tail
  | [], cur => ⟨variantNumbers cur W, rfl⟩
  | v :: vs, cur => by
    obtain ⟨t, h⟩ := variantNumbers_append W vs (v.restart.getD cur + 1)
    exact ⟨t, by simp [variantNumbers, h]⟩

theorem grown_arms (E : EnumDef V) (W : List (Variant V)) :
    ∃ tail, (E.grown W).variants.zip (E.grown W).numbers = E.variants.zip E.numbers ++ tail := by
  obtain ⟨t, h⟩ := variantNumbers_append W E.variants 0
  refine ⟨W.zip t, ?_⟩
  unfold EnumDef.numbers EnumDef.grown
  simp only [h]
  rw [List.zip_append (variantNumbers_length _ _).symm]

theorem findArm_append (t : Tag) (tail : List (Variant V × Nat)) : ∀ (l : List (Variant V × Nat)) (k : Nat),
    findArm t k (l ++ tail) = (findArm t k l).or (findArm t (k + l.length) tail)
  | [], k => by simp [findArm]
  | (v, n) :: l, k => by
    simp only [List.cons_append, findArm]
    split
    · rfl
    · rw [findArm_append t tail l (k + 1), List.length_cons, Nat.add_assoc, Nat.add_comm 1]

theorem findWord_append (x : List Byte) (tail : List (Variant V)) : ∀ (l : List (Variant V)) (k : Nat),
    findWord x k (l ++ tail) = (findWord x k l).or (findWord x (k + l.length) tail)
  | [], k => by simp [findWord]
  | v :: l, k => by
    simp only [List.cons_append, findWord]
    split
    · rfl
    · rw [findWord_append x tail l (k + 1), List.length_cons, Nat.add_assoc, Nat.add_comm 1]

theorem decVariant_index {own : Option CAttr} {env : Env V} {i j : Nat} {v : Variant V} {vs : List V} {b b' : Buf}
    (h : decVariant own env i v b = (.ok (j, vs), b')) : j = i := by
  unfold decVariant at h
  rw [bind_apply] at h
  generalize v.attrs.toCode env b = x at h
  obtain ⟨o, b1⟩ := x
  cases o with
  | ok fa =>
    simp only [bind_apply] at h
    generalize skipOffset v.attrs env b1 = x at h
    obtain ⟨o, b2⟩ := x
    cases o with
    | ok u =>
      simp only at h
      generalize decFields v.tuple v.fields own fa env b2 = x at h
      obtain ⟨o, b3⟩ := x
      cases o with
      | ok ws =>
        simp only [pure_apply, Prod.mk.injEq, Out.ok.injEq] at h
        exact h.1.1.symm
      | _ => simp at h
    | _ => simp at h
  | _ => simp at h

theorem decArm_grown (E : EnumDef V) (W : List (Variant V)) (env : Env V) (t : Tag) (b b' : Buf) (i : Nat) (vs : List V) :
    decArm E env t b = (.ok (i, vs), b') ↔ decArm (E.grown W) env t b = (.ok (i, vs), b') ∧ i < E.variants.length := by
  obtain ⟨tail, ht⟩ := grown_arms E W
  have hl : (E.variants.zip E.numbers).length = E.variants.length := by simp [EnumDef.numbers, variantNumbers_length]
  unfold decArm
  rw [ht, findArm_append]
  rcases hf : findArm t 0 (E.variants.zip E.numbers) with _ | ⟨j, v⟩
  · simp only [Option.none_or, fail_apply]
    constructor
    · intro h; simp at h
    · rintro ⟨h, hi⟩
      rcases hg : findArm t (0 + (E.variants.zip E.numbers).length) tail with _ | ⟨j, v⟩
      · rw [hg] at h
        simp [fail_apply] at h
      · rw [hg] at h
        have h1 := decVariant_index h
        have h2 := (findArm_at t _ _ _ _ hg).1
        omega
  · simp only [Option.some_or]
    constructor
    · intro h
      refine ⟨h, ?_⟩
      rw [decVariant_index h]
      obtain ⟨-, n, hn⟩ := findArm_at t _ _ _ _ hf
      have := (List.getElem?_eq_some_iff.1 hn).1
      omega
    · exact fun h => h.1

/-- C103, enums: the newer enum reads a value of one of the older variants exactly where the older enum reads it, at
the same place and to the same end. -/
theorem C103_enum_decode (E : EnumDef V) (W : List (Variant V)) (hE : E.withDecode = none) (ca : Option CAttr)
    (fa : Option FAttr) (b b' : Buf) (i : Nat) (vs : List V) :
    decEnum E ca fa b = (.ok (i, vs), b') ↔
      decEnum (E.grown W) ca fa b = (.ok (i, vs), b') ∧ i < E.variants.length := by
  have hE' : (E.grown W).withDecode = none := hE
  have hm : (E.grown W).mode = E.mode := rfl
  unfold decEnum
  simp only [hE, hE', hm]
  have hv : localVars (E.grown W).getVars ca = localVars E.getVars ca := rfl
  have hcon : (E.grown W).container = E.container := rfl
  rw [hv, hcon]
  generalize ({ vars := localVars E.getVars ca } : Env V) = env
  cases E.mode with
  | uint =>
    simp only [bind_apply]
    rcases decTag E.container ca fa b with ⟨o, b1⟩
    cases o with
    | ok n => exact decArm_grown E W env _ b1 b' i vs
    | _ => simp
  | takeBytes n =>
    simp only [bind_apply]
    rcases takeBytes n b with ⟨o, b1⟩
    cases o with
    | ok x => exact decArm_grown E W env _ b1 b' i vs
    | _ => simp
  | startsWith untake =>
    simp only [bind_apply]
    rcases remaining b with ⟨o, b1⟩
    cases o with
    | ok x =>
      simp only
      rw [show (E.grown W).variants = E.variants ++ W from rfl, findWord_append]
      rcases hf : findWord x 0 E.variants with _ | ⟨j, v⟩
      · simp only [Option.none_or, fail_apply]
        constructor
        · intro h; simp at h
        · rintro ⟨h, hi⟩
          rcases hg : findWord x (0 + E.variants.length) W with _ | ⟨j, v⟩
          · rw [hg] at h
            simp [fail_apply] at h
          · rw [hg] at h
            have h2 := (findWord_at x _ _ _ _ hg).1
            have h1 : i = j := by
              simp only at h
              split at h
              · exact decVariant_index h
              · rw [bind_apply] at h
                generalize advance v.word.length b1 = x at h
                obtain ⟨o, b2⟩ := x
                cases o with
                | ok u => exact decVariant_index h
                | _ => simp at h
            omega
      · simp only [Option.some_or]
        constructor
        · intro h
          refine ⟨h, ?_⟩
          have h1 : i = j := by
            split at h
            · exact decVariant_index h
            · rw [bind_apply] at h
              generalize advance v.word.length b1 = x at h
              obtain ⟨o, b2⟩ := x
              cases o with
              | ok u => exact decVariant_index h
              | _ => simp at h
          obtain ⟨-, hn, -⟩ := findWord_at x _ _ _ _ hf
          have := (List.getElem?_eq_some_iff.1 hn).1
          omega
        · exact fun h => h.1
    | _ => simp

/-- C103, enums: a value of an older variant is written as before. -/
theorem C103_enum_encode (E : EnumDef V) (W : List (Variant V)) (i : Nat) (hi : i < E.variants.length) (vs : List V)
    (ca : Option CAttr) (fa : Option FAttr) : encEnum (E.grown W) (i, vs) ca fa = encEnum E (i, vs) ca fa := by
  obtain ⟨t, h⟩ := grown_arms E W
  have hl : i < (E.variants.zip E.numbers).length := by
    simpa [EnumDef.numbers, variantNumbers_length] using hi
  unfold encEnum
  simp only [h]
  rw [List.getElem?_append_left hl]
  cases (E.variants.zip E.numbers)[i]? <;> rfl

/-! ## Cases -/

/-- The value of an optional number. -/
def Pkt.ofOption : Option Nat → Pkt
  | some n => .num n
  | none => .unit

/-- A field of type `Option<u8>`. -/
def optByte : Field Pkt where
  attrs := {}
  dec := fun ca fa => mapM' Pkt.ofOption (decOption (decInt ⟨1, false⟩) ca fa)
  enc := fun v ca fa => match v with
    | .num n => encInt ⟨1, false⟩ n ca fa
    | _ => return 0
  dflt := .unit
  noneV := .unit

/-- A struct of one byte. -/
def oneByte : StructDef Pkt := { fields := [Pkt.int ⟨1, false⟩ {}] }

theorem optByte_absent (env : Env Pkt) : Absent optByte env .unit :=
  C103_option_absent optByte (decInt ⟨1, false⟩) Pkt.ofOption env ⟨rfl, rfl, rfl, rfl, rfl, rfl⟩ rfl rfl rfl rfl rfl rfl
    (fun _ _ => rfl)
    (fun ca => Good.decInt _ ca _ fun _ => .inl (by decide))
    (fun ca => eats_decInt (.mk _ _ (by decide)) ca (by intro fr h; cases h))

unseal usizeMod isizeMax in
/-- C103: the older message `05` in the newer program, and the newer message `05 07` in the older one. -/
example : decStruct (oneByte.grown [optByte, optByte]) none none ⟨[5], 0⟩ = (.ok [.num 5, .unit, .unit], ⟨[5], 1⟩) :=
  C103_newer_decode oneByte [optByte, optByte] ⟨rfl, rfl, rfl⟩ none none ⟨[5], 0⟩ ⟨[5], 1⟩ [.num 5] [.unit, .unit] rfl
    ⟨by decide, by rw [isizeMax_def]; decide⟩ rfl (.cons (optByte_absent _) (.cons (optByte_absent _) (.nil _)))

/-- An enum with two variants, the second for all other tags, or not. -/
def twoWays (rest : Bool) : EnumDef Pkt := { variants := [{}, { branchDefault := rest }] }

unseal usizeMod isizeMax in
example : decEnum (twoWays false) none none ⟨[1, 9], 0⟩ = (.ok (1, []), ⟨[1, 9], 1⟩) ∧
    decEnum ((twoWays false).grown [{}]) none none ⟨[1, 9], 0⟩ = (.ok (1, []), ⟨[1, 9], 1⟩) ∧
    decEnum ((twoWays false).grown [{}]) none none ⟨[2, 9], 0⟩ = (.ok (2, []), ⟨[2, 9], 1⟩) := ⟨rfl, rfl, rfl⟩

unseal usizeMod isizeMax in
/-- C103 in full is false.  The added field of the newer program takes the first byte of the next message; where the
last field takes the rest, the older program takes the added ones for a part of it, and the newer one cannot read its own
messages; a variant behind a `branch_default` is written but read as the default; a variant put in the middle changes the tags
of those behind it. -/
theorem C103_violated :
    (∃ b b' b'' : Buf, decStruct oneByte none none b = (.ok [.num 5], b') ∧ decStruct oneByte none none b' = (.ok [.num 6], b'') ∧
      decStruct (oneByte.grown [optByte]) none none b = (.ok [.num 5, .num 6], b'')) ∧
    (∃ (S : StructDef Pkt) (b b' : Buf), S = { fields := [Pkt.slice { isUse := true, remaining := true }] } ∧
      encStruct (S.grown [Pkt.int ⟨1, false⟩ {}]) [.bytes [65], .num 7] none none ⟨[], 0⟩ = (.ok 2, b') ∧ b = ⟨b'.data, 0⟩ ∧
      (decStruct S none none b).1 = .ok [.bytes [65, 7]] ∧
      (decStruct (S.grown [Pkt.int ⟨1, false⟩ {}]) none none b).1 = .err ⟨2, .invalidByteLength⟩) ∧
    (∃ b b' : Buf, encEnum ((twoWays true).grown [{}]) (2, []) none none ⟨[], 0⟩ = (.ok 1, b') ∧ b = ⟨b'.data, 0⟩ ∧
      (decEnum ((twoWays true).grown [{}]) none none b).1 = .ok (1, [])) ∧
    (∃ (v x : Variant Pkt) (b b' : Buf), v = {} ∧ x = {} ∧
      encEnum { variants := [{}, v] } (1, []) none none ⟨[], 0⟩ = (.ok 1, b') ∧ b = ⟨b'.data, 0⟩ ∧
      (decEnum { variants := [{}, x, v] } none none b).1 = .ok (1, [])) := by
  refine ⟨⟨⟨[5, 6], 0⟩, ⟨[5, 6], 1⟩, ⟨[5, 6], 2⟩, rfl, rfl, rfl⟩, ⟨_, ⟨[65, 7], 0⟩, ⟨[65, 7], 2⟩, rfl, rfl, rfl, rfl, rfl⟩,
    ⟨⟨[2], 0⟩, ⟨[2], 1⟩, rfl, rfl, rfl⟩, ⟨_, _, ⟨[1], 0⟩, ⟨[1], 1⟩, rfl, rfl, rfl, rfl, rfl⟩⟩

end JBytes
