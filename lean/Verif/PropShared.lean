import Verif.PropPadding
import Verif.LayoutWrite
import Verif.Placed
/-!
# The reported byte count of structs with words of bit fields: C47, exactly

Every member of a word reports the whole word (src/encode/impls_int.rs:21-54), although only the first one makes the
buffer longer.  Together with the filler bytes of `offset`, which nobody counts, that is all that is wrong with the count.
-/

namespace JBytes
open M

variable {α β V : Type}

/-- From the end of a buffer a successful run ends at its end, and `R` relates the result and the number of bytes by which
the buffer grew. -/
def Grows (R : α → Nat → Prop) (e : M α) : Prop := ∀ (pre : List Byte) (a : α) (b' : Buf), pre.length ≤ isizeMax →
  e ⟨pre, pre.length⟩ = (.ok a, b') →
  b'.pos = b'.data.length ∧ b'.data.length ≤ isizeMax ∧ ∃ k, b'.data.length = pre.length + k ∧ R a k

theorem Emits.grows {R : α → Nat → Prop} {e : M α} (h : Emits R e) : Grows R e := by
  intro pre a b' hp he
  obtain ⟨w, rfl, h2, h3⟩ := h pre a b' hp he
  exact ⟨rfl, h2, w.length, List.length_append, h3⟩

theorem Grows.bind {R : α → Nat → Prop} {S : β → Nat → Prop} {e : M α} {f : α → M β} (he : Grows R e)
    (hf : ∀ a k, R a k → Grows (fun b l => S b (k + l)) (f a)) : Grows S (e >>= f) := by
  intro pre b b' hp h
  obtain ⟨a, b1, h1, h2⟩ := bind_ok h
  obtain ⟨e1, e2, k, e3, hr⟩ := he pre a b1 hp h1
  obtain ⟨data, pos⟩ := b1
  change pos = data.length at e1
  subst e1
  obtain ⟨g1, g2, l, g3, hs⟩ := hf a k hr data b b' e2 h2
  exact ⟨g1, g2, k + l, by rw [g3]; change data.length = _ at e3; omega, hs⟩

theorem Grows.pure {R : α → Nat → Prop} (a : α) (h : R a 0) : Grows R (Pure.pure a : M α) := (Emits.pure a h).grows

theorem Grows.mono {R S : α → Nat → Prop} {e : M α} (h : Grows R e) (hs : ∀ a k, R a k → S a k) : Grows S e := by
  intro pre a b' hp he
  obtain ⟨e1, e2, k, e3, hr⟩ := h pre a b' hp he
  exact ⟨e1, e2, k, e3, hs _ _ hr⟩

/-- A field that completes a word of bit fields: a number of kind `k` (at most 8 bytes) with `bits`, without `bits_start`
and `length`; `isNum` says which values are numbers. -/
structure Member (f : Field V) (k : IntKind) (isNum : V → Prop) : Prop where
  custom : f.attrs.withEncode = none
  fromStr : f.attrs.fromStr = none
  used : f.attrs.isUse = true
  bits : f.attrs.bits.isSome = true
  later : f.attrs.bitsStart = false
  length : f.attrs.length = none
  valid : k.Valid
  small : k.size ≤ 8
  value : ∀ g, f.attrs.valueEncode = some g → ∀ env v, isNum v → isNum (g env v)
  enc : ∀ v, isNum v → ∀ ca fa, ∃ n, f.enc v ca fa = encInt k n ca fa

/-- The bytes reported again by the later members of words: `ps` are the fields with the widths of their types. -/
def sharedBytes (ps : List (Field V × Nat)) : Nat :=
  (ps.map fun p => if IsWritten p.1.attrs && (p.1.attrs.bits.isSome && !p.1.attrs.bitsStart) then p.2 else 0).sum

theorem grows_member (k : IntKind) (hk : k.Valid) (h8 : k.size ≤ 8) (v : Nat) (ca : Option CAttr) (fr : FAttr)
    (hl : fr.length = none) (m : Nat) (hm : fr.bits = some m) (hst : fr.bitsStart = false) :
    Grows (fun n l => n = k.size ∧ l = 0) (encInt k v ca (some fr)) := by
  intro pre n b' hp he
  rcases Nat.lt_or_ge pre.length k.size with hlt | hge
  · exfalso
    have hmax := isizeMax_lt
    unfold encInt at he
    obtain ⟨w, b1, e1, _⟩ := bind_ok he
    unfold encBits at e1
    simp only [hm, hst, Bool.false_eq_true, if_false, bind_apply, getPos_apply, setPos_apply] at e1
    unfold takeUint at e1
    rw [takeN_apply _ 8 k.size h8] at e1
    have hw : wsub pre.length k.size = usizeMod + pre.length - k.size := by
      unfold wsub
      rw [if_neg (by omega)]
      have : k.size < usizeMod := by rw [usizeMod_def]; omega
      omega
    have ht : ∃ o b2, takeBytes k.size ⟨pre, wsub pre.length k.size⟩ = (o, b2) ∧ ∀ l, o ≠ .ok l := by
      unfold takeBytes
      simp only [bind_apply, remainingLen_apply]
      split
      · exact ⟨_, _, rfl, fun l h => (nomatch h)⟩
      · simp only [bind_apply, advance_apply, getPos_apply, slice_apply]
        have h1 : wadd (wsub pre.length k.size) k.size = pre.length := by
          rw [hw]
          unfold wadd
          have : usizeMod + pre.length - k.size + k.size = pre.length + usizeMod := by omega
          rw [this, Nat.add_mod_right, Nat.mod_eq_of_lt (by omega)]
        rw [h1, hw, if_neg (by omega)]
        exact ⟨_, _, rfl, fun l h => (nomatch h)⟩
    obtain ⟨o, b2, h1, h2⟩ := ht
    unfold mapM' at e1
    rw [bind_apply, h1] at e1
    cases o with
    | ok l => exact h2 l rfl
    | _ => simp at e1
  · obtain ⟨b2, h1, h2, h3⟩ := member_run k hk h8 v ca fr hl m hm hst pre hge (by omega)
    rw [h1] at he
    cases he
    exact ⟨h2, by omega, 0, h3, rfl, rfl⟩

theorem grows_fieldMember {f : Field V} {k : IntKind} {isNum : V → Prop} (h : Member f k isNum) (env : Env V) (v : V)
    (hv : isNum v) (ca : Option CAttr) (fr : FAttr) (hl : fr.length = none) (hb : fr.bits.isSome = true)
    (hst : fr.bitsStart = false) :
    Grows (fun n l => l + (if IsWritten f.attrs then k.size else 0) = n + if IsWritten f.attrs then fillers f.attrs env else 0)
      (encField f env v ca (some fr)) := by
  obtain ⟨m, hm⟩ := Option.isSome_iff_exists.mp hb
  unfold encField
  rw [h.custom]
  simp only
  by_cases hs : (f.attrs.skip || f.attrs.skipEncode) = true
  · rw [if_pos hs]
    have : IsWritten f.attrs = false := by simp [IsWritten, hs]
    rw [this]
    exact Grows.pure _ rfl
  · rw [if_neg hs]
    have hw : IsWritten f.attrs = true := by simp [IsWritten, hs, h.bits]
    rw [hw]
    simp only [if_true]
    have ht : encText f.attrs v ca (some fr) = Pure.pure 0 := by
      unfold encText
      rw [h.fromStr]
    have hp : Grows (fun n l => l + k.size = n + fillers f.attrs env) (encPlain f env v ca (some fr)) := by
      unfold encPlain
      refine (emits_fillers f.attrs env).grows.bind fun _ l hl' => ?_
      have key : ∀ v, isNum v → Grows (fun n r => l + r + k.size = n + fillers f.attrs env) (f.enc v ca (some fr)) := by
        intro v hv
        obtain ⟨n, hn⟩ := h.enc v hv ca (some fr)
        rw [hn]
        exact (grows_member k h.valid h.small n ca fr hl m hm hst).mono fun a r hr => by
          rw [hr.1, hr.2, hl']; omega
      split
      · rename_i g hg
        exact key _ (h.value g hg env v hv)
      · exact key v hv
    rw [ht]
    refine (Grows.pure (R := fun n l => n = 0 ∧ l = 0) 0 ⟨rfl, rfl⟩).bind fun n l hn => ?_
    obtain ⟨rfl, rfl⟩ := hn
    rw [if_pos (by rw [h.bits]; rfl)]
    refine hp.bind fun m r hr => Grows.pure _ ?_
    omega

/-- What the theorem asks of a field: it begins its words and its type reports what it writes, or it completes a word. -/
def CountedField (isNum : V → Prop) (p : Field V × Nat) : Prop :=
  (EncOk false p.1.attrs ∧ Encodable true V p.1.enc) ∨ ∃ k : IntKind, p.2 = k.size ∧ Member p.1 k isNum

theorem grows_fields (isNum : V → Prop) : ∀ (ps : List (Field V × Nat)) (ca : Option CAttr) (env : Env V) (vs : List V),
    ps.length = vs.length → (∀ p ∈ ps, CountedField isNum p) →
    (∀ (i : Nat) p v, ps[i]? = some p → vs[i]? = some v → p.1.attrs.bits.isSome = true → isNum v) → ∀ old,
    Grows (fun n l => l + sharedBytes ps = n + totalFillers (ps.map Prod.fst) env vs)
      (encFields false (ps.map Prod.fst) ca old env vs) := by
  intro ps
  induction ps with
  | nil => intro ca env vs _ _ _ old; rw [List.map_nil, encFields.eq_def]; exact Grows.pure _ rfl
  | cons p ps ih =>
    intro ca env vs hl hf hn old
    cases vs with
    | nil => simp at hl
    | cons v vs =>
      rw [List.map_cons, encFields.eq_def]
      simp only [Bool.false_and, Bool.false_eq_true, if_false]
      have rest := fun fa => ih ca (env.push v) vs (by simpa using hl) (fun q hq => hf q (List.mem_cons_of_mem _ hq))
        (fun i q w hq hw => hn (i + 1) q w (by simpa using hq) (by simpa using hw)) fa
      have hsum : sharedBytes (p :: ps) =
          (if IsWritten p.1.attrs && (p.1.attrs.bits.isSome && !p.1.attrs.bitsStart) then p.2 else 0) + sharedBytes ps := by
        unfold sharedBytes
        rw [List.map_cons, List.sum_cons]
      rcases hf p List.mem_cons_self with ⟨h1, h2⟩ | ⟨k, hk, hm⟩
      · refine (Emits.toCode h1 env).grows.bind fun fa l hl' => ?_
        obtain ⟨rfl, hfa⟩ := hl'
        refine (emits_fieldFillers (env := env) (v := v) h1 fun v => h2.emits v ca fa hfa).grows.bind fun n l hn' => ?_
        refine (rest fa).bind fun m r hr => Grows.pure _ ?_
        have h0 : (p.1.attrs.bits.isSome && !p.1.attrs.bitsStart) = false := by
          rcases h1.bits with h | h <;> rw [h] <;> simp
        rw [hsum, h0, totalFillers_cons, Bool.and_false, if_neg (by simp)]
        omega
      · have hcode : Grows (fun fa l => l = 0 ∧ ∃ o, fa = some (p.1.attrs.modifiers o env)) (p.1.attrs.toCode env) := by
          unfold FieldAttrs.toCode
          rw [if_pos (by simp [hm.used, FieldAttrs.anySet, hm.bits])]
          have ho : Grows (fun _ l => l = 0) (orderCode p.1.attrs.byteorder env) := by
            intro pre a b' hp he
            cases hbo : p.1.attrs.byteorder with
            | none => rw [hbo] at he; cases he; exact ⟨rfl, hp, 0, rfl, rfl⟩
            | some x =>
              rw [hbo] at he
              cases x with
              | lit o => cases he; exact ⟨rfl, hp, 0, rfl, rfl⟩
              | expr e =>
                simp only [orderCode] at he
                split at he
                · cases he; exact ⟨rfl, hp, 0, rfl, rfl⟩
                · split at he
                  · cases he; exact ⟨rfl, hp, 0, rfl, rfl⟩
                  · cases he
          exact ho.bind fun o l hl' => Grows.pure _ ⟨by omega, o, rfl⟩
        refine hcode.bind fun fa l hl' => ?_
        obtain ⟨rfl, o, rfl⟩ := hl'
        have hv := hn 0 p v rfl rfl hm.bits
        refine (grows_fieldMember hm env v hv ca (p.1.attrs.modifiers o env) (by simp [FieldAttrs.modifiers, hm.length])
          (by simpa [FieldAttrs.modifiers] using hm.bits) hm.later).bind fun n l hn' => ?_
        refine (rest _).bind fun m r hr => Grows.pure _ ?_
        rw [hsum, hm.bits, hm.later, totalFillers_cons, hk]
        simp only [Bool.not_false, Bool.and_true]
        omega

/-- C47 for structs with words of bit fields, exactly: what the buffer grows by, and the words that later members report
again, are what is reported and the filler bytes. -/
theorem C47_bits_exact (S : StructDef V) (hw : S.withEncode = none) (isNum : V → Prop) (ps : List (Field V × Nat))
    (hs : S.fields = ps.map Prod.fst) (hc : ∀ p ∈ ps, CountedField isNum p) (vs : List V) (hl : S.fields.length = vs.length)
    (hn : ∀ (i : Nat) p v, ps[i]? = some p → vs[i]? = some v → p.1.attrs.bits.isSome = true → isNum v)
    (ca : Option CAttr) (fa : Option FAttr) (pre : List Byte) (hp : pre.length ≤ isizeMax) (n : Nat) (b' : Buf)
    (h : encStruct S vs ca fa ⟨pre, pre.length⟩ = (.ok n, b')) :
    b'.data.length + sharedBytes ps = pre.length + n + totalFillers S.fields { vars := localVars S.getVars ca } vs := by
  unfold encStruct at h
  rw [hw] at h
  rw [hs] at h ⊢
  obtain ⟨_, _, k, h1, h2⟩ := grows_fields isNum ps S.container { vars := localVars S.getVars ca } vs
    (by rw [← hl, hs, List.length_map]) hc hn none pre n b' hp h
  omega

/-- C47 for structs with words of bit fields, exactly when it holds: the reported count is the number of bytes written
precisely when as many filler bytes are left out as are counted twice. -/
theorem C47_bits_iff (S : StructDef V) (hw : S.withEncode = none) (isNum : V → Prop) (ps : List (Field V × Nat))
    (hs : S.fields = ps.map Prod.fst) (hc : ∀ p ∈ ps, CountedField isNum p) (vs : List V) (hl : S.fields.length = vs.length)
    (hn : ∀ (i : Nat) p v, ps[i]? = some p → vs[i]? = some v → p.1.attrs.bits.isSome = true → isNum v)
    (ca : Option CAttr) (fa : Option FAttr) (pre : List Byte) (hp : pre.length ≤ isizeMax) (n : Nat) (b' : Buf)
    (h : encStruct S vs ca fa ⟨pre, pre.length⟩ = (.ok n, b')) :
    pre.length + n = b'.data.length ↔ sharedBytes ps = totalFillers S.fields { vars := localVars S.getVars ca } vs := by
  have := C47_bits_exact S hw isNum ps hs hc vs hl hn ca fa pre hp n b' h
  omega

/-- Two members of a 16-bit word, and a byte: 3 bytes are written, 5 are reported. -/
example : encStruct { fields := [u16Field { isUse := true, bits := some fun _ => 0xff00, bitsStart := true },
      u16Field { isUse := true, bits := some fun _ => 0x00ff }, u8Field {}] } [.num 5, .num 6, .num 7] none none ⟨[9], 1⟩ =
        (.ok 5, ⟨[9, 5, 6, 7], 4⟩) ∧
    sharedBytes [(u16Field { isUse := true, bits := some fun _ => 0xff00, bitsStart := true }, 2),
      (u16Field { isUse := true, bits := some fun _ => 0x00ff }, 2), (u8Field {}, 1)] = 2 ∧
    Member (u16Field { isUse := true, bits := some fun _ => 0x00ff }) ⟨2, false⟩ (fun v => ∃ n, v = .num n) := by
  refine ⟨by decide +kernel, by decide +kernel, rfl, rfl, rfl, rfl, rfl, rfl, .mk _ _ (by decide), by decide,
    fun _ h => (nomatch h), ?_⟩
  rintro _ ⟨n, rfl⟩ ca fa
  exact ⟨n, rfl⟩

end JBytes
