import Verif.PropEnum
import Verif.PropTop
/-!
# Optional fields, variables and the reach of container modifiers: C55, C56, C57
-/

namespace JBytes
open M

variable {α V : Type}

/-! ## C55: `Option` -/

/-- C55 (present): `Some(v)` is written as `v`; it is read back exactly where `v` is, except under `length = 0`.
Missing from the full statement: `Some(v)` under `length = 0` (`C55_violated`). -/
theorem C55_some_partial (e : Enc α) (d : Dec α) (v : α) (ca : Option CAttr) (fa : Option FAttr) (w suf : List Byte)
    (hs : w.length + suf.length ≤ isizeMax) :
    (∀ b, encOption e (some v) ca fa b = e v ca fa b) ∧
    (Reads (decOption d ca fa) (some v) w suf ↔ fa.bind (·.length) ≠ some 0 ∧ Reads (d ca fa) v w suf) := by
  refine ⟨fun b => rfl, ?_, ?_⟩
  · intro h
    by_cases h0 : fa.bind (·.length) = some 0
    · have e := h [] (by simpa using hs)
      rw [decOption, if_pos h0, pure_apply] at e
      simp at e
    · refine ⟨h0, fun pre hp => ?_⟩
      have e := h pre hp
      rw [decOption, if_neg h0, attempt_apply] at e
      rcases hm : d ca fa ⟨pre ++ (w ++ suf), pre.length⟩ with ⟨o, b1⟩
      rw [hm] at e
      cases o with
      | ok a =>
        simp only [Prod.mk.injEq, Out.ok.injEq, Option.some.injEq] at e
        rw [e.1, e.2]
      | _ => simp at e
  · rintro ⟨h0, h⟩ pre hp
    rw [decOption, if_neg h0, attempt_apply, h pre hp]

/-- C55 (absent): `None` takes no room; it is read back from what follows exactly when `length` is 0 or when a value
of the type cannot be read there, and the failed attempt leaves the position alone.  Missing from the full statement: `None`
before anything that can be read as a value (`C55_violated`). -/
theorem C55_none_partial (e : Enc α) (d : Dec α) (ca : Option CAttr) (fa : Option FAttr) (suf : List Byte) :
    Appends (encOption e none ca fa) [] ∧
    (Reads (decOption d ca fa) none [] suf ↔ fa.bind (·.length) = some 0 ∨
      ∀ pre : List Byte, pre.length + suf.length ≤ isizeMax →
        ∃ x, d ca fa ⟨pre ++ suf, pre.length⟩ = (.err x, ⟨pre ++ suf, pre.length⟩)) := by
  refine ⟨Appends.pure0, ?_, ?_⟩
  · intro h
    by_cases h0 : fa.bind (·.length) = some 0
    · exact .inl h0
    · right
      intro pre hp
      have e := h pre (by simpa using hp)
      rw [decOption, if_neg h0, attempt_apply] at e
      simp only [List.nil_append, List.length_nil, Nat.add_zero] at e
      rcases hm : d ca fa ⟨pre ++ suf, pre.length⟩ with ⟨o, b1⟩
      rw [hm] at e
      cases o with
      | err x =>
        simp only [Prod.mk.injEq, true_and] at e
        exact ⟨x, by rw [e]⟩
      | _ => simp at e
  · rintro (h0 | h) pre hp
    · rw [decOption, if_pos h0]
      rfl
    · by_cases h0 : fa.bind (·.length) = some 0
      · rw [decOption, if_pos h0]
        rfl
      · obtain ⟨x, e⟩ := h pre (by simpa using hp)
        rw [decOption, if_neg h0, attempt_apply]
        simp only [List.nil_append, List.length_nil, Nat.add_zero, e]

/-- At the end of the data an absent integer comes back. -/
example (ca : Option CAttr) : Reads (decOption (decInt ⟨2, false⟩) ca none) none [] [] := by
  refine ((C55_none_partial (encInt ⟨2, false⟩) _ ca none []).2).mpr (.inr fun pre hp => ?_)
  have e := ((C19_byteorder ca none _ rfl).1 ⟨2, false⟩ 0 rfl rfl).1
  have h := (C03_scalar_value .u16 (effectiveOrder ca none) (pre ++ []) pre.length (by simp) (by simpa using hp)).2
    (by simp [Scalar.width])
  rw [e]
  exact ⟨_, h⟩

/-- C55 is violated where an absent value is followed by something: `None` and then `7` come back as `Some(7)` and
the end of the data; and `Some` of an empty byte string under `length = 0` comes back as `None`. -/
theorem C55_violated :
    (encodeEach [encOption (encInt ⟨1, false⟩) none none none, encOption (encInt ⟨1, false⟩) (some 7) none none] ⟨[], 0⟩).2
      = ⟨[7], 1⟩ ∧
    decodeEach [decOption (decInt ⟨1, false⟩) none none, decOption (decInt ⟨1, false⟩) none none] ⟨[7], 0⟩
      = (.ok [some 7, none], ⟨[7], 1⟩) ∧
    encOption encBytes (some []) none (some { length := some 0 }) ⟨[], 0⟩ = (.ok 0, ⟨[], 0⟩) ∧
    decOption decBytes none (some { length := some 0 }) ⟨[], 0⟩ = (.ok none, ⟨[], 0⟩) := by
  refine ⟨?_, ?_, ?_, ?_⟩ <;> decide +kernel

/-! ## C56: `variable_name` and `get_variable_name` -/

/-- What the fields of a struct assign, in order; the expressions see the fields up to and including their own. -/
def assignments : List (Field V) → Env V → List V → List (String × Nat)
  | f :: fs, env, v :: vs => ((f.attrs.variableName.getD []).map fun x => (x.1, x.2 (env.push v)))
      ++ assignments fs (env.push v) vs
  | _, _, _ => []

/-- The last assignment to `s` is `n`. -/
def LastAssigned (as : List (String × Nat)) (s : String) (n : Nat) : Prop :=
  ∃ l r, as = l ++ (s, n) :: r ∧ ∀ p ∈ r, p.1 ≠ s

/-- The variable a type can get at. -/
def Visible (ca : Option CAttr) (s : String) (n : Nat) : Prop := ∃ c, ca = some c ∧ c.vars.lookup s = some n

/-- The container modifiers written on a type carry no variables. -/
def Literal (c : Option CAttr) : Prop := ∀ x, c = some x → x.vars = []

theorem lookup_reverse_append (s : String) (n : Nat) (rest : List (String × Nat)) : ∀ as : List (String × Nat),
    (as.reverse ++ rest).lookup s = some n ↔
      LastAssigned as s n ∨ ((∀ p ∈ as, p.1 ≠ s) ∧ rest.lookup s = some n) := by
  intro as
  rw [← as.reverse_reverse]
  generalize as.reverse = r
  simp only [List.reverse_reverse]
  induction r with
  | nil =>
    constructor
    · intro h; exact .inr ⟨by simp, h⟩
    · rintro (⟨l, r, h, -⟩ | h)
      · simp at h
      · exact h.2
  | cons p r ih =>
    obtain ⟨t, m⟩ := p
    rw [List.cons_append, List.lookup_cons]
    by_cases hts : s = t
    · subst hts
      simp only [beq_self_eq_true]
      constructor
      · intro h
        cases h
        exact .inl ⟨r.reverse, [], by simp, by simp⟩
      · rintro (⟨l, q, h, hq⟩ | ⟨h, -⟩)
        · rw [List.reverse_cons] at h
          rcases List.eq_nil_or_concat q with rfl | ⟨q', z, rfl⟩
          · have := List.append_inj' h rfl
            simp at this
            rw [this.2]
          · exfalso
            rw [List.concat_eq_append, ← List.cons_append, ← List.append_assoc] at h
            have := List.append_inj' h rfl
            simp at this
            exact hq z (by simp) (by rw [← this.2])
        · exact absurd rfl (h (s, m) (by simp))
    · have : (s == t) = false := by simpa using hts
      rw [this]
      simp only
      rw [ih]
      constructor
      · rintro (⟨l, q, h, hq⟩ | ⟨h, h'⟩)
        · left
          refine ⟨l, q ++ [(t, m)], by rw [List.reverse_cons, h]; simp, ?_⟩
          intro p hp
          rcases List.mem_append.mp hp with hp | hp
          · exact hq p hp
          · rw [List.mem_singleton.mp hp]; exact fun e => hts e.symm
        · right
          refine ⟨?_, h'⟩
          intro p hp
          rw [List.mem_reverse, List.mem_cons] at hp
          rcases hp with rfl | hp
          · exact fun e => hts e.symm
          · exact h p (by simpa using hp)
      · rintro (⟨l, q, h, hq⟩ | ⟨h, h'⟩)
        · left
          rw [List.reverse_cons] at h
          rcases List.eq_nil_or_concat q with rfl | ⟨q', z, rfl⟩
          · exfalso
            have := List.append_inj' h rfl
            simp at this
            exact hts this.2.1.symm
          · rw [List.concat_eq_append, ← List.cons_append, ← List.append_assoc] at h
            have := (List.append_inj' h rfl).1
            exact ⟨l, q', this, fun p hp => hq p (by simp [hp])⟩
        · exact .inr ⟨fun p hp => h p (by rw [List.mem_reverse] at hp ⊢; simp [hp]), h'⟩

theorem cachedAfter_vars (fs : List (Field V)) : ∀ (ca : Option CAttr) (env : Env V) (vs : List V),
    fs.length = vs.length →
    ((cachedAfter fs ca env vs).getD {}).vars = (assignments fs env vs).reverse ++ (ca.getD {}).vars := by
  induction fs with
  | nil => intro ca env vs h; cases vs <;> simp [cachedAfter, assignments]
  | cons f fs ih =>
    intro ca env vs h
    cases vs with
    | nil => simp at h
    | cons v vs =>
      simp only [cachedAfter, assignments]
      rw [ih _ _ _ (by simpa using h)]
      unfold cacheVars
      cases f.attrs.variableName <;> simp

/-- C56 (cache): when a field is decoded its type can get at exactly the variables assigned by the fields before it,
each with the value assigned last.  Missing from the full statement: encoding (`C56_encode_zero`), and types nested
deeper (`C56_violated`). -/
theorem C56_visible_partial (fs : List (Field V)) (c : Option CAttr) (hc : Literal c) (env : Env V) (vs : List V)
    (hl : fs.length = vs.length) (s : String) (n : Nat) :
    Visible (cachedAfter fs c env vs) s n ↔ LastAssigned (assignments fs env vs) s n := by
  have hv := cachedAfter_vars fs c env vs hl
  have h0 : (c.getD {}).vars = [] := by
    cases c with
    | none => rfl
    | some x => exact hc x rfl
  have key : Visible (cachedAfter fs c env vs) s n ↔ ((cachedAfter fs c env vs).getD {}).vars.lookup s = some n := by
    unfold Visible
    cases cachedAfter fs c env vs <;> simp
  rw [key, hv, h0, lookup_reverse_append]
  simp

/-- C56 (get): inside a type with `get_variable_name`, a listed name is the visible value, or 0 if there is none. -/
theorem C56_local (names : List String) (ca : Option CAttr) (s : String) (hs : s ∈ names) (fields : List V) :
    (∀ n, Visible ca s n → Env.var ({ vars := localVars names ca, fields := fields } : Env V) s = n) ∧
    ((∀ n, ¬ Visible ca s n) → Env.var ({ vars := localVars names ca, fields := fields } : Env V) s = 0) := by
  have key : Env.var ({ vars := localVars names ca, fields := fields } : Env V) s
      = (ca.bind fun c => c.vars.lookup s).getD 0 := by
    unfold Env.var localVars
    simp only
    induction names with
    | nil => cases hs
    | cons t ts ih =>
      rw [List.map_cons, List.lookup_cons]
      by_cases h : s = t
      · subst h; simp
      · have : (s == t) = false := by simpa using h
        rw [this]
        exact ih (by simpa [h] using hs)
  rw [key]
  refine ⟨?_, ?_⟩
  · rintro n ⟨c, rfl, h⟩
    simp [h]
  · intro h
    cases ca with
    | none => rfl
    | some c =>
      cases hl : c.vars.lookup s with
      | none => simp [hl]
      | some n => exact absurd ⟨c, rfl, hl⟩ (h n)

theorem localVars_congr (names : List String) (ca ca' : Option CAttr)
    (h : ∀ s ∈ names, ∀ n, Visible ca s n ↔ Visible ca' s n) : localVars names ca = localVars names ca' := by
  unfold localVars
  refine List.map_congr_left fun s hs => ?_
  have key : ∀ n, (ca.bind fun c => c.vars.lookup s) = some n ↔ (ca'.bind fun c => c.vars.lookup s) = some n := by
    intro n
    have := h s hs n
    unfold Visible at this
    simpa [Option.bind_eq_some_iff] using this
  have : (ca.bind fun c => c.vars.lookup s) = (ca'.bind fun c => c.vars.lookup s) := Option.ext key
  rw [this]

/-- C56, C57 (reach): a derived struct depends on its surroundings only through the variables it names: neither the
container modifiers of an enclosing type, nor the modifiers on the field that holds it, nor other variables matter. -/
theorem C57_struct_closed (S : StructDef V) (hd : S.withDecode = none) (he : S.withEncode = none)
    (ca ca' : Option CAttr) (fa fa' : Option FAttr) (h : ∀ s ∈ S.getVars, ∀ n, Visible ca s n ↔ Visible ca' s n) :
    decStruct S ca fa = decStruct S ca' fa' ∧ ∀ vs, encStruct S vs ca fa = encStruct S vs ca' fa' := by
  have hl := localVars_congr S.getVars ca ca' h
  refine ⟨?_, fun vs => ?_⟩
  · simp only [decStruct, hd, hl]
  · simp only [encStruct, he, hl]

/-- C57 (fields): the container modifiers of a struct or enum reach every field, whatever variables are assigned.
Missing from the full statement: the tag of an enum (`C57_enum_tag_order`, `C57_violated`). -/
theorem C57_container_reaches_partial (fs : List (Field V)) (c : Option CAttr) (env : Env V) (vs : List V) (fa : Option FAttr) :
    effectiveOrder (cachedAfter fs c env vs) fa = effectiveOrder c fa ∧
    (cachedAfter fs c env vs).bind (·.byteCount) = c.bind (·.byteCount) := by
  have key : ∀ (fs : List (Field V)) (c : Option CAttr) (env : Env V) (vs : List V),
      (cachedAfter fs c env vs).bind (·.byteorder) = c.bind (·.byteorder) ∧
      (cachedAfter fs c env vs).bind (·.byteCount) = c.bind (·.byteCount) := by
    intro fs
    induction fs with
    | nil => intro c env vs; exact ⟨rfl, rfl⟩
    | cons f fs ih =>
      intro c env vs
      cases vs with
      | nil => exact ⟨rfl, rfl⟩
      | cons v vs =>
        obtain ⟨h1, h2⟩ := ih (cacheVars f.attrs c (env.push v)) (env.push v) vs
        simp only [cachedAfter]
        rw [h1, h2]
        unfold cacheVars
        cases f.attrs.variableName with
        | none => exact ⟨rfl, rfl⟩
        | some l => cases c <;> exact ⟨rfl, rfl⟩
  refine ⟨?_, (key fs c env vs).2⟩
  unfold effectiveOrder
  rw [(key fs c env vs).1]

example : Visible (cachedAfter [u8Field { isUse := true, variableName := some [("n", fun env => env.num 0)] },
    u8Field { isUse := true, variableName := some [("n", fun env => env.num 0 + env.num 1), ("m", fun _ => 9)] }] none {}
      [.num 3, .num 4]) "n" 7 := by
  refine (C56_visible_partial _ none (by intro x h; cases h) {} _ rfl "n" 7).mpr ⟨[("n", 3)], [("m", 9)], by decide +kernel, ?_⟩
  simp

/-! ### Variables and round trips -/

/-- `#[get_variable_name = "length"] struct Body { #[length = "length"] value: Vec<u8> }`. -/
def varBody : StructDef Val :=
  { getVars := ["length"], fields := [bytesField { isUse := true, length := some fun env => env.var "length" }] }

/-- A field whose type is a struct with one field (a value of which is written as the value of that field). -/
def nested (S : StructDef Val) (a : FieldAttrs Val) : Field Val :=
  ⟨a, fun ca fa => mapM' (fun vs => vs.headD .absent) (decStruct S ca fa), fun v ca fa => encStruct S [v] ca fa,
    .absent, .absent⟩

/-- The struct of tests/test_modifier_variable_name.rs: `cmd: u8, #[variable_name = "length"] length: u8, body: Body`. -/
def varOuter : StructDef Val :=
  { fields := [u8Field {}, u8Field { isUse := true, variableName := some [("length", fun env => env.num 1)] },
      nested varBody {}] }

theorem bytes_length_wire (d suf : List Byte) (ca : Option CAttr) (n : Nat) :
    Writes (encBytes d ca (some { length := some n })) d ∧
    (n = d.length → Reads (decBytes ca (some { length := some n })) d d suf) := by
  have e : bytesWire ca (some { length := some n }) d = d := by simp [bytesWire, framingOf, Framing.wire, heads]
  have h1 := encBytes_appends d ca (some { length := some n }) (by intro k hk; simp [framingOf] at hk)
  rw [e] at h1
  refine ⟨h1.writes, ?_⟩
  rintro rfl
  have h2 := decBytes_reads d suf ca (some { length := some d.length }) rfl
  rw [e] at h2
  exact h2

/-- C56 (round trip): the struct of the crate's test round trips for every body whose length fits the length field,
whatever follows. -/
theorem C56_length_variable (c : Nat) (hc : c < 256) (s suf : List Byte) (hs : s.length < 256) :
    Writes (encStruct varOuter [.num c, .num s.length, .bytes s] none none)
      (UInt8.ofNat c :: UInt8.ofNat s.length :: s) ∧
    Reads (decStruct varOuter none none) [.num c, .num s.length, .bytes s]
      (UInt8.ofNat c :: UInt8.ofNat s.length :: s) suf := by
  have ord : ∀ (f : Field Val) env, f.attrs.byteorder = none → OrderOk f.attrs env := by
    intro f env h e he; rw [h] at he; cases he
  have c3 : SegRT [varOuter.fields[2]] none (some { vars := [("length", s.length)] })
      ⟨localVars [] none, [.num c, .num s.length]⟩ ⟨localVars [] none, [.num c, .num s.length]⟩ [.bytes s] s suf := by
    have inner := C43_struct_roundtrip varBody rfl rfl (by intro h; cases h) none (some { vars := [("length", s.length)] })
      none none [.bytes s] (s ++ []) suf (by
        refine Segments.cons (fs := [varBody.fields[0]]) (vs := [.bytes s]) ?_ (Segments.nil _ _ _ _)
        refine C43_field_segment ?_
        exact C43_field_plain varBody.fields[0] none none ⟨localVars ["length"] none, []⟩
          ⟨localVars ["length"] (some { vars := [("length", s.length)] }), []⟩ (.bytes s) s ([] ++ suf)
          ⟨rfl, rfl, rfl, rfl, rfl, rfl⟩ rfl (ord _ _ rfl) (ord _ _ rfl) rfl
          (bytes_length_wire s suf none 0).1
          (fun _ => ((bytes_length_wire s suf none s.length).2 rfl).mapped Val.bytes)
          (by intro c h; cases h) rfl (by intro c h; cases h))
    rw [List.append_nil] at inner
    refine C43_field_segment ?_
    exact C43_field_plain varOuter.fields[2] none (some { vars := [("length", s.length)] })
      ⟨localVars [] none, [.num c, .num s.length]⟩ ⟨localVars [] none, [.num c, .num s.length]⟩ (.bytes s) s suf
      ⟨rfl, rfl, rfl, rfl, rfl, rfl⟩ rfl (ord _ _ rfl) (ord _ _ rfl) rfl inner.1
      (fun _ => inner.2.mapped fun vs => vs.headD .absent) (by intro c h; cases h) rfl (by intro c h; cases h)
  have num : ∀ (f : Field Val) (env : Env Val) (n : Nat) suf, n < 256 → (f = varOuter.fields[0] ∨ f = varOuter.fields[1]) →
      SegRT [f] none none env env [.num n] [UInt8.ofNat n] suf := by
    intro f env n suf hn hf
    have hw := int_writes ⟨1, false⟩ (.mk _ _ (by decide)) n none none rfl rfl
    have hr := (int_reads ⟨1, false⟩ (.mk _ _ (by decide)) n none none suf rfl rfl (by simpa using hn)).mapped Val.num
    rw [show toBytes (effectiveOrder none none) (IntKind.mk 1 false).size n = [UInt8.ofNat n] from toBytes_one _ _] at hw hr
    rcases hf with rfl | rfl <;>
    · refine C43_field_segment ?_
      exact C43_field_plain _ none none env env (.num n) [UInt8.ofNat n] suf
        ⟨rfl, rfl, rfl, rfl, rfl, rfl⟩ rfl (ord _ _ rfl) (ord _ _ rfl) rfl hw (fun _ => hr) (by intro c h; cases h) rfl
        (by intro c h; cases h)
  refine C43_struct_roundtrip varOuter rfl rfl (by intro h; cases h) none none none none _ _ suf ?_
  have := Segments.cons (fs := [varOuter.fields[0]]) (vs := [.num c]) (num _ ⟨localVars [] none, []⟩ c
      (([UInt8.ofNat s.length] ++ (s ++ [])) ++ suf) hc (.inl rfl))
    (Segments.cons (fs := [varOuter.fields[1]]) (vs := [.num s.length]) (num _ ⟨localVars [] none, [.num c]⟩ s.length
        ((s ++ []) ++ suf) hs (.inr rfl))
      (Segments.cons (fs := [varOuter.fields[2]]) (vs := [.bytes s]) c3 (Segments.nil _ _ _ _)))
  simp only [List.append_nil, List.singleton_append, List.cons_append, List.nil_append] at this
  exact this

/-- C56 (encode): the encoder assigns nothing: a struct nested in another is written as if on its own, with all its
variables 0. -/
theorem C56_encode_zero (S S' : StructDef V) (hc : Literal S.container) (he : S'.withEncode = none)
    (fa : Option FAttr) (vs : List V) :
    encStruct S' vs S.container fa = encStruct S' vs none none ∧
    ∀ s ∈ S'.getVars, Env.var ({ vars := localVars S'.getVars S.container } : Env V) s = 0 := by
  have hv : ∀ s n, ¬ Visible S.container s n := by
    rintro s n ⟨c, h1, h2⟩
    rw [hc c h1] at h2
    cases h2
  refine ⟨?_, fun s hs => (C56_local S'.getVars S.container s hs []).2 (hv s)⟩
  have := localVars_congr S'.getVars S.container none (fun s _ n => ⟨fun h => absurd h (hv s n), by rintro ⟨c, h, -⟩; cases h⟩)
  simp only [encStruct, he, this]

/-- C56 is violated on the way out: an integer as wide as a variable says is read with that width, but written with
none; and at every depth below the first: the body of a body gets 0. -/
theorem C56_violated :
    let n : StructDef Val := { getVars := ["n"], fields := [u16Field { isUse := true, length := some fun env => env.var "n" }] }
    let o : StructDef Val := { fields := [u8Field { isUse := true, variableName := some [("n", fun env => env.num 0)] }, nested n {}] }
    let deep : StructDef Val := { fields := [u8Field { isUse := true, variableName := some [("n", fun env => env.num 0)] },
      nested { fields := [nested n {}] } {}] }
    (decStruct o none none ⟨[1, 7], 0⟩ = (.ok [.num 1, .num 7], ⟨[1, 7], 2⟩) ∧
    encStruct o [.num 1, .num 7] none none ⟨[], 0⟩ = (.ok 1, ⟨[1], 1⟩)) ∧
    decStruct deep none none ⟨[1, 7], 0⟩ = (.ok [.num 1, .num 0], ⟨[1, 7], 1⟩) := by
  refine ⟨⟨?_, ?_⟩, ?_⟩ <;> decide +kernel

/-! ## C57: enums -/

/-- C57 (enum tag): the tag is read and written in the byte order of the surrounding modifiers; the `byteorder` of the
enum itself makes no difference to it. -/
theorem C57_enum_tag_order (c : CAttr) (o : Option ByteOrder) (ca : Option CAttr) (fa : Option FAttr) (disable : Bool)
    (num : Nat) : decTag (some { c with byteorder := o }) ca fa = decTag (some c) ca fa ∧
      encTag (some { c with byteorder := o }) ca fa disable num = encTag (some c) ca fa disable num := by
  exact ⟨rfl, rfl⟩

/-- C57 (reach of what surrounds an enum): only the variables it names and, for the tag, the byte order of the
surrounding modifiers matter. -/
theorem C57_enum_closed (E : EnumDef V) (hd : E.withDecode = none) (ca ca' : Option CAttr) (fa : Option FAttr)
    (h : ∀ s ∈ E.getVars, ∀ n, Visible ca s n ↔ Visible ca' s n) (ho : effectiveOrder ca fa = effectiveOrder ca' fa) :
    decEnum E ca fa = decEnum E ca' fa ∧ ∀ x, encEnum E x ca fa = encEnum E x ca' fa := by
  have hl := localVars_congr E.getVars ca ca' h
  rw [← getByteorder_eq, ← getByteorder_eq] at ho
  have ht : decTag E.container ca fa = decTag E.container ca' fa := by unfold decTag; rw [ho]
  have he : ∀ num, encTag E.container ca fa E.byteCountDisable num = encTag E.container ca' fa E.byteCountDisable num := by
    intro num; unfold encTag; rw [ho]
  refine ⟨?_, fun x => ?_⟩
  · simp only [decEnum, hd, hl, ht]
  · simp only [encEnum, encVariant, encTagMode, hl, he]

/-- C57 is violated for enums: the two-byte tag of a little-endian enum is big-endian, while its fields are
little-endian. -/
theorem C57_violated :
    let E : EnumDef Val := { container := some { byteorder := some .le, byteCount := some 2 },
                             variants := [{}, { fields := [u16Field {}] }] }
    encEnum E (1, [.num 2]) none none ⟨[], 0⟩ = (.ok 4, ⟨[0, 1, 2, 0], 4⟩) ∧
    decEnum E none none ⟨[1, 0, 2, 0], 0⟩ = (.err ⟨2, .invalidByteLength⟩, ⟨[1, 0, 2, 0], 2⟩) := by
  refine ⟨?_, ?_⟩ <;> decide +kernel

end JBytes
