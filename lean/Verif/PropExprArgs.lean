import Verif.PropExprVars
/-!
# C88: arguments of the functions of `with`

`with_args = "a, b"` hands fields over to the functions that decode and encode a field (`with`, `decode_with`,
`encode_with`).
-/

namespace JBytes

/-! ## Model -/

/-- The arguments in the text: tokens between commas; an empty text has none.  (Commas inside parentheses are not modelled:
there are no tuples and no calls in `Tok`.) -/
abbrev ArgToks := List (List Tok)

/-- What an argument is in a scope. -/
def argIn (S : Scope) (ts : List Tok) : Option Res := (parseExpr ts).bind (Expr.eval S)

/-- All of them; `none`: rustc does not accept the call. -/
def argsIn (S : Scope) (args : ArgToks) : Option (List Res) := args.mapM (argIn S)

/-- The arguments in the decoder: the text as it is, derive/src/jbytes/decode.rs:21, 26 and 30. -/
def decodeArgs (before : List (Sel × Thing)) (args : ArgToks) : Option (List Res) :=
  argsIn (decodeScope before) args

/-- What is put before the whole text: `self.` in a struct, nothing in an enum, derive/src/jbytes/encode.rs:24-26.  Before an
empty text it is an argument of its own. -/
def prefixArgs (p : Place) : ArgToks → ArgToks
  | [] => if p = .structField then [[.self, .dot]] else []
  | a :: args => (if p = .structField then [.self, .dot] ++ a else a) :: args

/-- The arguments in the encoder, derive/src/jbytes/encode.rs:29 and 33. -/
def encodeArgs (p : Place) (fs : List (Sel × Thing)) (args : ArgToks) : Option (List Res) :=
  argsIn (encodeScope p fs) (prefixArgs p args)

/-! ## Helpers -/

theorem argsIn_cons (S : Scope) (a : List Tok) (args : ArgToks) (rs : List Res) :
    argsIn S (a :: args) = some rs ↔ ∃ r rs', argIn S a = some r ∧ argsIn S args = some rs' ∧ rs = r :: rs' := by
  unfold argsIn
  rw [List.mapM_cons]
  cases h1 : argIn S a with
  | none => simp
  | some r =>
    cases h2 : args.mapM (argIn S) with
    | none => simp
    | some rs' => simp [eq_comm]

theorem steps_id (f : Text → Expr) (ts : List Tok) (h : bareNames ts = []) :
    parseExpr ts = (parseExpr ts).map (Expr.subst f) :=
  rest_subst_names f ts ([], .operand) trivial (by rw [h]; intro y hy; cases hy)

/-- Without names the scope does not matter. -/
theorem argIn_closed {S S' : Scope} (hself : S.self = none) {ts : List Tok} (h : bareNames ts = []) {r : Res}
    (hr : argIn S ts = some r) : argIn S' ts = some r := by
  obtain ⟨e, h1, h2⟩ := Option.bind_eq_some_iff.1 hr
  -- a scope without names accepts it, too
  have key : ∀ (e : Expr) (r : Res), e.eval ⟨fun _ => none, none⟩ = some r → e.eval S' = some r := by
    intro e
    induction e with
    | name x => intro r h; cases h
    | self => intro r h; cases h
    | num n => intro r h; exact h
    | field e s ih | deref e ih | cast e ty ih =>
      intro r h
      obtain ⟨a, ha, h⟩ := Option.bind_eq_some_iff.1 h
      rw [Expr.eval, ih a ha]
      exact h
    | bin op l r ihl ihr =>
      intro x h
      obtain ⟨a, ha, h⟩ := Option.bind_eq_some_iff.1 h
      obtain ⟨b, hb, h⟩ := Option.bind_eq_some_iff.1 h
      rw [Expr.eval, ihl a ha, ihr b hb]
      exact h
  -- all names replaced by a number
  have h3 := steps_id (fun _ => .num 0) ts h
  rw [h1] at h3
  have h4 : e = e.subst fun _ => .num 0 := Option.some.inj h3
  have h5 : ∀ (e : Expr) (r : Res), e.eval S = some r → e = e.subst (fun _ => .num 0) →
      e.eval ⟨fun _ => none, none⟩ = some r := by
    intro e
    induction e with
    | name x => intro r _ h; cases h
    | self => intro r h _; rw [Expr.eval, hself] at h; cases h
    | num n => intro r h _; exact h
    | field e s ih | deref e ih | cast e ty ih =>
      intro r h hs
      injection hs with hs
      obtain ⟨a, ha, h⟩ := Option.bind_eq_some_iff.1 h
      rw [Expr.eval, ih a ha hs]
      exact h
    | bin op l r ihl ihr =>
      intro x h hs
      injection hs with _ hs1 hs2
      obtain ⟨a, ha, h⟩ := Option.bind_eq_some_iff.1 h
      obtain ⟨b, hb, h⟩ := Option.bind_eq_some_iff.1 h
      rw [Expr.eval, ihl a ha hs1, ihr b hb hs2]
      exact h
  unfold argIn
  rw [h1]
  exact key e r (h5 e r h2 h4)

/-- Where there are no names at all, a name makes it meaningless. -/
theorem argIn_names {S : Scope} (hS : ∀ x, S.name x = none) {ts : List Tok} {r : Res} (h : argIn S ts = some r) :
    bareNames ts = [] := by
  cases hc : bareNames ts with
  | nil => rfl
  | cons y ys =>
    have : argIn S ts = none := bare_none (hS y) ts ([], .operand) trivial (by rw [hc]; exact List.mem_cons_self)
    rw [this] at h
    cases h

theorem argsIn_closed {S S' : Scope} (hself : S.self = none) : ∀ (args : ArgToks) (rs : List Res),
    (∀ a ∈ args, bareNames a = []) → argsIn S args = some rs → argsIn S' args = some rs
  | [], _, _, h => h
  | a :: args, rs, hall, h => by
    obtain ⟨r, rs', h1, h2, rfl⟩ := (argsIn_cons S a args rs).1 h
    exact (argsIn_cons S' a args _).2 ⟨r, rs', argIn_closed hself (hall a List.mem_cons_self) h1,
      argsIn_closed hself args rs' (fun b hb => hall b (List.mem_cons_of_mem _ hb)) h2, rfl⟩

theorem argsIn_names {S : Scope} (hS : ∀ x, S.name x = none) : ∀ (args : ArgToks) (rs : List Res),
    argsIn S args = some rs → ∀ a ∈ args, bareNames a = []
  | [], _, _, a, ha => by cases ha
  | b :: args, rs, h, a, ha => by
    obtain ⟨r, rs', h1, h2, rfl⟩ := (argsIn_cons S b args rs).1 h
    rcases List.mem_cons.1 ha with rfl | ha
    · exact argIn_names hS h1
    · exact argsIn_names hS args rs' h2 a ha

/-! ## The properties -/

/-- **C88** (structs with named fields): arguments that the decoder accepts are accepted by the encoder – and are the same –
exactly if there is one, the first begins with a name and has no other, and the others have no names at all. -/
theorem C88_struct_iff (fs before : List (Sel × Thing)) (args : ArgToks) (rs rs' : List Res) (hb : before <+: fs)
    (hnamed : ∀ p ∈ fs, ∃ x, p.1 = .name x) (hd : decodeArgs before args = some rs) :
    encodeArgs .structField fs args = some rs' ↔ rs' = rs ∧ ∃ f rest others, args = (.name f :: rest) :: others ∧
      bareNames rest = [] ∧ ∀ a ∈ others, bareNames a = [] := by
  have hno : ∀ x, (encodeScope .structField fs).name x = none := fun _ => rfl
  have hback : ∀ f rest others, args = (.name f :: rest) :: others → bareNames rest = [] →
      (∀ a ∈ others, bareNames a = []) → encodeArgs .structField fs args = some rs := by
    rintro f rest others rfl hrest hothers
    obtain ⟨r, rs1, h1, h2, rfl⟩ := (argsIn_cons _ _ _ _).1 hd
    refine (argsIn_cons _ _ _ _).2 ⟨r, rs1, ?_, argsIn_closed rfl others rs1 hothers h2, rfl⟩
    obtain ⟨e, h3, h4⟩ := Option.bind_eq_some_iff.1 h1
    have hp : parseExpr ([.self, .dot] ++ .name f :: rest) =
        (parseExpr (.name f :: rest)).map (Expr.subst fun x => .field .self (.name x)) :=
      rest_subst (fun x => .field .self (.name x)) rest ([], .operator (.name f)) trivial hrest
    show (parseExpr ([.self, .dot] ++ .name f :: rest)).bind _ = _
    rw [hp, h3]
    refine eval_subst (fun x => .field .self (.name x)) (decodeScope before) (encodeScope .structField fs) rfl ?_ e r h4
    intro x b t h
    obtain ⟨t', ht', he⟩ := Option.map_eq_some_iff.1 h
    cases he
    have h5 := lookup_of_fieldNamed hnamed x
    rw [fieldNamed_before hb ht'] at h5
    simp [Expr.eval, encodeScope, evalField, h5]
  constructor
  · intro he
    suffices h : ∃ f rest others, args = (.name f :: rest) :: others ∧ bareNames rest = [] ∧ ∀ a ∈ others, bareNames a = [] by
      obtain ⟨f, rest, others, h1, h2, h3⟩ := h
      refine ⟨?_, f, rest, others, h1, h2, h3⟩
      rw [hback f rest others h1 h2 h3] at he
      exact (Option.some.inj he).symm
    cases args with
    | nil => cases he
    | cons a others =>
      obtain ⟨r, rs1, h1, h2, rfl⟩ := (argsIn_cons _ _ _ _).1
        (show argsIn (encodeScope .structField fs) (([.self, .dot] ++ a) :: others) = some rs' from he)
      cases a with
      | nil => cases h1
      | cons t rest =>
        cases t with
        | name f => exact ⟨f, rest, others, rfl, argIn_names (ts := [.self, .dot] ++ .name f :: rest) hno h1, argsIn_names hno others rs1 h2⟩
        | num k =>
          exfalso
          have : argIn (encodeScope .structField fs) ([.self, .dot] ++ .num k :: rest) = none := by
            refine rest_none (.field .self (.index k)) ?_ rest ([], .operator (.field .self (.index k))) (.inr .here)
            have h5 : fs.lookup (.index k) = none := by
              rw [List.lookup_eq_none_iff]
              intro p hp
              obtain ⟨x, hx⟩ := hnamed p hp
              rw [hx]
              rfl
            simp [Expr.eval, encodeScope, evalField, h5]
          rw [this] at h1
          cases h1
        | _ => cases h1
  · rintro ⟨rfl, f, rest, others, h1, h2, h3⟩
    exact hback f rest others h1 h2 h3

/-- **C88** (variants): names of fields are accepted in both directions, as many as there are; the encoder hands over
references. -/
theorem C88_variant (p : Place) (hp : p ≠ .structField) (fs before : List (Sel × Thing)) (hb : before <+: fs) :
    ∀ (xs : List Text) (rs : List Res), decodeArgs before (xs.map fun x => [.name x]) = some rs →
      ∃ ts : List Thing, rs = ts.map (.val false) ∧
        encodeArgs p fs (xs.map fun x => [.name x]) = some (ts.map (.val true)) := by
  have hpre : ∀ args, prefixArgs p args = args := by
    intro args
    cases args <;> simp [prefixArgs, hp]
  have hscope : encodeScope p fs = ⟨fun x => (fieldNamed fs x).map fun t => (true, t), some (.record [])⟩ := if_neg hp
  intro xs
  unfold encodeArgs
  rw [hpre]
  induction xs with
  | nil =>
    intro rs h
    cases h
    exact ⟨[], rfl, rfl⟩
  | cons x xs ih =>
    intro rs h
    obtain ⟨r, rs', h1, h2, rfl⟩ := (argsIn_cons _ _ _ _).1 h
    obtain ⟨ts, rfl, h4⟩ := ih rs' h2
    obtain ⟨q, hq, hr⟩ := Option.map_eq_some_iff.1
      (show ((decodeScope before).name x).map (fun p => Res.val p.1 p.2) = some r from h1)
    obtain ⟨t, ht, rfl⟩ := Option.map_eq_some_iff.1 hq
    subst hr
    refine ⟨t :: ts, rfl, (argsIn_cons _ _ _ _).2 ⟨.val true t, ts.map (.val true), ?_, ?_, rfl⟩⟩
    · show ((encodeScope p fs).name x).map (fun p => Res.val p.1 p.2) = _
      rw [hscope]
      simp [fieldNamed_before hb ht]
    · exact h4

/-- C88 fails: `with_args = "k, n"` and `with_args = "2"` are accepted by the decoder of a struct and not by its encoder. -/
theorem C88_violated :
    ((decodeArgs (headerThing 1 10) [[.name ['k']], [.name ['n']]]).isSome = true ∧
      (encodeArgs .structField (headerThing 1 10) [[.name ['k']], [.name ['n']]]).isSome = false) ∧
    ((decodeArgs (headerThing 1 10) [[.num 2]]).isSome = true ∧
      (encodeArgs .structField (headerThing 1 10) [[.num 2]]).isSome = false) ∧
    ((decodeArgs (headerThing 1 10) []).isSome = true ∧
      (encodeArgs .structField (headerThing 1 10) []).isSome = false) := by
  decide +kernel

/-! ## Examples -/

/-- tests/test_modifier_with_args.rs: `with_args = "count"`. -/
example : encodeArgs .structField (headerThing 1 10) [[.name ['n']], [.num 3]] =
    some [.val false (.int ['u', '1', '6'] 10), .lit 3 3 3] :=
  (C88_struct_iff (headerThing 1 10) (headerThing 1 10) [[.name ['n']], [.num 3]] _ _ (List.prefix_refl _)
    (by intro p hp; rcases List.mem_cons.1 hp with rfl | hp; exact ⟨_, rfl⟩
        rcases List.mem_cons.1 hp with rfl | hp; exact ⟨_, rfl⟩; cases hp) rfl).2
    ⟨rfl, _, _, _, rfl, rfl, by intro a ha; rcases List.mem_cons.1 ha with rfl | ha; rfl; cases ha⟩

example : ∃ ts : List Thing, encodeArgs .namedField (headerThing 1 10) [[.name ['k']], [.name ['n']]] = some (ts.map (.val true)) :=
  (C88_variant .namedField (by decide) (headerThing 1 10) (headerThing 1 10) (List.prefix_refl _) [['k'], ['n']] _ rfl).imp
    fun _ h => h.2

end JBytes
