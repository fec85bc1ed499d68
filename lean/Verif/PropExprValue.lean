import Verif.PropExpr
import Verif.PropGetter
/-!
# C95: the number that an expression in an attribute gives

What an expression says is given here by a grammar over its tokens, with the integers that ordinary arithmetic gives; the
parser and the evaluator of `AttrExpr.lean` are not used in it.
-/

namespace JBytes

/-! ## What an expression says -/

/-- A name, or a field of what a path says. -/
inductive PathSays (ρ : Text → Option Thing) : List Tok → Thing → Prop
  | name (x : Text) (t : Thing) : ρ x = some t → PathSays ρ [.name x] t
  | field (ts : List Tok) (fs : List (Sel × Thing)) (s : Sel) (t : Thing) : PathSays ρ ts (.record fs) →
      fs.lookup s = some t → PathSays ρ (ts ++ [.dot, s.tok]) t

/-- The number of the type that a number becomes when it wraps around. -/
def Wrapped (k : IntKind) (z v : Int) : Prop := FitsInt k v ∧ ∃ q : Int, v = z + q * 2 ^ (8 * k.size)

/-- The number in a type; without a type, the number itself. -/
def InType (z v : Int) : Option Text → Prop
  | none => v = z
  | some T => ∃ k, IntType T k ∧ Wrapped k z v

/-- Operands are of one type, where they have one. -/
inductive OneType : Option Text → Option Text → Option Text → Prop
  | none : OneType none none none
  | left (T : Text) : OneType (some T) none (some T)
  | right (T : Text) : OneType none (some T) (some T)
  | both (T : Text) : OneType (some T) (some T) (some T)

/-- The levels of the grammar. -/
inductive ExprLevel where
  | atom
  | unary
  | product
  | sum

/-- The integer that an expression says, and the type it is computed in, if there is one.  Nothing wraps around except by a
cast. -/
inductive Says95 (ρ : Text → Option Thing) : ExprLevel → List Tok → Option Text → Int → Prop
  | num (n : Nat) : Says95 ρ .atom [.num n] none n
  | path (ts : List Tok) (T : Text) (k : IntKind) (z : Int) : PathSays ρ ts (.int T z) → IntType T k → FitsInt k z →
      Says95 ρ .atom ts (some T) z
  | paren (ts : List Tok) (ty : Option Text) (z : Int) : Says95 ρ .sum ts ty z →
      Says95 ρ .atom (.open :: (ts ++ [.close])) ty z
  | atom (ts : List Tok) (ty : Option Text) (z : Int) : Says95 ρ .atom ts ty z → Says95 ρ .unary ts ty z
  | cast (ts : List Tok) (ty : Option Text) (z v : Int) (T : Text) : Says95 ρ .unary ts ty z → InType z v ty →
      Says95 ρ .unary (ts ++ [.cast T]) (some T) v
  | unary (ts : List Tok) (ty : Option Text) (z : Int) : Says95 ρ .unary ts ty z → Says95 ρ .product ts ty z
  | times (ts us : List Tok) (ty ty' ty'' : Option Text) (y z : Int) : Says95 ρ .product ts ty y →
      Says95 ρ .unary us ty' z → OneType ty ty' ty'' → Says95 ρ .product (ts ++ .star :: us) ty'' (y * z)
  | product (ts : List Tok) (ty : Option Text) (z : Int) : Says95 ρ .product ts ty z → Says95 ρ .sum ts ty z
  | plus (ts us : List Tok) (ty ty' ty'' : Option Text) (y z : Int) : Says95 ρ .sum ts ty y →
      Says95 ρ .product us ty' z → OneType ty ty' ty'' → Says95 ρ .sum (ts ++ .plus :: us) ty'' (y + z)
  | minus (ts us : List Tok) (ty ty' ty'' : Option Text) (y z : Int) : Says95 ρ .sum ts ty y →
      Says95 ρ .product us ty' z → OneType ty ty' ty'' → Says95 ρ .sum (ts ++ .minus :: us) ty'' (y - z)

/-! ## Wrapping around -/

theorem Wrapped.unique {k : IntKind} (hk : 0 < k.size) {z v : Int} (h : Wrapped k z v) : asInt k z = v := by
  obtain ⟨hv, q, hq⟩ := h
  obtain ⟨ha, r, hr⟩ := asInt_spec k hk z
  have h1 := asInt_fits k hk v hv
  have hpow : (2 : Int) ^ (8 * k.size) = 2 * 2 ^ (8 * k.size - 1) := by
    rw [← Int.pow_succ']
    congr 1
    omega
  have hpos : (0 : Int) < 2 ^ (8 * k.size - 1) := Int.pow_pos (by decide)
  have hd : asInt k z - v = (r - q) * 2 ^ (8 * k.size) := by
    rw [Int.sub_mul]
    omega
  have hlt : -(2 : Int) ^ (8 * k.size) < (r - q) * 2 ^ (8 * k.size) ∧ (r - q) * 2 ^ (8 * k.size) < 2 ^ (8 * k.size) := by
    rw [← hd]
    unfold FitsInt at ha hv
    split at ha
    · rw [if_pos ‹_›] at hv
      omega
    · rw [if_neg ‹_›] at hv
      omega
  have h0 : r - q = 0 := by
    have hP : (0 : Int) < 2 ^ (8 * k.size) := by omega
    have a : r - q < 1 := by
      refine Int.lt_of_mul_lt_mul_right (a := 2 ^ (8 * k.size)) ?_ (by omega)
      omega
    have b : -1 < r - q := by
      refine Int.lt_of_mul_lt_mul_right (a := 2 ^ (8 * k.size)) ?_ (by omega)
      omega
    omega
  rw [h0, Int.zero_mul] at hd
  omega

theorem wrapped_asInt {k : IntKind} (hk : 0 < k.size) (z : Int) : Wrapped k z (asInt k z) := asInt_spec k hk z

theorem asInt_op {k : IntKind} (hk : 0 < k.size) (op : BinOp) {y z a b : Int} (ha : ∃ q : Int, a = y + q * 2 ^ (8 * k.size))
    (hb : ∃ q : Int, b = z + q * 2 ^ (8 * k.size)) : Wrapped k (op.apply y z) (asInt k (op.apply a b)) := by
  obtain ⟨hf, q, hq⟩ := asInt_spec k hk (op.apply a b)
  obtain ⟨qa, rfl⟩ := ha
  obtain ⟨qb, rfl⟩ := hb
  refine ⟨hf, ?_⟩
  rw [hq]
  generalize (2 : Int) ^ (8 * k.size) = P
  cases op with
  | add =>
    refine ⟨qa + qb + q, ?_⟩
    show y + qa * P + (z + qb * P) + q * P = y + z + (qa + qb + q) * P
    rw [Int.add_mul, Int.add_mul]
    omega
  | sub =>
    refine ⟨qa - qb + q, ?_⟩
    show y + qa * P - (z + qb * P) + q * P = y - z + (qa - qb + q) * P
    rw [Int.add_mul, Int.sub_mul]
    omega
  | mul =>
    refine ⟨y * qb + qa * z + qa * P * qb + q, ?_⟩
    show (y + qa * P) * (z + qb * P) + q * P = y * z + (y * qb + qa * z + qa * P * qb + q) * P
    have e1 : (y + qa * P) * (z + qb * P) = y * z + y * (qb * P) + (qa * P * z + qa * P * (qb * P)) := by
      rw [Int.add_mul, Int.mul_add, Int.mul_add]
    have e2 : (y * qb + qa * z + qa * P * qb + q) * P = y * qb * P + qa * z * P + qa * P * qb * P + q * P := by
      rw [Int.add_mul, Int.add_mul, Int.add_mul]
    have e3 : y * (qb * P) = y * qb * P := (Int.mul_assoc _ _ _).symm
    have e4 : qa * P * z = qa * z * P := by rw [Int.mul_assoc, Int.mul_comm P z, Int.mul_assoc]
    have e5 : qa * P * (qb * P) = qa * P * qb * P := (Int.mul_assoc _ _ _).symm
    rw [e1, e2, e3, e4, e5]
    omega

/-- What fits, with everything between. -/
theorem fits_between {k : IntKind} (hk : 0 < k.size) {lo z hi : Int} (h1 : asInt k lo = lo) (h2 : asInt k hi = hi)
    (h3 : lo ≤ z) (h4 : z ≤ hi) : FitsInt k z := by
  have a := (asInt_spec k hk lo).1
  have b := (asInt_spec k hk hi).1
  rw [h1] at a
  rw [h2] at b
  unfold FitsInt at *
  split at a
  · rw [if_pos ‹_›] at b ⊢
    omega
  · rw [if_neg ‹_›] at b ⊢
    omega

theorem wrapped_self {k : IntKind} {z : Int} (h : FitsInt k z) : Wrapped k z z := ⟨h, 0, by rw [Int.zero_mul, Int.add_zero]⟩

/-! ## What rustc makes of it -/

/-- What the evaluator gives is what the expression says. -/
def Res.Is (ty : Option Text) (z : Int) : Res → Prop
  | .lit v lo hi => ty = none ∧ v = z ∧ lo ≤ z ∧ z ≤ hi
  | .val _ (.int T v) => ty = some T ∧ ∃ k, intNamed T = some k ∧ Wrapped k z v
  | .val _ (.record _) => False

theorem litAs_is {T : Text} {z lo hi a : Int} (h : litAs T z lo hi = some a) (h1 : lo ≤ z) (h2 : z ≤ hi) :
    a = z ∧ ∃ k, intNamed T = some k ∧ FitsInt k z := by
  unfold litAs at h
  obtain ⟨k, hk, h⟩ := Option.bind_eq_some_iff.1 h
  split at h
  · rename_i hc
    cases h
    exact ⟨rfl, k, hk, fits_between (intNamed_size hk) hc.1 hc.2 h1 h2⟩
  · cases h

theorem arith_is {T : Text} {op : BinOp} {y z a b : Int} {r : Res} {k : IntKind} (hk : intNamed T = some k)
    (ha : Wrapped k y a) (hb : Wrapped k z b) (h : arith T op a b = some r) : r.Is (some T) (op.apply y z) := by
  unfold arith at h
  rw [hk] at h
  cases h
  exact ⟨rfl, k, hk, asInt_op (intNamed_size hk) op ha.2 hb.2⟩

theorem evalBin_is {op : BinOp} {a b r : Res} {ty ty' ty'' : Option Text} {y z : Int} (ha : a.Is ty y) (hb : b.Is ty' z)
    (ho : OneType ty ty' ty'') (h : evalBin op a b = some r) : r.Is ty'' (op.apply y z) := by
  rcases a with ⟨a, lo, hi⟩ | ⟨_, ⟨T, a⟩ | ⟨_⟩⟩
  · obtain ⟨rfl, rfl, ha1, ha2⟩ := ha
    rcases b with ⟨b, lo', hi'⟩ | ⟨_, ⟨T', b⟩ | ⟨_⟩⟩
    · obtain ⟨rfl, rfl, hb1, hb2⟩ := hb
      cases ho
      cases h
      exact ⟨rfl, rfl, by omega, by omega⟩
    · obtain ⟨rfl, k, hk, hw⟩ := hb
      cases ho
      simp only [evalBin] at h
      obtain ⟨x, hx, h'⟩ := Option.bind_eq_some_iff.1 h
      obtain ⟨rfl, k', hk', hf⟩ := litAs_is hx ha1 ha2
      rw [hk] at hk'
      cases hk'
      exact arith_is hk (wrapped_self hf) hw h'
    · cases hb
  · obtain ⟨rfl, k, hk, hw⟩ := ha
    rcases b with ⟨b, lo', hi'⟩ | ⟨_, ⟨T', b⟩ | ⟨_⟩⟩
    · obtain ⟨rfl, rfl, hb1, hb2⟩ := hb
      cases ho
      simp only [evalBin] at h
      obtain ⟨x, hx, h'⟩ := Option.bind_eq_some_iff.1 h
      obtain ⟨rfl, k', hk', hf⟩ := litAs_is hx hb1 hb2
      rw [hk] at hk'
      cases hk'
      exact arith_is hk hw (wrapped_self hf) h'
    · obtain ⟨rfl, k', hk', hw'⟩ := hb
      cases ho
      rw [hk] at hk'
      cases hk'
      simp only [evalBin] at h
      exact arith_is hk hw hw' (by rw [if_pos trivial] at h; exact h)
    · cases hb
  · cases ha

theorem evalCast_is {T : Text} {a r : Res} {ty : Option Text} {z v : Int} (ha : a.Is ty z) (hv : InType z v ty)
    (h : evalCast T a = some r) : r.Is (some T) v := by
  rcases a with ⟨a, lo, hi⟩ | ⟨b, ⟨T', a⟩ | ⟨_⟩⟩
  · obtain ⟨rfl, rfl, h1, h2⟩ := ha
    cases hv
    simp only [evalCast] at h
    obtain ⟨x, hx, h'⟩ := Option.bind_eq_some_iff.1 h
    obtain ⟨rfl, -⟩ := litAs_is hx h1 h2
    obtain ⟨y, hy, rfl⟩ := Option.map_eq_some_iff.1 h'
    obtain ⟨rfl, k, hk, hf⟩ := litAs_is hy h1 h2
    exact ⟨rfl, k, hk, wrapped_self hf⟩
  · obtain ⟨rfl, k, hk, hw⟩ := ha
    obtain ⟨k', hk', hw'⟩ := hv
    rw [intType_named hk'] at hk
    cases hk
    have hs := intNamed_size (intType_named hk')
    have : a = v := by rw [← hw.unique hs, ← hw'.unique hs]
    subst this
    cases b with
    | true => cases h
    | false =>
      simp only [evalCast] at h
      obtain ⟨k2, hk2, rfl⟩ := Option.map_eq_some_iff.1 h
      exact ⟨rfl, k2, hk2, wrapped_asInt (intNamed_size hk2) _⟩
  · cases ha

/-! ## What the parser makes of it -/

/-- A level of the grammar as it is pending. -/
def Pends (e : Expr) (S S' : List ExprFrame) (e' : Expr) : ExprLevel → Prop
  | .atom | .unary => S' = S ∧ e' = e
  | .product => S' = S ∧ e' = e ∨ ∃ l, S' = .left .mul l :: S ∧ e = .bin .mul l e'
  | .sum => (S' = S ∧ e' = e ∨ ∃ l, S' = .left .mul l :: S ∧ e = .bin .mul l e') ∨
    ∃ op l e1, (op = .add ∨ op = .sub) ∧ e = .bin op l e1 ∧
      (S' = .left op l :: S ∧ e' = e1 ∨ ∃ l', S' = .left .mul l' :: .left op l :: S ∧ e1 = .bin .mul l' e')

/-- What may stand before it. -/
def Before : List ExprFrame → ExprLevel → Prop
  | _, .atom => True
  | S, .unary => ∀ S', S ≠ .star :: S'
  | S, .product => (∀ S', S ≠ .star :: S') ∧ ∀ l S', S ≠ .left .mul l :: S'
  | S, .sum => (∀ S', S ≠ .star :: S') ∧ ∀ op l S', S ≠ .left op l :: S'

/-- The tokens are read as the expression. -/
def Parses (L : ExprLevel) (ts : List Tok) (e : Expr) : Prop :=
  ∀ (S : List ExprFrame), Before S L → ∀ rest, ∃ S' e', Pends e S S' e' L ∧
    exprSteps (S, .operand) (ts ++ rest) = exprSteps (S', .operator e') rest

theorem closeAll_stop {S : List ExprFrame} (h : Before S .sum) (e : Expr) : closeAll S e = (S, e) := by
  cases S with
  | nil => rfl
  | cons f S =>
    cases f with
    | paren => rfl
    | star => exact absurd rfl (h.1 S)
    | left op l => exact absurd rfl (h.2 op l S)

theorem closeMul_stop {S : List ExprFrame} (h : Before S .product) (e : Expr) : closeMul S e = (S, e) := by
  cases S with
  | nil => rfl
  | cons f S =>
    cases f with
    | paren => rfl
    | star => exact absurd rfl (h.1 S)
    | left op l =>
      cases op with
      | mul => exact absurd rfl (h.2 l S)
      | add => rfl
      | sub => rfl

theorem closeStars_stop {S : List ExprFrame} (h : Before S .unary) (e : Expr) : closeStars S e = (S, e) := by
  cases S with
  | nil => rfl
  | cons f S =>
    cases f with
    | paren => rfl
    | star => exact absurd rfl (h S)
    | left op l => rfl

theorem Before.product_of_sum {S : List ExprFrame} (h : Before S .sum) : Before S .product := ⟨h.1, h.2 .mul⟩

theorem Before.left {op : BinOp} (hop : op = .add ∨ op = .sub) (l : Expr) (S : List ExprFrame) :
    Before (.left op l :: S) .product :=
  ⟨fun _ h => (by cases h), fun _ _ h => by cases h; rcases hop with h | h <;> cases h⟩

theorem Pends.closeMul {e e' : Expr} {S S' : List ExprFrame} (h : Pends e S S' e' .product) (hS : Before S .product) :
    closeMul S' e' = (S, e) := by
  rcases h with ⟨rfl, rfl⟩ | ⟨l, rfl, rfl⟩
  · exact closeMul_stop hS _
  · exact closeMul_stop hS _

theorem Pends.closeAll {e e' : Expr} {S S' : List ExprFrame} (h : Pends e S S' e' .sum) (hS : Before S .sum) :
    closeAll S' e' = (S, e) := by
  rcases h with (⟨rfl, rfl⟩ | ⟨l, rfl, rfl⟩) | ⟨op, l, e1, -, rfl, ⟨rfl, rfl⟩ | ⟨l', rfl, rfl⟩⟩ <;> exact closeAll_stop hS _

/-- What is asked of the expression that the tokens are. -/
structure Stood (ρ : Text → Option Thing) (ty : Option Text) (z : Int) (e : Expr) : Prop where
  plain : e.plain = e
  notSelf : e ≠ .self
  value : ∀ S : Scope, (∀ x, S.name x = (ρ x).map fun t => (false, t)) → ∀ r, e.eval S = some r → r.Is ty z

theorem path_stood {ρ : Text → Option Thing} {ts : List Tok} {t : Thing} (h : PathSays ρ ts t) :
    ∃ e : Expr, (e.plain = e ∧ e ≠ .self) ∧
      (∀ S : Scope, (∀ x, S.name x = (ρ x).map fun t => (false, t)) → e.eval S = some (.val false t)) ∧
      ∀ S rest, exprSteps (S, .operand) (ts ++ rest) = exprSteps (S, .operator e) rest := by
  induction h with
  | name x t hx =>
    refine ⟨.name x, ⟨rfl, fun h => (by cases h)⟩, fun S hS => ?_, fun S rest => rfl⟩
    rw [Expr.eval, hS x, hx]
    rfl
  | field ts fs s t _ hs ih =>
    obtain ⟨e, ⟨hp, hn⟩, hv, hr⟩ := ih
    refine ⟨.field e s, ⟨?_, fun h => (by cases h)⟩, fun S hS => ?_, fun S rest => ?_⟩
    · rw [Expr.plain_field, hp, if_neg hn]
    · rw [Expr.eval, hv S hS]
      show (fs.lookup s).map _ = _
      rw [hs]
      rfl
    · rw [List.append_assoc, hr]
      cases s <;> rfl

theorem says_stood {ρ : Text → Option Thing} {L : ExprLevel} {ts : List Tok} {ty : Option Text} {z : Int}
    (h : Says95 ρ L ts ty z) : ∃ e, Stood ρ ty z e ∧ Parses L ts e := by
  have bin : ∀ (op : BinOp) {ty ty' ty'' : Option Text} {y z : Int} {l r : Expr}, Stood ρ ty y l → Stood ρ ty' z r →
      OneType ty ty' ty'' → Stood ρ ty'' (op.apply y z) (.bin op l r) := by
    intro op ty ty' ty'' y z l r hl hr ho
    refine ⟨?_, fun h => (by cases h), fun S hS q hq => ?_⟩
    · show Expr.bin op l.plain r.plain = _
      rw [hl.plain, hr.plain]
    · rw [Expr.eval] at hq
      obtain ⟨a, ha, hq⟩ := Option.bind_eq_some_iff.1 hq
      obtain ⟨b, hb, hq⟩ := Option.bind_eq_some_iff.1 hq
      exact evalBin_is (hl.value S hS a ha) (hr.value S hS b hb) ho hq
  induction h with
  | num n =>
    refine ⟨.num n, ⟨rfl, fun h => (by cases h), fun S _ r h => ?_⟩, fun S _ rest => ⟨S, .num n, ⟨rfl, rfl⟩, rfl⟩⟩
    cases h
    exact ⟨rfl, rfl, Int.le_refl _, Int.le_refl _⟩
  | path ts T k z hp hT hf =>
    obtain ⟨e, ⟨h1, h2⟩, h3, h4⟩ := path_stood hp
    refine ⟨e, ⟨h1, h2, fun S hS r hr => ?_⟩, fun S _ rest => ⟨S, e, ⟨rfl, rfl⟩, h4 S rest⟩⟩
    rw [h3 S hS] at hr
    cases hr
    exact ⟨rfl, k, intType_named hT, wrapped_self hf⟩
  | paren ts ty z _ ih =>
    obtain ⟨e, he, hp⟩ := ih
    refine ⟨e, he, fun S _ rest => ⟨S, e, ⟨rfl, rfl⟩, ?_⟩⟩
    have hB : Before (.paren :: S) .sum := ⟨fun _ h => (by cases h), fun _ _ _ h => by cases h⟩
    obtain ⟨S', e', h1, h2⟩ := hp (.paren :: S) hB (.close :: rest)
    rw [List.cons_append, List.append_assoc]
    show exprSteps (.paren :: S, .operand) (ts ++ .close :: rest) = _
    rw [h2]
    rw [exprSteps]
    have : exprStep (S', .operator e') .close = some (S, .operator e) := by
      simp only [exprStep, h1.closeAll hB]
    rw [this]
    rfl
  | atom ts ty z _ ih =>
    obtain ⟨e, he, hp⟩ := ih
    exact ⟨e, he, fun S _ rest => hp S trivial rest⟩
  | cast ts ty z v T _ hv ih =>
    obtain ⟨e, he, hp⟩ := ih
    refine ⟨.cast e T, ⟨?_, fun h => (by cases h), fun S hS r hr => ?_⟩, fun S hB rest => ⟨S, .cast e T, ⟨rfl, rfl⟩, ?_⟩⟩
    · show Expr.cast e.plain T = _
      rw [he.plain]
    · rw [Expr.eval] at hr
      obtain ⟨a, ha, hr⟩ := Option.bind_eq_some_iff.1 hr
      exact evalCast_is (he.value S hS a ha) hv hr
    · obtain ⟨S', e', ⟨rfl, rfl⟩, h2⟩ := hp S hB (.cast T :: rest)
      rw [List.append_assoc]
      show exprSteps (S', .operand) (ts ++ .cast T :: rest) = _
      rw [h2, exprSteps]
      have : exprStep (S', .operator e') (.cast T) = some (S', .operator (.cast e' T)) := by
        simp only [exprStep, closeStars_stop hB]
      rw [this]
      rfl
  | unary ts ty z _ ih =>
    obtain ⟨e, he, hp⟩ := ih
    refine ⟨e, he, fun S hB rest => ?_⟩
    obtain ⟨S', e', h1, h2⟩ := hp S hB.1 rest
    exact ⟨S', e', .inl h1, h2⟩
  | times ts us ty ty' ty'' y z _ _ ho ih1 ih2 =>
    obtain ⟨l, hl, hpl⟩ := ih1
    obtain ⟨r, hr, hpr⟩ := ih2
    refine ⟨.bin .mul l r, bin .mul hl hr ho, fun S hB rest => ?_⟩
    obtain ⟨S1, e1, h1, h2⟩ := hpl S hB (.star :: (us ++ rest))
    obtain ⟨S2, e2, ⟨rfl, rfl⟩, h4⟩ := hpr (.left .mul l :: S) (fun _ h => by cases h) rest
    refine ⟨.left .mul l :: S, e2, .inr ⟨l, rfl, rfl⟩, ?_⟩
    rw [List.append_assoc]
    show exprSteps (S, .operand) (ts ++ .star :: (us ++ rest)) = _
    rw [h2, exprSteps]
    have : exprStep (S1, .operator e1) .star = some (.left .mul l :: S, .operand) := by
      simp only [exprStep, h1.closeMul hB]
    rw [this]
    exact h4
  | product ts ty z _ ih =>
    obtain ⟨e, he, hp⟩ := ih
    refine ⟨e, he, fun S hB rest => ?_⟩
    obtain ⟨S', e', h1, h2⟩ := hp S hB.product_of_sum rest
    exact ⟨S', e', .inl h1, h2⟩
  | plus ts us ty ty' ty'' y z _ _ ho ih1 ih2 =>
    obtain ⟨l, hl, hpl⟩ := ih1
    obtain ⟨r, hr, hpr⟩ := ih2
    refine ⟨.bin .add l r, bin .add hl hr ho, fun S hB rest => ?_⟩
    obtain ⟨S1, e1, h1, h2⟩ := hpl S hB (.plus :: (us ++ rest))
    obtain ⟨S2, e2, h3, h4⟩ := hpr (.left .add l :: S) (Before.left (.inl rfl) l S) rest
    refine ⟨S2, e2, .inr ⟨.add, l, r, .inl rfl, rfl, h3⟩, ?_⟩
    rw [List.append_assoc]
    show exprSteps (S, .operand) (ts ++ .plus :: (us ++ rest)) = _
    rw [h2, exprSteps]
    have : exprStep (S1, .operator e1) .plus = some (.left .add l :: S, .operand) := by
      simp only [exprStep, h1.closeAll hB]
    rw [this]
    exact h4
  | minus ts us ty ty' ty'' y z _ _ ho ih1 ih2 =>
    obtain ⟨l, hl, hpl⟩ := ih1
    obtain ⟨r, hr, hpr⟩ := ih2
    refine ⟨.bin .sub l r, bin .sub hl hr ho, fun S hB rest => ?_⟩
    obtain ⟨S1, e1, h1, h2⟩ := hpl S hB (.minus :: (us ++ rest))
    obtain ⟨S2, e2, h3, h4⟩ := hpr (.left .sub l :: S) (Before.left (.inr rfl) l S) rest
    refine ⟨S2, e2, .inr ⟨.sub, l, r, .inr rfl, rfl, h3⟩, ?_⟩
    rw [List.append_assoc]
    show exprSteps (S, .operand) (ts ++ .minus :: (us ++ rest)) = _
    rw [h2, exprSteps]
    have : exprStep (S1, .operator e1) .minus = some (.left .sub l :: S, .operand) := by
      simp only [exprStep, h1.closeAll hB]
    rw [this]
    exact h4

theorem number_says {fs : List (Sel × Thing)} {S : Scope} (hS : ScopeOf fs S) {ts ts' : List Tok} {T : Text} {v n : Int}
    (h : Says95 (fieldNamed fs) .unary ts (some T) v) (hp : (parseExpr ts').map Expr.plain = (parseExpr ts).map Expr.plain)
    (hn : numberIn S ts' = some n) : ∃ k, IntType T k ∧ Wrapped k v n := by
  obtain ⟨e, he, hpe⟩ := says_stood h
  obtain ⟨e', ty, h1, h2⟩ := numberIn_some hn
  obtain ⟨S', e2, ⟨rfl, rfl⟩, h3⟩ := hpe [] (fun _ h => by cases h) []
  have h4 : parseExpr ts = some e2 := by
    unfold parseExpr
    rw [List.append_nil] at h3
    rw [h3]
    rfl
  rw [h1, h4] at hp
  have hp : e'.plain = e2 := (Option.some.inj hp).trans he.plain
  have h5 : e2.eval (allScope fs) = some (.val false (.int ty n)) := by
    rcases eval_plain fs S hS e' _ h2 with ⟨-, b, t, ht, h'⟩ | ⟨-, h'⟩
    · obtain ⟨gs, rfl, -⟩ := hS.self t ht
      cases h'
    · rw [hp] at h'
      exact h'
  obtain ⟨h6, k, h7, h8⟩ := he.value (allScope fs) (fun x => rfl) _ h5
  cases h6
  exact ⟨k, named_intType h7, h8⟩

theorem emitted_says {ρ : Text → Option Thing} {u : ExprUse} (hu : u ≠ .order) {ts : List Tok} {ty : Option Text} {z v : Int}
    (h : Says95 ρ .sum ts ty z) (hv : InType z v ty) : Says95 ρ .unary (emitted u ts) (some ['u', 's', 'i', 'z', 'e']) v := by
  have : emitted u ts = (.open :: (ts ++ [.close])) ++ [.cast ['u', 's', 'i', 'z', 'e']] := by
    cases u with
    | order => exact absurd rfl hu
    | number => simp [emitted]
    | offset => simp [emitted]
  rw [this]
  exact .cast _ ty z v _ (.atom _ _ _ (.paren _ _ _ h)) hv

/-- `usize`. -/
abbrev usizeKind : IntKind := ⟨8, false⟩

/-- `isize`. -/
abbrev isizeKind : IntKind := ⟨8, true⟩

theorem intType_usize {k : IntKind} (h : IntType ['u', 's', 'i', 'z', 'e'] k) : k = usizeKind := by
  have h1 := intType_named h
  have h2 : intNamed ['u', 's', 'i', 'z', 'e'] = some usizeKind := by decide +kernel
  rw [h2] at h1
  exact (Option.some.inj h1).symm

theorem intType_isize {k : IntKind} (h : IntType ['i', 's', 'i', 'z', 'e'] k) : k = isizeKind := by
  have h1 := intType_named h
  have h2 : intNamed ['i', 's', 'i', 'z', 'e'] = some isizeKind := by decide +kernel
  rw [h2] at h1
  exact (Option.some.inj h1).symm

theorem decode_number_says {p : Place} {u : ExprUse} {before : List (Sel × Thing)} {ts : List Tok} {T : Text} {v n : Int}
    (h : Says95 (fieldNamed before) .unary (emitted u ts) (some T) v) (hn : decodeNumber p u before ts = some n) :
    ∃ k, IntType T k ∧ Wrapped k v n := by
  have hv : p = .variant → u = .offset := by
    intro hp
    subst hp
    cases u with
    | offset => rfl
    | number => rw [C77_on_variant _ (by decide)] at hn; cases hn
    | order => rw [C77_on_variant _ (by decide)] at hn; cases hn
  have hdec : decodePrefix p u = [] := by
    cases p <;> cases u <;> first | rfl | (exact absurd (hv rfl) (by decide))
  unfold decodeNumber at hn
  rw [hdec] at hn
  exact number_says (decodeScope_of (List.prefix_refl before)) h rfl hn

theorem encode_number_says {p : Place} {u : ExprUse} {fs : List (Sel × Thing)} (hd : Distinct fs) {ts : List Tok} {T : Text}
    {v n : Int} (hnum : encodePrefix p u = [.self, .dot] → NoNumberFirst ts)
    (h : Says95 (fieldNamed fs) .unary (emitted u ts) (some T) v) (hn : encodeNumber p u fs ts = some n) :
    ∃ k, IntType T k ∧ Wrapped k v n := by
  unfold encodeNumber at hn
  refine number_says (encodeScope_of p hd) h ?_ hn
  refine parse_prefix u (encodePrefix p u) ts ?_ hnum ?_
  · cases p <;> cases u <;> first | exact .inl rfl | exact .inr (.inl rfl) | exact .inr (.inr rfl)
  · intro h
    unfold numberIn at hn
    rw [h] at hn
    cases hn

/-! ## The properties -/

/-- **C95** (decoding): `length`, `count`, `offset` and the other numbers are what the expression says, wrapped around in the
type of its fields and then in `usize`. -/
theorem C95_decode (p : Place) (u : ExprUse) (hu : u ≠ .order) (before : List (Sel × Thing)) (ts : List Tok)
    (ty : Option Text) (z v n : Int) (h : Says95 (fieldNamed before) .sum ts ty z) (hv : InType z v ty)
    (hn : decodeNumber p u before ts = some n) : Wrapped usizeKind v n := by
  obtain ⟨k, hk, hw⟩ := decode_number_says (emitted_says hu h hv) hn
  rw [intType_usize hk] at hw
  exact hw

/-- **C95** (encoding): likewise, unless the expression begins with a number and `self.` is put before it. -/
theorem C95_encode (p : Place) (u : ExprUse) (hu : u ≠ .order) (fs : List (Sel × Thing)) (hd : Distinct fs) (ts : List Tok)
    (hnum : encodePrefix p u = [.self, .dot] → NoNumberFirst ts) (ty : Option Text) (z v n : Int)
    (h : Says95 (fieldNamed fs) .sum ts ty z) (hv : InType z v ty) (hn : encodeNumber p u fs ts = some n) :
    Wrapped usizeKind v n := by
  obtain ⟨k, hk, hw⟩ := encode_number_says hd hnum (emitted_says hu h hv) hn
  rw [intType_usize hk] at hw
  exact hw

/-- **C95** (byte orders): the number for `byteorder` is the field, or the value in parentheses or after a cast, wrapped
around in its type and then in `isize`; the same in both directions. -/
theorem C95_order (p : Place) (fs : List (Sel × Thing)) (hd : Distinct fs) (ts : List Tok) (ty : Option Text) (z v n : Int)
    (h : Says95 (fieldNamed fs) .unary ts ty z) (hv : InType z v ty)
    (hn : decodeNumber p .order fs ts = some n ∨
      encodeNumber p .order fs ts = some n ∧ (encodePrefix p .order = [.self, .dot] → NoNumberFirst ts)) :
    Wrapped isizeKind v n := by
  have hs : Says95 (fieldNamed fs) .unary (emitted .order ts) (some ['i', 's', 'i', 'z', 'e']) v := .cast _ ty z v _ h hv
  have : ∃ k, IntType ['i', 's', 'i', 'z', 'e'] k ∧ Wrapped k v n := by
    rcases hn with hn | ⟨hn, hnum⟩
    · exact decode_number_says hs hn
    · exact encode_number_says hd hnum hs hn
  obtain ⟨k, hk, hw⟩ := this
  rw [intType_isize hk] at hw
  exact hw

/-- The number fits in the type, if there is one. -/
def FitsType (z : Int) (ty : Option Text) : Prop := ∀ T, ty = some T → ∃ k, IntType T k ∧ FitsInt k z

theorem FitsType.inType {z : Int} {ty : Option Text} (h : FitsType z ty) : InType z z ty := by
  cases ty with
  | none => rfl
  | some T =>
    obtain ⟨k, hk, hf⟩ := h T rfl
    exact ⟨k, hk, wrapped_self hf⟩

/-- **C95** (exact): where what the expression says fits in the type of its fields and in `usize`, that is the number in both
directions, whatever happens in between. -/
theorem C95_exact_partial (p : Place) (u : ExprUse) (hu : u ≠ .order) (fs : List (Sel × Thing)) (hd : Distinct fs)
    (ts : List Tok) (ty : Option Text) (z n : Int) (h : Says95 (fieldNamed fs) .sum ts ty z) (hf : FitsType z ty)
    (h64 : 0 ≤ z ∧ z < 2 ^ 64)
    (hn : decodeNumber p u fs ts = some n ∨
      encodeNumber p u fs ts = some n ∧ (encodePrefix p u = [.self, .dot] → NoNumberFirst ts)) : n = z := by
  have hw : Wrapped usizeKind z n := by
    rcases hn with hn | ⟨hn, hnum⟩
    · exact C95_decode p u hu fs ts ty z z n h hf.inType hn
    · exact C95_encode p u hu fs hd ts hnum ty z z n h hf.inType hn
  have h1 := hw.unique (by decide)
  rw [← h1]
  exact asInt_fits usizeKind (by decide) z h64

/-- **C95** (when it is exact): for fields of an unsigned type, exactly if what the expression says fits in that type and in
`usize`. -/
theorem C95_iff (p : Place) (u : ExprUse) (hu : u ≠ .order) (fs : List (Sel × Thing)) (hd : Distinct fs) (ts : List Tok)
    (T : Text) (k : IntKind) (hk : IntType T k) (hs : k.signed = false) (z n : Int)
    (h : Says95 (fieldNamed fs) .sum ts (some T) z)
    (hn : decodeNumber p u fs ts = some n ∨
      encodeNumber p u fs ts = some n ∧ (encodePrefix p u = [.self, .dot] → NoNumberFirst ts)) :
    n = z ↔ 0 ≤ z ∧ z < 2 ^ (8 * k.size) ∧ z < 2 ^ 64 := by
  constructor
  · intro hz
    subst hz
    have hsz := intNamed_size (intType_named hk)
    have hv : InType n (asInt k n) (some T) := ⟨k, hk, wrapped_asInt hsz n⟩
    have hw : Wrapped usizeKind (asInt k n) n := by
      rcases hn with hn | ⟨hn, hnum⟩
      · exact C95_decode p u hu fs ts _ n _ n h hv hn
      · exact C95_encode p u hu fs hd ts hnum _ n _ n h hv hn
    obtain ⟨hf, q, hq⟩ := hw
    have hf : 0 ≤ n ∧ n < 2 ^ 64 := hf
    have ha := (asInt_spec k hsz n).1
    unfold FitsInt at ha
    rw [hs] at ha
    simp only [Bool.false_eq_true, if_false] at ha
    refine ⟨hf.1, ?_, hf.2⟩
    have hq : n = asInt k n + q * 2 ^ 64 := hq
    have : q * 2 ^ 64 ≤ 0 := by
      have : q ≤ 0 := by omega
      omega
    omega
  · intro ⟨h0, h1, h2⟩
    refine C95_exact_partial p u hu fs hd ts (some T) z n h ?_ ⟨h0, h2⟩ hn
    intro T' hT
    cases hT
    refine ⟨k, hk, ?_⟩
    unfold FitsInt
    rw [hs]
    exact ⟨h0, h1⟩

/-- `n: u16, h: Header { m: u16 }`. -/
def valueThings (n m : Int) : List (Sel × Thing) :=
  [(.name ['n'], .int ['u', '1', '6'] n), (.name ['h'], .record [(.name ['m'], .int ['u', '1', '6'] m)])]

theorem intType_u16 : IntType ['u', '1', '6'] ⟨2, false⟩ := .sized false 2 (by decide)

/-- What `n + 2 * (h.m - 1)` says. -/
theorem valueThings_says (n m : Int) (hn : FitsInt ⟨2, false⟩ n) (hm : FitsInt ⟨2, false⟩ m) :
    Says95 (fieldNamed (valueThings n m)) .sum
      [.name ['n'], .plus, .num 2, .star, .open, .name ['h'], .dot, .name ['m'], .minus, .num 1, .close]
      (some ['u', '1', '6']) (n + 2 * (m - 1)) := by
  have h1 : Says95 (fieldNamed (valueThings n m)) .sum ([.name ['h'], .dot, .name ['m']] ++ .minus :: [.num 1])
      (some ['u', '1', '6']) (m - 1) :=
    .minus _ _ _ _ _ m 1
      (.product _ _ _ (.unary _ _ _ (.atom _ _ _
        (.path ([.name ['h']] ++ [.dot, Sel.tok (.name ['m'])]) _ _ _
          (.field _ _ _ _ (.name ['h'] _ rfl) rfl) intType_u16 hm))))
      (.unary _ _ _ (.atom _ _ _ (.num 1))) (.left _)
  exact .plus [.name ['n']] _ _ _ _ n (2 * (m - 1))
    (.product _ _ _ (.unary _ _ _ (.atom _ _ _ (.path _ _ _ _ (.name ['n'] _ rfl) intType_u16 hn))))
    (.times [.num 2] _ _ _ _ 2 (m - 1) (.unary _ _ _ (.atom _ _ _ (.num 2)))
      (.atom _ _ _ (.paren _ _ _ h1)) (.right _)) (.both _)

/-- `length = "n + 2 * (h.m - 1)"` with `m = 0`: the subtraction wraps around, the sum does not. -/
example (k : Int) (h : decodeNumber .structField .number (valueThings 7 0)
    [.name ['n'], .plus, .num 2, .star, .open, .name ['h'], .dot, .name ['m'], .minus, .num 1, .close] = some k) : k = 5 :=
  C95_exact_partial .structField .number (by decide) _ (by show [['n'], ['h']].Nodup; decide) _ _ _ k
    (valueThings_says 7 0 (by unfold FitsInt; decide) (by unfold FitsInt; decide))
    (fun T hT => by cases hT; exact ⟨_, intType_u16, by unfold FitsInt; decide⟩) (by decide) (.inl h)

example : decodeNumber .structField .number (valueThings 7 0)
    [.name ['n'], .plus, .num 2, .star, .open, .name ['h'], .dot, .name ['m'], .minus, .num 1, .close] = some 5 := by
  decide +kernel

/-- The same when encoding a variant, where it is `*n + 2 * (h.m - 1)`. -/
example : encodeNumber .namedField .number (valueThings 7 4)
    [.name ['n'], .plus, .num 2, .star, .open, .name ['h'], .dot, .name ['m'], .minus, .num 1, .close] = some 13 := by
  decide +kernel

/-- `byteorder = "h.m"`. -/
example : decodeNumber .structField .order (valueThings 7 1) [.name ['h'], .dot, .name ['m']] = some 1 := by decide +kernel

/-- **C95** is violated: `length = "n + 60000"` is 64 for `n = 5600`, although 65600 would be a length; and a field of a
signed type gives lengths near 2⁶⁴. -/
theorem C95_violated :
    (Says95 (fieldNamed (valueThings 5600 0)) .sum [.name ['n'], .plus, .num 60000] (some ['u', '1', '6']) 65600 ∧
      ∀ p, p ≠ .variant → decodeNumber p .number (valueThings 5600 0) [.name ['n'], .plus, .num 60000] = some 64) ∧
    (Says95 (fieldNamed [(.name ['n'], .int ['i', '8'] (-1))]) .sum [.name ['n']] (some ['i', '8']) (-1) ∧
      decodeNumber .structField .number [(.name ['n'], .int ['i', '8'] (-1))] [.name ['n']] = some (2 ^ 64 - 1) ∧
      encodeNumber .structField .number [(.name ['n'], .int ['i', '8'] (-1))] [.name ['n']] = some (2 ^ 64 - 1)) := by
  refine ⟨⟨?_, ?_⟩, ?_, ?_, ?_⟩
  · exact .plus [.name ['n']] _ _ _ _ 5600 60000
      (.product _ _ _ (.unary _ _ _ (.atom _ _ _ (.path _ _ _ _ (.name ['n'] _ rfl) intType_u16 (by unfold FitsInt; decide)))))
      (.unary _ _ _ (.atom _ _ _ (.num 60000))) (.left _)
  · intro p hp
    cases p with
    | variant => exact absurd rfl hp
    | structField => decide +kernel
    | namedField => decide +kernel
    | tupleField => decide +kernel
  · exact .product _ _ _ (.unary _ _ _ (.atom _ _ _ (.path _ _ ⟨1, true⟩ _ (.name ['n'] _ rfl) (.sized true 1 (by decide))
      (by unfold FitsInt; decide))))
  · decide +kernel
  · decide +kernel

end JBytes
