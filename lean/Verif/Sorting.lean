import Verif.PropStructRT
import Verif.PropBytes
import Verif.PropEncode
/-!
# Encodings that are ordered like the values (C114): comparisons, and what the codecs write
-/

namespace JBytes
open M

variable {α β V : Type}

/-! ## Specification -/

/-- Comparison of sequences element by element, a proper prefix being smaller (`Ord` of slices). -/
def lexCmp (c : α → α → Ordering) : List α → List α → Ordering
  | [], [] => .eq
  | [], _ :: _ => .lt
  | _ :: _, [] => .gt
  | a :: l, b :: r => (c a b).then (lexCmp c l r)

/-- Comparison of byte strings. -/
def byteCmp : List Byte → List Byte → Ordering := lexCmp fun a b => compare a.toNat b.toNat

/-- Comparison member by member, each with its own order (`derive(Ord)` of structs and tuples). -/
def cmpEach : List (α → α → Ordering) → List α → List α → Ordering
  | c :: cs, a :: l, b :: r => (c a b).then (cmpEach cs l r)
  | _, _, _ => .eq

/-- Each value is in its own set. -/
def Each : List (α → Prop) → List α → Prop
  | [], [] => True
  | p :: ps, a :: l => p a ∧ Each ps l
  | _, _ => False

/-- Values of the fields of a struct; the set of values of a field may depend on the fields before it. -/
def InFields (dom : Field V → Env V → V → Prop) : List (Field V) → Env V → List V → Prop
  | [], _, [] => True
  | f :: fs, env, v :: vs => dom f env v ∧ InFields dom fs (env.push v) vs
  | _, _, _ => False

/-- Any two values of `P` are written, and whatever follows them, what is written is ordered like the values: by what
follows if they are equal, and only if they are. -/
def Sorts (P : α → Prop) (cmp : α → α → Ordering) (m : α → M Nat) : Prop :=
  ∀ v w, P v → P w → (cmp v w = .eq ↔ v = w) ∧ ∃ x y, Writes (m v) x ∧ Writes (m w) y ∧
    ∀ s t, byteCmp (x ++ s) (y ++ t) = (cmp v w).then (byteCmp s t)

/-! ## Comparisons -/

theorem Ordering.then_eq' (a : Ordering) : a.then .eq = a := by cases a <;> rfl

theorem Ordering.then_assoc' (a b c : Ordering) : (a.then b).then c = a.then (b.then c) := by cases a <;> rfl

theorem byteCmp_nil : byteCmp [] [] = .eq := rfl

theorem byteCmp_cons (a b : Byte) (l r : List Byte) :
    byteCmp (a :: l) (b :: r) = (compare a.toNat b.toNat).then (byteCmp l r) := rfl

theorem byteCmp_same (p s t : List Byte) : byteCmp (p ++ s) (p ++ t) = byteCmp s t := by
  induction p with
  | nil => rfl
  | cons a p ih => rw [List.cons_append, List.cons_append, byteCmp_cons, ih]; simp

theorem byteCmp_append (l r s t : List Byte) (h : l.length = r.length) :
    byteCmp (l ++ s) (r ++ t) = (byteCmp l r).then (byteCmp s t) := by
  induction l generalizing r with
  | nil => cases r with
    | nil => rfl
    | cons _ _ => cases h
  | cons a l ih =>
    cases r with
    | nil => cases h
    | cons b r =>
      rw [List.cons_append, List.cons_append, byteCmp_cons, byteCmp_cons, ih r (Nat.succ.inj h), Ordering.then_assoc']

theorem byteCmp_eq : ∀ l r : List Byte, byteCmp l r = .eq → l = r
  | [], [], _ => rfl
  | [], _ :: _, h => nomatch h
  | _ :: _, [], h => nomatch h
  | a :: l, b :: r, h => by
    rw [byteCmp_cons, Ordering.then_eq_eq, Nat.compare_eq_eq] at h
    rw [byteCmp_eq l r h.2, UInt8.toNat_inj.1 h.1]

theorem byteCmp_self (l : List Byte) : byteCmp l l = .eq := by
  have := byteCmp_same l [] []
  rwa [List.append_nil] at this

theorem compare_digits (d v w : Nat) :
    (compare (v / d) (w / d)).then (compare (v % d) (w % d)) = compare v w := by
  have h1 := Nat.div_add_mod v d
  have h2 := Nat.div_add_mod w d
  rcases Nat.eq_zero_or_pos d with rfl | hd
  · simp
  have m1 := Nat.mod_lt v hd
  have m2 := Nat.mod_lt w hd
  rcases Nat.lt_trichotomy (v / d) (w / d) with h | h | h
  · rw [Nat.compare_eq_lt.2 h]
    have : d * (v / d + 1) ≤ d * (w / d) := Nat.mul_le_mul_left d h
    rw [Nat.mul_add] at this
    exact (Nat.compare_eq_lt.2 (by omega)).symm
  · rw [h, Nat.compare_eq_eq.2 rfl]
    show compare (v % d) (w % d) = _
    rcases Nat.lt_trichotomy (v % d) (w % d) with h' | h' | h'
    · rw [Nat.compare_eq_lt.2 h', Nat.compare_eq_lt.2 (by rw [h] at h1; omega)]
    · rw [Nat.compare_eq_eq.2 h', Nat.compare_eq_eq.2 (by rw [h] at h1; omega)]
    · rw [Nat.compare_eq_gt.2 h', Nat.compare_eq_gt.2 (by rw [h] at h1; omega)]
  · rw [Nat.compare_eq_gt.2 h]
    have : d * (w / d + 1) ≤ d * (v / d) := Nat.mul_le_mul_left d h
    rw [Nat.mul_add] at this
    exact (Nat.compare_eq_gt.2 (by omega)).symm

/-- Big-endian numbers are ordered like the numbers. -/
theorem byteCmp_toBE (n v w : Nat) (hv : v < 256 ^ n) (hw : w < 256 ^ n) (s t : List Byte) :
    byteCmp (toBE n v ++ s) (toBE n w ++ t) = (compare v w).then (byteCmp s t) := by
  induction n generalizing v w with
  | zero =>
    have h1 : v = 0 := by simpa using hv
    have h2 : w = 0 := by simpa using hw
    subst h1 h2
    rfl
  | succ n ih =>
    have hp : 0 < 256 ^ n := Nat.pow_pos (by decide)
    have hb : ∀ u, u < 256 ^ (n + 1) → (UInt8.ofNat (u / 256 ^ n)).toNat = u / 256 ^ n := by
      intro u hu
      rw [UInt8.toNat_ofNat']
      exact Nat.mod_eq_of_lt (Nat.div_lt_of_lt_mul (by rw [← Nat.pow_succ]; exact hu))
    show byteCmp (UInt8.ofNat (v / 256 ^ n) :: (toBE n v ++ s)) (UInt8.ofNat (w / 256 ^ n) :: (toBE n w ++ t)) = _
    rw [byteCmp_cons, hb v hv, hb w hw, ← toBE_mod n v, ← toBE_mod n w,
      ih _ _ (Nat.mod_lt _ hp) (Nat.mod_lt _ hp), ← Ordering.then_assoc', compare_digits]

/-! ## Parts -/

theorem Sorts.congr {P : α → Prop} {cmp : α → α → Ordering} {m m' : α → M Nat} (h : Sorts P cmp m)
    (he : ∀ v b, P v → m' v b = m v b) : Sorts P cmp m' := by
  intro v w hv hw
  obtain ⟨h0, x, y, h1, h2, h3⟩ := h v w hv hw
  exact ⟨h0, x, y, h1.congr fun b => he v b hv, h2.congr fun b => he w b hw, h3⟩

theorem Sorts.writes {P : α → Prop} {cmp : α → α → Ordering} {m : α → M Nat} (h : Sorts P cmp m) {v : α} (hv : P v) :
    ∃ x, Writes (m v) x := by
  obtain ⟨_, x, _, h1, _⟩ := h v v hv hv
  exact ⟨x, h1⟩

theorem Sorts.number {k : Nat} {m : Nat → M Nat} (h : ∀ v, v < 256 ^ k → Writes (m v) (toBE k v)) :
    Sorts (fun v => v < 256 ^ k) compare m :=
  fun v w hv hw => ⟨Nat.compare_eq_eq, _, _, h v hv, h w hw, byteCmp_toBE k v w hv hw⟩

/-- Lists of one length. -/
theorem Sorts.all {P : α → Prop} {cmp : α → α → Ordering} {e : α → M Nat} (h : Sorts P cmp e) : ∀ l r : List α,
    l.length = r.length → (∀ a ∈ l, P a) → (∀ a ∈ r, P a) → (lexCmp cmp l r = .eq ↔ l = r) ∧
      ∃ x y, Writes (encAll e l) x ∧ Writes (encAll e r) y ∧
        ∀ s t, byteCmp (x ++ s) (y ++ t) = (lexCmp cmp l r).then (byteCmp s t)
  | [], [], _, _, _ => ⟨⟨fun _ => rfl, fun _ => rfl⟩, [], [], Appends.pure0.writes, Appends.pure0.writes, fun _ _ => rfl⟩
  | [], _ :: _, hl, _, _ => nomatch hl
  | _ :: _, [], hl, _, _ => nomatch hl
  | a :: l, b :: r, hl, ha, hb => by
    obtain ⟨h0, x, y, h1, h2, h3⟩ := h a b (ha a (by simp)) (hb b (by simp))
    obtain ⟨i0, x', y', i1, i2, i3⟩ := h.all l r (Nat.succ.inj hl) (fun c hc => ha c (by simp [hc]))
      (fun c hc => hb c (by simp [hc]))
    refine ⟨?_, x ++ x', y ++ y', h1.seq i1, h2.seq i2, fun s t => ?_⟩
    · show (cmp a b).then (lexCmp cmp l r) = .eq ↔ _
      rw [Ordering.then_eq_eq, h0, i0, List.cons.injEq]
    · rw [List.append_assoc, List.append_assoc, h3, i3, ← Ordering.then_assoc']
      rfl

/-- A constant before and after, which may depend on the length only. -/
theorem Sorts.framed (n : Nat) (p q : List Byte) {m : List Byte → M Nat}
    (h : ∀ d, d.length = n → Writes (m d) (p ++ (d ++ q))) : Sorts (fun d => d.length = n) byteCmp m := by
  intro v w hv hw
  refine ⟨⟨byteCmp_eq v w, fun h => h ▸ byteCmp_self v⟩, _, _, h v hv, h w hw, fun s t => ?_⟩
  simp only [List.append_assoc]
  rw [byteCmp_same, byteCmp_append v w _ _ (hv.trans hw.symm), byteCmp_same]

/-- The members of a tuple. -/
theorem Sorts.each {ca : Option CAttr} {fa : Option FAttr} : ∀ (ts : List (Enc α × (α → Prop) × (α → α → Ordering))),
    (∀ t ∈ ts, Sorts t.2.1 t.2.2 fun v => t.1 v ca fa) →
    Sorts (Each (ts.map (·.2.1))) (cmpEach (ts.map (·.2.2))) (fun l => encTuple (ts.map (·.1)) l ca fa)
  | [], _, [], [], _, _ => ⟨⟨fun _ => rfl, fun _ => rfl⟩, [], [], Appends.pure0.writes, Appends.pure0.writes, fun _ _ => rfl⟩
  | [], _, _ :: _, _, hv, _ => hv.elim
  | [], _, [], _ :: _, _, hw => hw.elim
  | _ :: _, _, [], _, hv, _ => hv.elim
  | _ :: _, _, _ :: _, [], _, hw => hw.elim
  | t :: ts, ht, a :: l, b :: r, hv, hw => by
    obtain ⟨h0, x, y, h1, h2, h3⟩ := ht t (by simp) a b hv.1 hw.1
    obtain ⟨i0, x', y', i1, i2, i3⟩ := Sorts.each ts (fun t h => ht t (by simp [h])) l r hv.2 hw.2
    refine ⟨?_, x ++ x', y ++ y', h1.seq i1, h2.seq i2, fun s t => ?_⟩
    · show (t.2.2 a b).then (cmpEach (ts.map (·.2.2)) l r) = .eq ↔ _
      rw [Ordering.then_eq_eq, h0, i0, List.cons.injEq]
    · rw [List.append_assoc, List.append_assoc, h3, i3, ← Ordering.then_assoc']
      rfl

/-- The fields of a struct: each is ordered once the fields before it are given. -/
theorem Sorts.fields {ca : Option CAttr} (dom : Field V → Env V → V → Prop) (ord : Field V → V → V → Ordering) :
    ∀ (fs : List (Field V)) (env : Env V), (∀ f ∈ fs, ∀ env, Sorts (dom f env) (ord f) (fieldEnc f ca env)) →
    Sorts (InFields dom fs env) (cmpEach (fs.map ord)) (fun vs => encFields false fs ca none env vs)
  | [], env, _, [], [], _, _ => ⟨⟨fun _ => rfl, fun _ => rfl⟩, [], [], Appends.pure0.writes, Appends.pure0.writes, fun _ _ => rfl⟩
  | [], _, _, _ :: _, _, hv, _ => hv.elim
  | [], _, _, [], _ :: _, _, hw => hw.elim
  | _ :: _, _, _, [], _, hv, _ => hv.elim
  | _ :: _, _, _, _ :: _, [], _, hw => hw.elim
  | f :: fs, env, hf, a :: l, b :: r, hv, hw => by
    obtain ⟨h0, x, y, h1, h2, h3⟩ := hf f (by simp) env a b hv.1 hw.1
    have ih := fun env => Sorts.fields dom ord fs env (fun f h => hf f (by simp [h]))
    have cons : ∀ (a : V) (l : List V) (x x' : List Byte), Writes (fieldEnc f ca env a) x →
        Writes (encFields false fs ca none (env.push a) l) x' →
        Writes (encFields false (f :: fs) ca none env (a :: l)) (x ++ x') := fun a l x x' h h' =>
      (h.seq h').congr fun b => encFields_cons f fs ca env a l b
    by_cases hab : ord f a b = .eq
    · obtain rfl := h0.1 hab
      obtain ⟨i0, x', y', i1, i2, i3⟩ := ih (env.push a) l r hv.2 hw.2
      refine ⟨?_, x ++ x', y ++ y', cons _ _ _ _ h1 i1, cons _ _ _ _ h2 i2, fun s t => ?_⟩
      · show (ord f a a).then (cmpEach (fs.map ord) l r) = .eq ↔ _
        rw [Ordering.then_eq_eq, h0, i0, List.cons.injEq]
      · rw [List.append_assoc, List.append_assoc, h3, i3, ← Ordering.then_assoc']
        rfl
    · obtain ⟨x', i1⟩ := (ih (env.push a)).writes hv.2
      obtain ⟨y', i2⟩ := (ih (env.push b)).writes hw.2
      refine ⟨?_, x ++ x', y ++ y', cons _ _ _ _ h1 i1, cons _ _ _ _ h2 i2, fun s t => ?_⟩
      · show (ord f a b).then (cmpEach (fs.map ord) l r) = .eq ↔ _
        rw [Ordering.then_eq_eq, List.cons.injEq]
        exact ⟨fun h => absurd h.1 hab, fun h => absurd (h0.2 h.1) hab⟩
      · rw [List.append_assoc, List.append_assoc, h3]
        show _ = ((ord f a b).then (cmpEach (fs.map ord) l r)).then _
        cases h : ord f a b with
        | eq => exact absurd h hab
        | _ => rfl

end JBytes
