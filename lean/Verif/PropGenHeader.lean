import Verif.GenHeader

/-!
# C86: deriving works whatever the generic parameters of the type

What the compiler asks of the header of an impl is said below from the
declarations of the traits (`/repo/src/decode/mod.rs:51,90-94`,
`/repo/src/encode/mod.rs`), not from the generators.
-/

namespace JBytes

/-! ## Specification -/

/-- The lifetimes a type declares. -/
def Generics.lifetimes (g : Generics) : List String :=
  g.params.filterMap fun
    | .life n _ => some n
    | _ => none

/-- The names of types and constants a type declares. -/
def Generics.names (g : Generics) : List String :=
  g.params.filterMap fun
    | .type n _ _ => some n
    | .const n _ _ => some n
    | .life _ _ => none

/-- A type with these parameters can be declared at all: no name twice. -/
def Generics.Declared (g : Generics) : Prop :=
  g.lifetimes.Nodup ∧ g.names.Nodup

/-- Arguments for a trait with one parameter, a lifetime. -/
def OneLifetime (l : String) (ts : List GTok) : Prop :=
  ts = [.punct '<', .life l, .punct '>'] ∨
    ts = [.punct '<', .life l, .punct ',', .punct '>']

/-- The header matches the declaration of the trait: `ByteDecode` and the
encoding traits have no parameters and take `&I` and `&mut B`,
`BorrowByteDecode<'de>` has one lifetime and takes `&'de I`. -/
def ImplHeader.Matches (h : ImplHeader) (g : Generics) : DeriveKind → Prop
  | .decode => h.traitArgs = [] ∧ h.refArgs = []
  | .encode => h.traitArgs = [] ∧ h.refArgs = [.ident "mut"]
  | .borrowDecode => ∃ l, OneLifetime l h.traitArgs ∧ h.refArgs = [.life l] ∧
      l ∈ g.lifetimes ++ h.fresh

/-- The compiler accepts the header: it matches the trait, and no name is
declared twice on the impl and the method (E0263, E0403). -/
def ImplHeader.Accepted (h : ImplHeader) (g : Generics) (k : DeriveKind) : Prop :=
  h.Matches g k ∧ (g.lifetimes ++ h.fresh).Nodup ∧ (g.names ++ [h.method]).Nodup

/-! ## Helpers -/

theorem generics_tokens_nil (g : Generics) : g.tokens = [] ↔ g.params = [] := by
  unfold Generics.tokens
  constructor
  · intro h
    split at h
    · assumption
    · cases h
  · intro h
    rw [if_pos h]

theorem joinParams_ne (p : GParam) (ps : List GParam) : joinParams (p :: ps) ≠ [] := by
  have hp : p.tokens ≠ [] := by cases p <;> simp [GParam.tokens]
  cases ps with
  | nil => exact hp
  | cons q ps => simp [joinParams]

/-- What a list of parameters has to be for its text to be one lifetime. -/
theorem joinParams_one (l : String) (ps : List GParam)
    (h : joinParams ps = [.life l]) : ps = [.life l []] := by
  match ps with
  | [] => cases h
  | [p] =>
    have h : p.tokens = [.life l] := h
    cases p with
    | life n b =>
      have h : GTok.life n :: withBounds b = [.life l] := h
      unfold withBounds at h
      by_cases hb : b = []
      · rw [if_pos hb] at h
        simp only [List.cons.injEq, GTok.life.injEq, and_true] at h
        rw [h, hb]
      · rw [if_neg hb] at h
        cases h
    | type n b d => cases h
    | const n t d => cases h
  | p :: q :: ps =>
    have hp : p.tokens ≠ [] := by cases p <;> simp [GParam.tokens]
    have h : p.tokens ++ .punct ',' :: joinParams (q :: ps) = [.life l] := h
    have := congrArg List.length h
    have h1 : 0 < p.tokens.length := List.length_pos_iff.mpr hp
    simp only [List.length_append, List.length_cons, List.length_nil] at this
    omega

theorem bracketed_inj {a b : List GTok}
    (h : GTok.punct '<' :: (a ++ [.punct '>']) = .punct '<' :: (b ++ [.punct '>'])) :
    a = b := by
  simpa using h

/-! ## The property -/

/-- The two parameterless traits: derived unless the type has a parameter
called like the one of the method. -/
theorem C86_decode_iff (g : Generics) (hd : g.Declared) :
    (implHeader .decode g).Accepted g .decode ↔ "I" ∉ g.names := by
  unfold ImplHeader.Accepted ImplHeader.Matches implHeader
  simp only [true_and, List.append_nil]
  constructor
  · rintro ⟨_, h⟩ hm
    exact (List.nodup_append.mp h).2.2 _ hm _ (List.mem_singleton.mpr rfl) rfl
  · intro hm
    refine ⟨hd.1, List.nodup_append.mpr ⟨hd.2, by simp, ?_⟩⟩
    intro a ha b hb e
    rw [List.mem_singleton] at hb
    exact hm (hb ▸ e ▸ ha)

theorem C86_encode_iff (g : Generics) (hd : g.Declared) :
    (implHeader .encode g).Accepted g .encode ↔ "B" ∉ g.names := by
  unfold ImplHeader.Accepted ImplHeader.Matches implHeader
  simp only [true_and, List.append_nil]
  constructor
  · rintro ⟨_, h⟩ hm
    exact (List.nodup_append.mp h).2.2 _ hm _ (List.mem_singleton.mpr rfl) rfl
  · intro hm
    refine ⟨hd.1, List.nodup_append.mpr ⟨hd.2, by simp, ?_⟩⟩
    intro a ha b hb e
    rw [List.mem_singleton] at hb
    exact hm (hb ▸ e ▸ ha)

/-- The borrowing decoder: derived exactly for types without generic
parameters and for those with a single lifetime, without bounds and without
a comma after it. -/
theorem C86_borrow_iff (g : Generics) :
    (implHeader .borrowDecode g).Accepted g .borrowDecode ↔
      g.params = [] ∨ ∃ l, g.params = [.life l []] ∧ g.trailing = false := by
  constructor
  · rintro ⟨⟨l, h1, h2, h3⟩, _, _⟩
    by_cases he : g.params = []
    · exact .inl he
    · refine .inr ⟨l, ?_⟩
      have hne : g.tokens ≠ [] := fun h => he ((generics_tokens_nil g).mp h)
      simp only [implHeader, if_neg hne] at h1 h2
      have htok : g.tokens = .punct '<' :: ((joinParams g.params ++
          (if g.trailing then [.punct ','] else [])) ++ [.punct '>']) := by
        unfold Generics.tokens
        rw [if_neg he]
      rcases h1 with h1 | h1
      · have hj : joinParams g.params ++
            (if g.trailing then [GTok.punct ','] else []) = [.life l] :=
          bracketed_inj (b := [.life l]) (htok.symm.trans h1)
        cases ht : g.trailing with
        | false =>
          rw [ht] at hj
          simp only [Bool.false_eq_true, if_false, List.append_nil] at hj
          exact ⟨joinParams_one l _ hj, rfl⟩
        | true =>
          exfalso
          rw [ht, if_pos rfl] at hj
          match hp : g.params with
          | [] => exact he hp
          | p :: ps =>
            rw [hp] at hj
            have := congrArg List.length hj
            have h0 : 0 < (joinParams (p :: ps)).length :=
              List.length_pos_iff.mpr (joinParams_ne p ps)
            simp only [List.length_append, List.length_cons, List.length_nil] at this
            omega
      · exfalso
        rw [h1] at h2
        exact absurd h2 (by
          have : trimBrackets [.punct '<', .life l, .punct ',', .punct '>'] =
              [.life l, .punct ','] := by
            simp [trimBrackets]
          rw [this]
          intro h
          cases h)
  · rintro (h | ⟨l, h, ht⟩)
    · have hne : g.tokens = [] := (generics_tokens_nil g).mpr h
      unfold ImplHeader.Accepted ImplHeader.Matches Generics.lifetimes Generics.names implHeader
      simp only [if_pos hne, h]
      exact ⟨⟨"de", .inl rfl, rfl, by simp⟩, by simp, by simp⟩
    · have htok : g.tokens = [.punct '<', .life l, .punct '>'] := by
        unfold Generics.tokens
        rw [h, ht]
        rfl
      have hne : g.tokens ≠ [] := by
        rw [htok]
        intro h
        cases h
      unfold ImplHeader.Accepted ImplHeader.Matches Generics.lifetimes Generics.names implHeader
      simp only [h, htok]
      exact ⟨⟨l, .inl rfl, by simp [trimBrackets], by simp⟩, by simp, by simp⟩

/-- The code violates the property: a lifetime and a type parameter, a
bounded lifetime, a lone type parameter and a comma at the end are refused by
the borrowing decoder, and a type parameter called `I` by the owning one. -/
theorem C86_violated :
    ¬ (implHeader .borrowDecode ⟨[.life "a" [], .type "T" [] []], false⟩).Accepted
        ⟨[.life "a" [], .type "T" [] []], false⟩ .borrowDecode ∧
    ¬ (implHeader .borrowDecode ⟨[.life "a" [.life "static"]], false⟩).Accepted
        ⟨[.life "a" [.life "static"]], false⟩ .borrowDecode ∧
    ¬ (implHeader .borrowDecode ⟨[.type "T" [] []], false⟩).Accepted
        ⟨[.type "T" [] []], false⟩ .borrowDecode ∧
    ¬ (implHeader .borrowDecode ⟨[.life "a" []], true⟩).Accepted
        ⟨[.life "a" []], true⟩ .borrowDecode ∧
    ¬ (implHeader .decode ⟨[.type "I" [] []], false⟩).Accepted
        ⟨[.type "I" [] []], false⟩ .decode := by
  refine ⟨?_, ?_, ?_, ?_, ?_⟩
  · rw [C86_borrow_iff]; simp
  · rw [C86_borrow_iff]; simp
  · rw [C86_borrow_iff]; simp
  · rw [C86_borrow_iff]; simp
  · rw [C86_decode_iff _ (by constructor <;> simp [Generics.lifetimes, Generics.names])]
    simp [Generics.names]

/-! ## Examples -/

example : (implHeader .borrowDecode ⟨[.life "a" []], false⟩).Accepted
    ⟨[.life "a" []], false⟩ .borrowDecode :=
  (C86_borrow_iff _).mpr (.inr ⟨"a", rfl, rfl⟩)

example : (⟨[.life "a" [], .type "T" [.ident "Clone"] [], .const "N" [.ident "usize"] []],
    true⟩ : Generics).Declared := by
  constructor <;> simp [Generics.lifetimes, Generics.names]

end JBytes
