import Verif.ReadLemmas
/-! # Helper lemmas: the search functions against their specification -/

namespace JBytes
open M

/-- `needle` occurs in `hay` at index `i`. -/
def OccursAt (needle hay : List Byte) (i : Nat) : Prop :=
  ∃ a c, hay = a ++ needle ++ c ∧ a.length = i

theorem occursAt_zero {needle hay : List Byte} : OccursAt needle hay 0 ↔ needle <+: hay := by
  constructor
  · rintro ⟨a, c, h, ha⟩
    have : a = [] := List.eq_nil_of_length_eq_zero ha
    subst this
    exact ⟨c, by simpa using h.symm⟩
  · rintro ⟨c, h⟩
    exact ⟨[], c, by simpa using h.symm, rfl⟩

theorem occursAt_cons_succ {needle : List Byte} {x : Byte} {xs : List Byte} {i : Nat} :
    OccursAt needle (x :: xs) (i + 1) ↔ OccursAt needle xs i := by
  constructor
  · rintro ⟨a, c, h, ha⟩
    cases a with
    | nil => simp at ha
    | cons y a =>
      simp only [List.cons_append, List.cons.injEq] at h
      exact ⟨a, c, h.2, by simpa using ha⟩
  · rintro ⟨a, c, h, ha⟩
    exact ⟨x :: a, c, by simp [h], by simp [ha]⟩

theorem findSub_some {needle hay : List Byte} {i : Nat} (h : findSub needle hay = some i) :
    OccursAt needle hay i ∧ ∀ j, j < i → ¬ OccursAt needle hay j := by
  induction hay generalizing i with
  | nil =>
    simp only [findSub] at h
    split at h
    · simp at h; subst h
      rename_i hn; subst hn
      exact ⟨⟨[], [], rfl, rfl⟩, by omega⟩
    · simp at h
  | cons x xs ih =>
    simp only [findSub] at h
    split at h
    · rename_i hp
      simp at h; subst h
      exact ⟨occursAt_zero.mpr (List.isPrefixOf_iff_prefix.mp hp), by omega⟩
    · rename_i hp
      cases hf : findSub needle xs with
      | none => simp [hf] at h
      | some k =>
        simp [hf] at h
        subst h
        obtain ⟨h1, h2⟩ := ih hf
        refine ⟨occursAt_cons_succ.mpr h1, ?_⟩
        intro j hj
        cases j with
        | zero =>
          intro ho
          exact hp (List.isPrefixOf_iff_prefix.mpr (occursAt_zero.mp ho))
        | succ j => rw [occursAt_cons_succ]; exact h2 j (by omega)

theorem findSub_none {needle hay : List Byte} (h : findSub needle hay = none) (i : Nat) :
    ¬ OccursAt needle hay i := by
  induction hay generalizing i with
  | nil =>
    simp only [findSub] at h
    split at h
    · simp at h
    · rename_i hn
      rintro ⟨a, c, h1, _⟩
      simp at h1
      exact hn h1.2.1
  | cons x xs ih =>
    simp only [findSub] at h
    split at h
    · simp at h
    · rename_i hp
      simp at h
      cases i with
      | zero =>
        intro ho
        exact hp (List.isPrefixOf_iff_prefix.mpr (occursAt_zero.mp ho))
      | succ i => rw [occursAt_cons_succ]; exact ih h i

theorem findSub_eq_some {needle hay : List Byte} {i : Nat} (h1 : OccursAt needle hay i)
    (h2 : ∀ j, j < i → ¬ OccursAt needle hay j) : findSub needle hay = some i := by
  cases h : findSub needle hay with
  | none => exact absurd h1 (findSub_none h i)
  | some k =>
    obtain ⟨h3, h4⟩ := findSub_some h
    rcases Nat.lt_trichotomy k i with hk | hk | hk
    · exact absurd h3 (h2 k hk)
    · rw [hk]
    · exact absurd h1 (h4 i hk)

theorem OccursAt.le {needle hay : List Byte} {i : Nat} (h : OccursAt needle hay i) :
    i + needle.length ≤ hay.length := by
  obtain ⟨a, c, h1, h2⟩ := h
  have := congrArg List.length h1
  simp at this
  omega

theorem findSub_le {needle hay : List Byte} {i : Nat} (h : findSub needle hay = some i) :
    i + needle.length ≤ hay.length := (findSub_some h).1.le

/-! ## Several needles -/

theorem longestSuffix_none {h : List Byte} {ns : List (List Byte)} (e : longestSuffix h ns = none) :
    ∀ n ∈ ns, ¬ n <:+ h := by
  induction ns with
  | nil => simp
  | cons n ns ih =>
    simp only [longestSuffix] at e
    split at e
    · rename_i e'
      split at e
      · simp at e
      · rename_i hn
        intro m hm
        rcases List.mem_cons.mp hm with rfl | hm
        · simpa [List.isSuffixOf_iff_suffix] using hn
        · exact ih e' m hm
    · split at e <;> simp at e

theorem longestSuffix_some {h : List Byte} {ns : List (List Byte)} {m : Nat}
    (e : longestSuffix h ns = some m) :
    (∃ n ∈ ns, n <:+ h ∧ n.length = m) ∧ ∀ n ∈ ns, n <:+ h → n.length ≤ m := by
  induction ns generalizing m with
  | nil => simp [longestSuffix] at e
  | cons n ns ih =>
    simp only [longestSuffix] at e
    split at e
    · rename_i e'
      split at e
      · rename_i hn
        simp at e; subst e
        refine ⟨⟨n, by simp, List.isSuffixOf_iff_suffix.mp hn, rfl⟩, ?_⟩
        intro k hk hs
        rcases List.mem_cons.mp hk with rfl | hk
        · exact Nat.le_refl _
        · exact absurd hs (longestSuffix_none e' k hk)
      · simp at e
    · rename_i k e'
      obtain ⟨⟨w, hw1, hw2, hw3⟩, hmax⟩ := ih e'
      split at e
      · rename_i hn
        simp at e; subst e
        refine ⟨⟨n, by simp, List.isSuffixOf_iff_suffix.mp hn.1, rfl⟩, ?_⟩
        intro q hq hs
        rcases List.mem_cons.mp hq with rfl | hq
        · exact Nat.le_refl _
        · have := hmax q hq hs
          omega
      · rename_i hn
        simp at e; subst e
        refine ⟨⟨w, by simp [hw1], hw2, hw3⟩, ?_⟩
        intro q hq hs
        rcases List.mem_cons.mp hq with rfl | hq
        · have h1 : q.isSuffixOf h = true := List.isSuffixOf_iff_suffix.mpr hs
          simp [h1] at hn
          exact hn
        · exact hmax q hq hs

/-- Some needle ends at index `e` of `hay` (`e ≤ hay.length`). -/
def EndsAt (needles : List (List Byte)) (hay : List Byte) (e : Nat) : Prop :=
  e ≤ hay.length ∧ ∃ n ∈ needles, n <:+ hay.take e

theorem acGo_some {ns : List (List Byte)} {pre rest : List Byte} {s e : Nat}
    (h : acGo ns pre rest = some (s, e)) :
    pre.length ≤ e ∧ e ≤ (pre ++ rest).length ∧
    (∃ n ∈ ns, n <:+ (pre ++ rest).take e ∧ s + n.length = e) ∧
    (∀ n ∈ ns, n <:+ (pre ++ rest).take e → s + n.length ≤ e) ∧
    (∀ k, pre.length ≤ k → k < e → ∀ n ∈ ns, ¬ n <:+ (pre ++ rest).take k) := by
  induction rest generalizing pre with
  | nil =>
    simp only [acGo] at h
    cases hl : longestSuffix pre ns with
    | none => simp [hl] at h
    | some m =>
      simp [hl] at h
      obtain ⟨h1, h2⟩ := h
      obtain ⟨⟨n, hn1, hn2, hn3⟩, hmax⟩ := longestSuffix_some hl
      have hle := hn2.length_le
      subst h2
      simp only [List.append_nil, List.take_length]
      refine ⟨Nat.le_refl _, Nat.le_refl _, ⟨n, hn1, hn2, by omega⟩, ?_, by omega⟩
      intro q hq hs
      have := hmax q hq hs
      omega
  | cons x xs ih =>
    simp only [acGo] at h
    split at h
    · rename_i m hl
      simp at h
      obtain ⟨h1, h2⟩ := h
      obtain ⟨⟨n, hn1, hn2, hn3⟩, hmax⟩ := longestSuffix_some hl
      have hle := hn2.length_le
      subst h2
      have ht : (pre ++ x :: xs).take pre.length = pre := by simp
      rw [ht]
      refine ⟨Nat.le_refl _, by simp, ⟨n, hn1, hn2, by omega⟩, ?_, by omega⟩
      intro q hq hs
      have := hmax q hq hs
      omega
    · rename_i hl
      have e1 : pre ++ x :: xs = (pre ++ [x]) ++ xs := by simp
      obtain ⟨h1, h2, h3, h4, h5⟩ := ih h
      rw [e1]
      refine ⟨by simp at h1; omega, h2, h3, h4, ?_⟩
      intro k hk1 hk2
      by_cases hk : k = pre.length
      · subst hk
        have ht : (pre ++ [x] ++ xs).take pre.length = pre := by simp
        rw [ht]
        exact longestSuffix_none hl
      · exact h5 k (by simp; omega) hk2

theorem acGo_none {ns : List (List Byte)} {pre rest : List Byte} (h : acGo ns pre rest = none) :
    ∀ k, pre.length ≤ k → k ≤ (pre ++ rest).length → ∀ n ∈ ns, ¬ n <:+ (pre ++ rest).take k := by
  induction rest generalizing pre with
  | nil =>
    simp only [acGo, Option.map_eq_none_iff] at h
    intro k hk1 hk2
    simp at hk2
    have : k = pre.length := by omega
    subst this
    simpa using longestSuffix_none h
  | cons x xs ih =>
    simp only [acGo] at h
    split at h
    · simp at h
    · rename_i hl
      have e1 : pre ++ x :: xs = (pre ++ [x]) ++ xs := by simp
      intro k hk1 hk2
      rw [e1]
      by_cases hk : k = pre.length
      · subst hk
        have ht : (pre ++ [x] ++ xs).take pre.length = pre := by simp
        rw [ht]
        exact longestSuffix_none hl
      · exact ih h k (by simp; omega) (by simpa using hk2)

/-- Specification of `acFind`: the match that ends first, the longest such. -/
theorem acFind_some {ns : List (List Byte)} {hay : List Byte} {s e : Nat}
    (h : acFind ns hay = some (s, e)) :
    e ≤ hay.length ∧ (∃ n ∈ ns, n <:+ hay.take e ∧ s + n.length = e) ∧
    (∀ n ∈ ns, n <:+ hay.take e → s + n.length ≤ e) ∧
    (∀ k, k < e → ∀ n ∈ ns, ¬ n <:+ hay.take k) := by
  obtain ⟨_, h2, h3, h4, h5⟩ := acGo_some h
  simp only [List.nil_append] at *
  exact ⟨h2, h3, h4, fun k hk => h5 k (by simp) hk⟩

theorem acFind_none {ns : List (List Byte)} {hay : List Byte} (h : acFind ns hay = none) :
    ∀ k, k ≤ hay.length → ∀ n ∈ ns, ¬ n <:+ hay.take k := by
  intro k hk
  have := acGo_none h k (by simp) (by simpa using hk)
  simpa using this

theorem acFind_eq_some {ns : List (List Byte)} {hay : List Byte} {s e : Nat}
    (h1 : e ≤ hay.length) (h2 : ∃ n ∈ ns, n <:+ hay.take e ∧ s + n.length = e)
    (h3 : ∀ n ∈ ns, n <:+ hay.take e → s + n.length ≤ e)
    (h4 : ∀ k, k < e → ∀ n ∈ ns, ¬ n <:+ hay.take k) : acFind ns hay = some (s, e) := by
  cases h : acFind ns hay with
  | none =>
    obtain ⟨n, hn, hs, _⟩ := h2
    exact absurd hs (acFind_none h e h1 n hn)
  | some p =>
    obtain ⟨s', e'⟩ := p
    obtain ⟨g1, ⟨n', gn1, gn2, gn3⟩, g3, g4⟩ := acFind_some h
    obtain ⟨n, hn1, hn2, hn3⟩ := h2
    have he : e' = e := by
      rcases Nat.lt_trichotomy e' e with hk | hk | hk
      · exact absurd gn2 (h4 e' hk n' gn1)
      · exact hk
      · exact absurd hn2 (g4 e hk n hn1)
    subst he
    have a := g3 n hn1 hn2
    have b := h3 n' gn1 gn2
    have : s' = s := by omega
    rw [this]

/-! ## The search methods in a normal state -/

theorem findSubsequence_apply (needle : List Byte) (b : Buf) (h : b.Ok) :
    findSubsequence needle b = match findSub needle (b.data.drop b.pos) with
      | some i => (.ok ((b.data.drop b.pos).take i), ⟨b.data, b.pos + (i + needle.length)⟩)
      | none => (.err ⟨b.pos, .fail⟩, b) := by
  obtain ⟨h1, h2⟩ := h
  have h3 := isizeMax_lt
  unfold findSubsequence
  simp only [bind_apply, getPos_apply, remaining_apply']
  cases hf : findSub needle (b.data.drop b.pos) with
  | none => rfl
  | some i =>
    have hle := findSub_le hf
    simp only [List.length_drop] at hle
    simp only [bind_apply, advance_apply, slice_apply]
    rw [wadd_eq (by omega), wadd_eq (by omega), if_pos (by omega)]
    simp

theorem findSubsequenceNeedle_apply (needle : List Byte) (incl : Bool) (b : Buf) (h : b.Ok) :
    findSubsequenceNeedle needle incl b = match findSub needle (b.data.drop b.pos) with
      | some i =>
        let j := if incl then i + needle.length else i
        (.ok ((b.data.drop b.pos).take j), ⟨b.data, b.pos + j⟩)
      | none => (.err ⟨b.pos, .fail⟩, b) := by
  obtain ⟨h1, h2⟩ := h
  have h3 := isizeMax_lt
  unfold findSubsequenceNeedle
  simp only [bind_apply, getPos_apply, remaining_apply']
  cases hf : findSub needle (b.data.drop b.pos) with
  | none => rfl
  | some i =>
    have hle := findSub_le hf
    simp only [List.length_drop] at hle
    simp only [bind_apply, advance_apply, slice_apply]
    have hj : (if incl = true then i + needle.length else i) ≤ b.data.length - b.pos := by
      split <;> omega
    rw [wadd_eq (by omega), if_pos (by omega)]
    simp

theorem findSubsequences_apply (ns : List (List Byte)) (b : Buf) (h : b.Ok) :
    findSubsequences ns b = match acFind ns (b.data.drop b.pos) with
      | some (s, e) => (.ok ((b.data.drop b.pos).take s), ⟨b.data, b.pos + e⟩)
      | none => (.err ⟨b.pos, .fail⟩, b) := by
  obtain ⟨h1, h2⟩ := h
  have h3 := isizeMax_lt
  unfold findSubsequences
  simp only [bind_apply, getPos_apply, remaining_apply']
  cases hf : acFind ns (b.data.drop b.pos) with
  | none => rfl
  | some p =>
    obtain ⟨s, e⟩ := p
    obtain ⟨g1, ⟨n, _, _, g3⟩, _⟩ := acFind_some hf
    simp only [List.length_drop] at g1
    simp only [bind_apply, advance_apply, slice_apply]
    rw [wadd_eq (by omega), wadd_eq (by omega), if_pos (by omega)]
    simp

theorem findSubsequencesNeedle_apply (ns : List (List Byte)) (incl : Bool) (b : Buf) (h : b.Ok) :
    findSubsequencesNeedle ns incl b = match acFind ns (b.data.drop b.pos) with
      | some (s, e) =>
        let j := if incl then e else s
        (.ok ((b.data.drop b.pos).take j), ⟨b.data, b.pos + j⟩)
      | none => (.err ⟨b.pos, .fail⟩, b) := by
  obtain ⟨h1, h2⟩ := h
  have h3 := isizeMax_lt
  unfold findSubsequencesNeedle
  simp only [bind_apply, getPos_apply, remaining_apply']
  cases hf : acFind ns (b.data.drop b.pos) with
  | none => rfl
  | some p =>
    obtain ⟨s, e⟩ := p
    obtain ⟨g1, ⟨n, _, _, g3⟩, _⟩ := acFind_some hf
    simp only [List.length_drop] at g1
    simp only [bind_apply, advance_apply, slice_apply]
    have hj : (if incl = true then e else s) ≤ b.data.length - b.pos := by split <;> omega
    rw [wadd_eq (by omega), if_pos (by omega)]
    simp

end JBytes
