import Verif.PropGenCode
/-!
# C85 with the compiler's reading of the text

A small lexer for the text of a type, apart from `typeText`: what the compiler reads when it is given the text that the macro
writes.  (Words are of ASCII letters, digits and `_`; strings and character literals do not occur in types outside brackets.)
-/

namespace JBytes

/-- A character of an identifier or a number. -/
def wordChar (c : Char) : Bool := c.isAlphanum || c == '_'

/-- An opening bracket. -/
def opens (c : Char) : Bool := c == '(' || c == '[' || c == '{'

/-- A closing bracket. -/
def closes (c : Char) : Bool := c == ')' || c == ']' || c == '}'

/-- A punctuation character. -/
def punctChar (c : Char) : Bool := !(wordChar c || opens c || closes c || c == ' ')

/-- The text up to the bracket that closes the outermost one of `d` open ones, and the rest. -/
def closing : Nat → Name → Option (Name × Name)
  | _, [] => none
  | d, c :: s =>
    if opens c then (closing (d + 1) s).map fun p => (c :: p.1, p.2)
    else if closes c then (if d ≤ 1 then some ([c], s) else (closing (d - 1) s).map fun p => (c :: p.1, p.2))
    else (closing d s).map fun p => (c :: p.1, p.2)

/-- `c` and what follows are one: no space between two punctuation characters, or a lifetime. -/
def joined (c : Char) : Name → Bool
  | [] => false
  | d :: _ => punctChar d || (c == '\'' && wordChar d)

/-- The tokens of a text; at most `n` of them, spaces counted. -/
def tokens : Nat → Name → Option (List TyTok)
  | _, [] => some []
  | 0, _ => none
  | n + 1, c :: s =>
    if c == ' ' then tokens n s
    else if wordChar c then (tokens n ((c :: s).dropWhile wordChar)).map (.ident ((c :: s).takeWhile wordChar) :: ·)
    else if opens c then (closing 0 (c :: s)).bind fun p => (tokens n p.2).map (.group p.1 :: ·)
    else if closes c then none
    else (tokens n s).map (.punct c (joined c s) :: ·)

/-- The tokens of a type as they come from the compiler: an identifier is a word, a group is what is between two brackets. -/
def TyTok.Proper : TyTok → Prop
  | .ident s => s ≠ [] ∧ ∀ c ∈ s, wordChar c = true
  | .punct c _ => punctChar c = true
  | .group s => ∃ c t, s = c :: t ∧ opens c = true ∧ closing 0 s = some (s, [])

/-- A type as it comes from the compiler; a `'` is the beginning of a lifetime. -/
inductive ProperType : List TyTok → Prop
  | nil : ProperType []
  | cons {t : TyTok} {ts : List TyTok} : t.Proper → (∀ j, t ≠ .punct '\'' j) → ProperType ts → ProperType (t :: ts)
  | lifetime {s : Name} {ts : List TyTok} {j : Bool} : (TyTok.ident s).Proper → ProperType ts →
      ProperType (.punct '\'' j :: .ident s :: ts)

theorem closing_append : ∀ (g rest : Name) (d : Nat), closing d g = some (g, []) → closing d (g ++ rest) = some (g, rest)
  | [], _, _, h => nomatch h
  | c :: g, rest, d, h => by
    have key : ∀ d', (closing d' g).map (fun p => (c :: p.1, p.2)) = some (c :: g, []) →
        (closing d' (g ++ rest)).map (fun p => (c :: p.1, p.2)) = some (c :: g, rest) := by
      intro d' h'
      cases hc : closing d' g with
      | none => rw [hc] at h'; cases h'
      | some p =>
        rw [hc] at h'
        obtain ⟨p1, p2⟩ := p
        simp only [Option.map_some, Option.some.injEq, Prod.mk.injEq, List.cons.injEq, true_and] at h'
        obtain ⟨rfl, rfl⟩ := h'
        rw [closing_append _ rest d' hc]
        rfl
    simp only [closing, List.cons_append] at h ⊢
    by_cases h1 : opens c = true
    · rw [if_pos h1] at h ⊢
      exact key _ h
    · rw [if_neg h1] at h ⊢
      by_cases h2 : closes c = true
      · rw [if_pos h2] at h ⊢
        by_cases h3 : d ≤ 1
        · rw [if_pos h3] at h ⊢
          simp only [Option.some.injEq, Prod.mk.injEq, List.cons.injEq, true_and] at h
          rw [h.2]
          rfl
        · rw [if_neg h3] at h ⊢
          exact key _ h
      · rw [if_neg h2] at h ⊢
        exact key _ h

theorem tokens_space (n : Nat) (s : Name) : tokens (n + 1) (' ' :: s) = tokens n s := rfl

theorem tokens_word (n : Nat) (w s : Name) (hw : w ≠ []) (h : ∀ c ∈ w, wordChar c = true) :
    tokens (n + 2) (w ++ ' ' :: s) = (tokens n s).map (.ident w :: ·) := by
  cases w with
  | nil => exact absurd rfl hw
  | cons c w =>
    have hc := h c List.mem_cons_self
    have hsp : (c == ' ') = false := by
      rw [beq_eq_false_iff_ne]
      rintro rfl
      revert hc
      decide
    have h1 : ((c :: w) ++ ' ' :: s).takeWhile wordChar = c :: w := by
      rw [List.takeWhile_append_of_pos h]
      simp [show wordChar ' ' = false by decide]
    have h2 : ((c :: w) ++ ' ' :: s).dropWhile wordChar = ' ' :: s := by
      rw [List.dropWhile_append_of_pos h]
      simp [show wordChar ' ' = false by decide]
    rw [List.cons_append] at h1 h2 ⊢
    simp only [tokens, hsp, hc, h1, h2, Bool.false_eq_true, if_false, if_true]
    rfl

theorem punct_facts {c : Char} (h : punctChar c = true) :
    (c == ' ') = false ∧ wordChar c = false ∧ opens c = false ∧ closes c = false := by
  simp only [punctChar, Bool.not_eq_true', Bool.or_eq_false_iff] at h
  exact ⟨h.2, h.1.1.1, h.1.1.2, h.1.2⟩

theorem tokens_punct (n : Nat) (c : Char) (s : Name) (h : punctChar c = true) :
    tokens (n + 1) (c :: s) = (tokens n s).map (.punct c (joined c s) :: ·) := by
  obtain ⟨h1, h2, h3, h4⟩ := punct_facts h
  simp only [tokens, h1, h2, h3, h4, Bool.false_eq_true, if_false]

theorem tokens_group (n : Nat) (c : Char) (t s : Name) (ho : opens c = true) (h : closing 0 (c :: t) = some (c :: t, [])) :
    tokens (n + 2) ((c :: t) ++ ' ' :: s) = (tokens n s).map (.group (c :: t) :: ·) := by
  have h1 : (c == ' ') = false := by
    rw [beq_eq_false_iff_ne]; rintro rfl; revert ho; decide
  have h2 : wordChar c = false := by
    simp only [opens, Bool.or_eq_true, beq_iff_eq] at ho
    rcases ho with (rfl | rfl) | rfl <;> decide
  have h3 := closing_append _ (' ' :: s) 0 h
  rw [List.cons_append] at h3 ⊢
  simp only [tokens, h1, h2, ho, h3, Bool.false_eq_true, if_false, if_true, Option.bind_some]
  rfl

/-- The text of a proper token other than `'`: the token and a space. -/
theorem typeText_cons {t : TyTok} (ts : List TyTok) (ht : t.Proper) (hq : ∀ j, t ≠ .punct '\'' j) :
    typeText (t :: ts) = t.text ++ ' ' :: typeText ts := by
  have : t.text ≠ ['\''] := by
    intro h
    cases t with
    | ident s =>
      have h : s = ['\''] := h
      have := ht.2 '\'' (by rw [h]; simp)
      revert this
      decide
    | punct c j =>
      have h : [c] = ['\''] := h
      cases h
      exact hq j rfl
    | group s =>
      obtain ⟨c, t, e, ho, -⟩ := ht
      have h : s = ['\''] := h
      rw [h] at e
      cases e
      revert ho
      decide
  simp only [typeText, List.flatMap_cons, if_neg this, List.append_assoc, List.singleton_append]

/-- **C85**, the text: the compiler reads the text that the macro writes for a type as the tokens of the type, where no
punctuation but `'` is joined to what follows. -/
theorem C85_text {ts : List TyTok} (h : ProperType ts) : ∀ n, 2 * ts.length ≤ n → tokens n (typeText ts) = some (respelled ts) := by
  induction h with
  | nil => intro n _; cases n <;> rfl
  | @cons t ts ht hq _ ih =>
    intro n hn
    obtain ⟨n, rfl⟩ : ∃ m, n = m + 2 := ⟨n - 2, by simp only [List.length_cons] at hn; omega⟩
    have ih := ih n (by simp only [List.length_cons] at hn; omega)
    rw [typeText_cons ts ht hq]
    cases t with
    | ident s =>
      rw [show TyTok.text (.ident s) = s from rfl, tokens_word n s _ ht.1 ht.2, ih]
      rfl
    | punct c j =>
      have hc : (c == '\'') = false := by
        rw [beq_eq_false_iff_ne]; rintro rfl; exact hq j rfl
      rw [show TyTok.text (.punct c j) ++ ' ' :: typeText ts = c :: ' ' :: typeText ts from rfl, tokens_punct _ _ _ ht, tokens_space, ih,
        show joined c (' ' :: typeText ts) = false by simp [joined, hc, show punctChar ' ' = false by decide]]
      simp [respelled, hc]
    | group s =>
      obtain ⟨c, t, e, ho, hcl⟩ := ht
      subst e
      rw [show TyTok.text (.group (c :: t)) = c :: t from rfl, tokens_group n c t _ ho hcl, ih]
      rfl
  | @lifetime s ts j hs _ ih =>
    intro n hn
    obtain ⟨n, rfl⟩ : ∃ m, n = m + 3 := ⟨n - 3, by simp only [List.length_cons] at hn; omega⟩
    have ih := ih n (by simp only [List.length_cons] at hn; omega)
    have e : typeText (.punct '\'' j :: .ident s :: ts) = '\'' :: (s ++ ' ' :: typeText ts) := by
      rw [show s ++ ' ' :: typeText ts = typeText (.ident s :: ts) from (typeText_cons (t := .ident s) ts hs (fun j h => nomatch h)).symm]
      rfl
    have hj : joined '\'' (s ++ ' ' :: typeText ts) = true := by
      cases s with
      | nil => exact absurd rfl hs.1
      | cons c s => simp [joined, hs.2 c List.mem_cons_self]
    rw [e, tokens_punct _ _ _ (by decide), hj, tokens_word n s _ hs.1 hs.2, ih]
    rfl

/-- **C85**: the compiler reads the text of a type as that type exactly when it has no `::` and no `->` outside brackets. -/
theorem C85_text_iff (ts : List TyTok) (h : ProperType ts) (n : Nat) (hn : 2 * ts.length ≤ n) :
    (tokens n (typeText ts)).map lexemes = some (lexemes ts) ↔ Unbroken ts := by
  rw [C85_text h n hn, Option.map_some, Option.some.injEq]
  exact C85_iff ts

/-- `&'a [u8]` is read back, `a::B` is not. -/
example : (∀ n, 8 ≤ n → (tokens n (typeText [.punct '&' false, .punct '\'' true, .ident ['a'], .group ['[', 'u', '8', ']']])).map lexemes =
      some [.sign '&', .sign '\'', .word ['a'], .group ['[', 'u', '8', ']']]) ∧
    ∀ n, 8 ≤ n → (tokens n (typeText [.ident ['a'], .punct ':' true, .punct ':' false, .ident ['B']])).map lexemes =
      some [.word ['a'], .sign ':', .sign ':', .word ['B']] := by
  constructor
  · intro n hn
    rw [C85_text (.cons (t := .punct '&' false) (show punctChar '&' = true by decide) (by simp) (.lifetime ⟨by simp, by decide⟩
      (.cons (t := .group _) ⟨'[', ['u', '8', ']'], rfl, by decide, by decide⟩ (by simp) .nil))) n hn]
    decide
  · intro n hn
    rw [C85_text (.cons (t := .ident _) ⟨by simp, by decide⟩ (by simp) (.cons (t := .punct ':' true) (show punctChar ':' = true by decide) (by simp)
      (.cons (t := .punct ':' false) (show punctChar ':' = true by decide) (by simp) (.cons (t := .ident _) ⟨by simp, by decide⟩ (by simp) .nil)))) n hn]
    decide

end JBytes
