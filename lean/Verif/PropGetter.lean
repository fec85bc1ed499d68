import Verif.Getter
import Verif.PropAttr
import Verif.NumLemmas
/-!
# C75: what the getters of `#[derive(Jget)]` give

The names, return types and values of the getters of structs and enums.
-/

namespace JBytes

/-! ## Names -/

theorem isPrefixOf_before (c : Char) : ∀ (pat a b : Text), c ∉ pat →
    pat.isPrefixOf (a ++ c :: b) = true → pat.isPrefixOf a = true
  | [], _, _, _, _ => by simp
  | d :: pat, [], b, hc, h => by
    simp only [List.nil_append, List.isPrefixOf, Bool.and_eq_true, beq_iff_eq] at h
    exact absurd h.1.symm (fun e => hc (by rw [e]; exact List.mem_cons_self))
  | d :: pat, e :: a, b, hc, h => by
    simp only [List.cons_append, List.isPrefixOf, Bool.and_eq_true, beq_iff_eq] at h ⊢
    exact ⟨h.1, isPrefixOf_before c pat a b (fun hm => hc (List.mem_cons_of_mem _ hm)) h.2⟩

theorem isPrefixOf_extend (pat a b : Text) (h : pat.isPrefixOf a = true) : pat.isPrefixOf (a ++ b) = true := by
  rw [List.isPrefixOf_iff_prefix] at h ⊢
  exact h.trans (List.prefix_append a b)

theorem removeAll_before (pat : Text) (hne : pat ≠ []) (c : Char) (hc : c ∉ pat) (b : Text) :
    ∀ (a : Text) (n : Nat), n ≤ a.length →
      removeAll pat n (a ++ c :: b) = removeAll pat n a ++ c :: removeAll pat 0 b
  | [], n, hn => by
    have : n = 0 := by simpa using hn
    subst this
    have : pat.isPrefixOf (c :: b) ≠ true := by
      intro h
      have := isPrefixOf_before c pat [] b hc h
      cases pat with
      | nil => exact hne rfl
      | cons => simp [List.isPrefixOf] at this
    show removeAll pat 0 (c :: b) = c :: removeAll pat 0 b
    rw [removeAll, if_neg this]
  | d :: a, n + 1, hn => by
    rw [List.cons_append, removeAll, removeAll]
    exact removeAll_before pat hne c hc b a n (by simpa using hn)
  | d :: a, 0, _ => by
    rw [List.cons_append, removeAll, removeAll]
    by_cases h : pat.isPrefixOf (d :: a) = true
    · have h2 : pat.isPrefixOf (d :: (a ++ c :: b)) = true := isPrefixOf_extend pat (d :: a) (c :: b) h
      rw [if_pos h, if_pos h2]
      refine removeAll_before pat hne c hc b a _ ?_
      have := (List.isPrefixOf_iff_prefix.1 h).length_le
      simp only [List.length_cons] at this
      omega
    · have h2 : ¬ pat.isPrefixOf (d :: (a ++ c :: b)) = true := fun h' =>
        h (isPrefixOf_before c pat (d :: a) b hc h')
      rw [if_neg h, if_neg h2,
        removeAll_before pat hne c hc b a 0 (Nat.zero_le _), List.cons_append]

theorem removeAll_not_mem (pat : Text) (c : Char) : ∀ (s : Text) (n : Nat), c ∉ s → c ∉ removeAll pat n s
  | [], n, _ => by cases n <;> simp [removeAll]
  | d :: s, n + 1, h => by
    rw [removeAll]
    exact removeAll_not_mem pat c s n (fun hm => h (List.mem_cons_of_mem _ hm))
  | d :: s, 0, h => by
    have hs : c ∉ s := fun hm => h (List.mem_cons_of_mem _ hm)
    rw [removeAll]
    split
    · exact removeAll_not_mem pat c s _ hs
    · simp only [List.mem_cons, not_or]
      exact ⟨fun e => h (by rw [e]; exact List.mem_cons_self), removeAll_not_mem pat c s 0 hs⟩

theorem afterDot_last : ∀ (a b : Text), '.' ∉ b → afterDot (a ++ '.' :: b) = b
  | [], b, h => by simp [afterDot, h]
  | c :: a, b, h => by
    rw [List.cons_append, afterDot, if_pos (by simp), if_neg (by simp), afterDot_last a b h]

theorem getterName_path (p x : Text) (hx : '.' ∉ x) : getterName (p ++ '.' :: x) = getterName x := by
  unfold getterName
  rw [removeAll_before _ (by simp) '.' (by decide) x p 0 (Nat.zero_le _),
    removeAll_before _ (by simp) '.' (by decide) _ _ 0 (Nat.zero_le _),
    removeAll_before _ (by simp) '.' (by decide) _ _ 0 (Nat.zero_le _),
    afterDot_last _ _ (removeAll_not_mem _ _ _ _ (removeAll_not_mem _ _ _ _ (removeAll_not_mem _ _ _ _ hx))),
    afterDot_clean _ (removeAll_not_mem _ _ _ _ (removeAll_not_mem _ _ _ _ (removeAll_not_mem _ _ _ _ hx)))]

theorem removeAll_call : ∀ x : Text, '(' ∉ x → removeAll ['(', ')'] 0 (x ++ ['(', ')']) = x
  | [], _ => by decide
  | c :: x, h => by
    rw [List.cons_append, removeAll, if_neg, removeAll_call x (fun hm => h (List.mem_cons_of_mem _ hm))]
    intro hp
    simp only [List.isPrefixOf, Bool.and_eq_true, beq_iff_eq] at hp
    exact h (by rw [← hp.1]; exact List.mem_cons_self)

/-- A name without anything that the macro looks for: an identifier that does not contain `get_`. -/
structure GetName (x : Text) : Prop where
  get : ¬ ['g', 'e', 't', '_'] <:+: x
  hash : '#' ∉ x
  paren : '(' ∉ x
  dot : '.' ∉ x
  colon : ':' ∉ x
  comma : ',' ∉ x

theorem GetName.raw {x : Text} (h : GetName x) : ¬ ['r', '#'] <:+: x :=
  fun hi => h.hash (hi.subset (by simp))

theorem GetName.plain {x : Text} (h : GetName x) : PlainName x :=
  ⟨h.raw, h.get, fun hi => h.paren (hi.subset (by simp)), h.dot⟩

/-- What may be written for a getter called `get_x`: the name, or a path to a field or a getter of that name. -/
inductive Names : Text → Text → Prop
  | own (x : Text) : Names x x
  | field (p x : Text) : Names (p ++ '.' :: x) x
  | call (x : Text) : Names (['g', 'e', 't', '_'] ++ x ++ ['(', ')']) x
  | callAt (p x : Text) : Names (p ++ '.' :: (['g', 'e', 't', '_'] ++ x ++ ['(', ')'])) x

theorem getterName_call (x : Text) (h : GetName x) : getterName (['g', 'e', 't', '_'] ++ x ++ ['(', ')']) = x := by
  have h1 : removeAll ['r', '#'] 0 (['g', 'e', 't', '_'] ++ x ++ ['(', ')']) = ['g', 'e', 't', '_'] ++ x ++ ['(', ')'] := by
    refine removeAll_clean _ _ fun hi => ?_
    have : '#' ∈ ['g', 'e', 't', '_'] ++ x ++ ['(', ')'] := hi.subset (by simp)
    simp only [List.mem_append] at this
    rcases this with (h' | h') | h'
    · revert h'; decide
    · exact h.hash h'
    · revert h'; decide
  have h2 : removeAll ['g', 'e', 't', '_'] 0 (['g', 'e', 't', '_'] ++ x ++ ['(', ')']) = x ++ ['(', ')'] := by
    show removeAll ['g', 'e', 't', '_'] 0 (x ++ '(' :: [')']) = _
    rw [removeAll_before _ (by simp) '(' (by decide) _ x 0 (Nat.zero_le _), removeAll_clean _ x h.get]
    rfl
  unfold getterName
  rw [h1, h2, removeAll_call x h.paren, afterDot_clean x h.dot]

/-- C75, names: a getter that is listed as `x`, as a path `p.x`, as a call `get_x()` or as `p.get_x()` is called
`get_x`. -/
theorem C75_name (w x : Text) (h : GetName x) (hw : Names w x) : getterName w = x := by
  cases hw with
  | own => exact (C69_name_partial _ h.plain).1
  | field p => rw [getterName_path p _ h.dot, (C69_name_partial _ h.plain).1]
  | call => exact getterName_call _ h
  | callAt p =>
    rw [getterName_path p _ ?_, getterName_call _ h]
    simp only [List.mem_append, not_or]
    exact ⟨⟨by decide, h.dot⟩, by decide⟩

theorem getName_value : GetName ['v', 'a', 'l', 'u', 'e'] := by
  constructor <;> decide +kernel

example : getterName ['b', 'o', 'd', 'y', '.', 'h', 'e', 'a', 'd', '.', 'g', 'e', 't', '_', 'v', 'a', 'l', 'u', 'e', '(', ')'] = ['v', 'a', 'l', 'u', 'e'] :=
  C75_name _ _ getName_value (.callAt ['b', 'o', 'd', 'y', '.', 'h', 'e', 'a', 'd'] ['v', 'a', 'l', 'u', 'e'])

/-! ## Lists of getters -/

theorem dropWhile_pad (p x : Text) (hp : ∀ c ∈ p, c.isWhitespace = true) :
    (p ++ x).dropWhile Char.isWhitespace = x.dropWhile Char.isWhitespace := by
  induction p with
  | nil => rfl
  | cons c p ih =>
    rw [List.cons_append, List.dropWhile_cons, if_pos (hp c List.mem_cons_self),
      ih (fun d hd => hp d (List.mem_cons_of_mem _ hd))]

theorem dropWhile_none (x : Text) (hx : ∀ c, x.head? = some c → c.isWhitespace = false) :
    x.dropWhile Char.isWhitespace = x := by
  cases x with
  | nil => rfl
  | cons c x => rw [List.dropWhile_cons, if_neg]; rw [hx c rfl]; decide

/-- White space. -/
def IsPad (p : Text) : Prop := ∀ c ∈ p, c.isWhitespace = true

/-- A text that neither begins nor ends with white space, and is not empty. -/
structure Trimmed (x : Text) : Prop where
  ne : x ≠ []
  first : ∀ c, x.head? = some c → c.isWhitespace = false
  last : ∀ c, x.getLast? = some c → c.isWhitespace = false

theorem trimText_pads (p x q : Text) (hp : IsPad p) (hx : Trimmed x) (hq : IsPad q) :
    trimText (p ++ x ++ q) = x := by
  have hne := hx.ne
  have hfirst : ∀ c, (x ++ q).head? = some c → c.isWhitespace = false := by
    intro c hc
    refine hx.first c ?_
    cases x with
    | nil => exact absurd rfl hne
    | cons => simpa using hc
  have hlast : ∀ c, x.reverse.head? = some c → c.isWhitespace = false := by
    intro c hc
    rw [List.head?_reverse] at hc
    exact hx.last c hc
  unfold trimText
  rw [List.append_assoc, dropWhile_pad p _ hp, dropWhile_none _ hfirst, List.reverse_append,
    dropWhile_pad _ _ (fun c hc => hq c (List.mem_reverse.1 hc)), dropWhile_none _ hlast, List.reverse_reverse]

theorem splitOnce_first (c : Char) : ∀ (a b : Text), c ∉ a → splitOnce c (a ++ c :: b) = some (a, b)
  | [], b, _ => by simp [splitOnce]
  | d :: a, b, h => by
    rw [List.cons_append, splitOnce, if_neg (fun e => h (by rw [e]; exact List.mem_cons_self)),
      splitOnce_first c a b (fun hm => h (List.mem_cons_of_mem _ hm))]
    rfl

theorem pad_not_mem {p : Text} (hp : IsPad p) {c : Char} (hc : c.isWhitespace = false) : c ∉ p :=
  fun hm => by rw [hp c hm] at hc; exact absurd hc (by decide)

/-- The text `w : t` of one getter, with any white space. -/
structure EntryText (w t s : Text) : Prop where
  colon : ':' ∉ w
  comma : ',' ∉ w
  tyComma : ',' ∉ t
  name : Trimmed w
  ty : Trimmed t
  text : ∃ p1 p2 p3 p4, IsPad p1 ∧ IsPad p2 ∧ IsPad p3 ∧ IsPad p4 ∧
    s = p1 ++ w ++ p2 ++ ':' :: (p3 ++ t ++ p4)

theorem EntryText.parsed {w t s : Text} (h : EntryText w t s) : getEntry s = (w, t) ∧ ',' ∉ s := by
  obtain ⟨p1, p2, p3, p4, h1, h2, h3, h4, rfl⟩ := h.text
  constructor
  · unfold getEntry
    rw [splitOnce_first ':' (p1 ++ w ++ p2)]
    · simp only [trimText_pads p1 w p2 h1 h.name h2, trimText_pads p3 t p4 h3 h.ty h4]
    · simp only [List.mem_append, not_or]
      exact ⟨⟨pad_not_mem h1 (by decide), h.colon⟩, pad_not_mem h2 (by decide)⟩
  · simp only [List.mem_append, List.mem_cons, not_or]
    exact ⟨⟨⟨pad_not_mem h1 (by decide), h.comma⟩, pad_not_mem h2 (by decide)⟩, by decide,
      ⟨pad_not_mem h3 (by decide), h.tyComma⟩, pad_not_mem h4 (by decide)⟩

/-- The texts of a list of getters, one for each. -/
inductive EntryTexts : List (Text × Text) → List Text → Prop
  | nil : EntryTexts [] []
  | cons {w t s es ss} : EntryText w t s → EntryTexts es ss → EntryTexts ((w, t) :: es) (s :: ss)

theorem EntryTexts.parsed {es : List (Text × Text)} {ss : List Text} (h : EntryTexts es ss) :
    ss.map getEntry = es ∧ ∀ s ∈ ss, ',' ∉ s := by
  induction h with
  | nil => simp
  | cons hd _ ih =>
    refine ⟨by rw [List.map_cons, hd.parsed.1, ih.1], ?_⟩
    intro s hs
    rcases List.mem_cons.1 hs with rfl | hs
    · exact hd.parsed.2
    · exact ih.2 s hs

/-- The literal of a list. -/
def listLit (ss : List Text) : Text := '"' :: (joinComma ss ++ ['"'])

theorem getEntries_listed {es : List (Text × Text)} {ss : List Text} (hne : ss ≠ []) (h : EntryTexts es ss) :
    getEntries (listLit ss) = es := by
  have : getLitText (listLit ss) = joinComma ss := by
    unfold getLitText listLit
    rw [if_pos ⟨rfl, by rw [← List.cons_append, List.getLast?_append]; rfl⟩, List.drop_one, List.tail_cons,
      List.dropLast_concat]
  unfold getEntries
  rw [this, splitComma_join ss hne h.parsed.2, h.parsed.1]

/-- The tokens of a type: `Option<` is two of them. -/
def IsTokens (tokens : List Text) : Prop := ∀ t ∈ tokens, optLt.isPrefixOf t = false

theorem tokensText_not_option (tokens : List Text) (h : IsTokens tokens) :
    optLt.isPrefixOf (tokensText tokens) = false := by
  cases tokens with
  | nil => rfl
  | cons t ts =>
    unfold tokensText
    rw [List.flatMap_cons]
    by_cases ht : t = ['\'']
    · subst ht
      rfl
    · rw [if_neg ht, List.append_assoc]
      rw [Bool.eq_false_iff]
      intro hp
      have := isPrefixOf_before ' ' optLt t _ (by decide) hp
      rw [h t List.mem_cons_self] at this
      exact absurd this (by decide)

/-- `T` as the type of something that may be absent: `Option<T>`, and `T` itself if it is an option. -/
def optionOf (t : Text) : Text := if optLt.isPrefixOf t then t else ['O', 'p', 't', 'i', 'o', 'n', '<'] ++ t ++ ['>']

theorem returnType_option (t ft : Text) : returnType (some t) ft true = optionOf t := by
  unfold returnType optionOf
  cases h : optLt.isPrefixOf t <;> simp only [h, Option.getD_some] <;> rfl

theorem returnType_get (t : Text) (tokens : List Text) (h : IsTokens tokens) :
    returnType (some t) (tokensText tokens) false = t := by
  unfold returnType
  simp [tokensText_not_option tokens h]

/-- What the items of an attribute ask for: a getter of the type of the field (`get`), one of the option of this type
(`get_option`), and the entries of all lists under `get` and under `get_option`. -/
inductive GetItems : List AttrItem → Bool → Bool → List (Text × Text) → List (Text × Text) → Prop
  | nil : GetItems [] false false [] []
  | get {l g o es os} : GetItems l g o es os → GetItems (.tag "get" :: l) true o es os
  | getOption {l g o es os} : GetItems l g o es os → GetItems (.tag "get_option" :: l) g true es os
  | clone {l g o es os} : GetItems l g o es os → GetItems (.tag "clone" :: l) g o es os
  | option {l g o es os} : GetItems l g o es os → GetItems (.tag "option" :: l) g o es os
  | name {l g o es os lit} : GetItems l g o es os → GetItems (.prop "name" lit :: l) g o es os
  | getList {l g o es os es' ss} : ss ≠ [] → EntryTexts es' ss → GetItems l g o es os →
      GetItems (.prop "get" (listLit ss) :: l) g o (es' ++ es) os
  | getOptionList {l g o es os os' ss} : ss ≠ [] → EntryTexts os' ss → GetItems l g o es os →
      GetItems (.prop "get_option" (listLit ss) :: l) g o es (os' ++ os)

theorem getItems_fold {l : List AttrItem} {g o : Bool} {es os : List (Text × Text)} (h : GetItems l g o es os) :
    ∀ a : GetAttrs, ∃ a', l.foldlM GetAttrs.item a = some a' ∧ a'.get = (a.get || g) ∧
      a'.getOption = (a.getOption || o) ∧ a'.getList = a.getList ++ es ∧ a'.getOptionList = a.getOptionList ++ os := by
  induction h with
  | nil => intro a; exact ⟨a, rfl, by simp, by simp, by simp, by simp⟩
  | get _ ih =>
    intro a
    obtain ⟨a', h1, h2, h3, h4, h5⟩ := ih { a with get := true }
    exact ⟨a', by simpa [List.foldlM_cons, GetAttrs.item] using h1, by simpa using h2, h3, h4, h5⟩
  | getOption _ ih =>
    intro a
    obtain ⟨a', h1, h2, h3, h4, h5⟩ := ih { a with getOption := true }
    exact ⟨a', by simpa [List.foldlM_cons, GetAttrs.item] using h1, h2, by simpa using h3, h4, h5⟩
  | clone _ ih =>
    intro a
    obtain ⟨a', h1, h2, h3, h4, h5⟩ := ih { a with clone := true }
    exact ⟨a', by simpa [List.foldlM_cons, GetAttrs.item] using h1, h2, h3, h4, h5⟩
  | option _ ih =>
    intro a
    obtain ⟨a', h1, h2, h3, h4, h5⟩ := ih { a with option := true }
    exact ⟨a', by simpa [List.foldlM_cons, GetAttrs.item] using h1, h2, h3, h4, h5⟩
  | name _ ih =>
    intro a
    obtain ⟨a', h1, h2, h3, h4, h5⟩ := ih a
    exact ⟨a', by simpa [List.foldlM_cons, GetAttrs.item] using h1, h2, h3, h4, h5⟩
  | @getList _ _ _ _ _ es' _ hs he _ ih =>
    intro a
    obtain ⟨a', h1, h2, h3, h4, h5⟩ := ih { a with getList := a.getList ++ es' }
    exact ⟨a', by simpa [List.foldlM_cons, GetAttrs.item, getEntries_listed hs he] using h1, h2, h3,
      by simpa using h4, h5⟩
  | @getOptionList _ _ _ _ _ os' _ hs he _ ih =>
    intro a
    obtain ⟨a', h1, h2, h3, h4, h5⟩ := ih { a with getOptionList := a.getOptionList ++ os' }
    exact ⟨a', by simpa [List.foldlM_cons, GetAttrs.item, getEntries_listed hs he] using h1, h2, h3, h4,
      by simpa using h5⟩

theorem returnType_own (tokens : List Text) (h : IsTokens tokens) :
    returnType none (tokensText tokens) false = tokensText tokens ∧
    returnType none (tokensText tokens) true = optionOf (tokensText tokens) := by
  have ht := tokensText_not_option tokens h
  unfold returnType optionOf
  simp only [Option.getD_none, ht]
  exact ⟨rfl, rfl⟩

/-- C75, names and types, partial: an attribute gives `get_field` of the type of the field for the word `get`, of the
option of it for `get_option`, and a getter for every entry of all lists `get = "w1:T1, …"`, in order and no other, of
the type that is stated, and of `Option<T>` for `get_option = "…"`; each reads the field, or the path that is stated if
it is one.  Missing: types that contain a comma (`C75_list_violated`) and raw identifiers (`C75_raw_violated`). -/
theorem C75_list_partial {items : List AttrItem} {g o : Bool} {es os : List (Text × Text)}
    (h : GetItems items g o es os) (ident : Text) (hident : ¬ ['r', '#'] <:+: ident)
    (hraw : ∀ e ∈ es ++ os, ¬ ['r', '#'] <:+: e.1)
    (tokens : List Text) (hf : IsTokens tokens) :
    ∃ a, GetAttrs.parse items = some a ∧
      (fieldGetters a ident (tokensText tokens)).map (fun g => (g.name, g.ret, g.path)) =
        (if g then [(getterName ident, tokensText tokens, ident)] else []) ++
        (if o then [(getterName ident, optionOf (tokensText tokens), ident)] else []) ++
        es.map (fun e => (getterName e.1, e.2, if '.' ∈ e.1 then e.1 else ident)) ++
        os.map (fun e => (getterName e.1, optionOf e.2, if '.' ∈ e.1 then e.1 else ident)) := by
  obtain ⟨a, h1, h2, h3, h4, h5⟩ := getItems_fold h {}
  simp only [Bool.false_or, List.nil_append] at h2 h3 h4 h5
  refine ⟨a, h1, ?_⟩
  have hpath : ∀ e ∈ es ++ os, removeAll ['r', '#'] 0 (getPath e.1 ident) = if '.' ∈ e.1 then e.1 else ident := by
    intro e hm
    unfold getPath
    split
    · exact removeAll_clean _ _ (hraw e hm)
    · exact removeAll_clean _ _ hident
  simp only [fieldGetters, h2, h3, h4, h5, List.map_append, List.map_map]
  congr 1
  · congr 1
    · congr 1
      · cases g <;> simp [getterFor, returnType_own tokens hf, removeAll_clean _ _ hident]
      · cases o <;> simp [getterFor, returnType_own tokens hf, removeAll_clean _ _ hident]
    · refine List.map_congr_left fun e hm => ?_
      simp only [Function.comp_apply, getterFor, returnType_get e.2 tokens hf, hpath e (List.mem_append_left _ hm)]
  · refine List.map_congr_left fun e hm => ?_
    simp only [Function.comp_apply, getterFor, returnType_option, hpath e (List.mem_append_right _ hm)]

theorem entryText_plain (w t : Text) (h1 : ':' ∉ w) (h2 : ',' ∉ w) (h3 : ',' ∉ t) (h4 : Trimmed w) (h5 : Trimmed t)
    (p : Text) (hp : IsPad p) : EntryText w t (p ++ w ++ ':' :: t) :=
  ⟨h1, h2, h3, h4, h5, p, [], [], [], hp, by simp [IsPad], by simp [IsPad], by simp [IsPad], by simp⟩

theorem trimmed_of {x : Text} (h : ((x.head?.map Char.isWhitespace) = some false ∧
    (x.getLast?.map Char.isWhitespace) = some false) = True) : Trimmed x := by
  have h := of_eq_true h
  refine ⟨?_, ?_, ?_⟩
  · rintro rfl
    simp at h
  · intro c hc
    rw [hc] at h
    simpa using h.1
  · intro c hc
    rw [hc] at h
    simpa using h.2

/-- `#[jget(get, get = "data.value:u16, data.jkc:u16", clone, get_option = "len:usize", get = "x:u8")] data: Data` -/
example : ∃ a, GetAttrs.parse [.tag "get", .prop "get" ['"', 'd', 'a', 't', 'a', '.', 'v', 'a', 'l', 'u', 'e', ':', 'u', '1', '6', ',', ' ', 'd', 'a', 't', 'a', '.', 'j', 'k', 'c', ':', 'u', '1', '6', '"'], .tag "clone",
      .prop "get_option" ['"', 'l', 'e', 'n', ':', 'u', 's', 'i', 'z', 'e', '"'], .prop "get" ['"', 'x', ':', 'u', '8', '"']] = some a ∧
    (fieldGetters a ['d', 'a', 't', 'a'] (tokensText [['D', 'a', 't', 'a']])).map (fun g => (g.name, g.ret, g.path)) =
      [(['d', 'a', 't', 'a'], ['D', 'a', 't', 'a', ' '], ['d', 'a', 't', 'a']),
       (['v', 'a', 'l', 'u', 'e'], ['u', '1', '6'], ['d', 'a', 't', 'a', '.', 'v', 'a', 'l', 'u', 'e']),
       (['j', 'k', 'c'], ['u', '1', '6'], ['d', 'a', 't', 'a', '.', 'j', 'k', 'c']),
       (['x'], ['u', '8'], ['d', 'a', 't', 'a']),
       (['l', 'e', 'n'], ['O', 'p', 't', 'i', 'o', 'n', '<', 'u', 's', 'i', 'z', 'e', '>'], ['d', 'a', 't', 'a'])] := by
  have h := C75_list_partial (.get (.getList (ss := [[] ++ ['d', 'a', 't', 'a', '.', 'v', 'a', 'l', 'u', 'e'] ++ ':' :: ['u', '1', '6'], [' '] ++ ['d', 'a', 't', 'a', '.', 'j', 'k', 'c'] ++ ':' :: ['u', '1', '6']]) (by simp)
    (.cons (entryText_plain _ _ (by decide) (by decide) (by decide) (trimmed_of (by simp))
        (trimmed_of (by simp)) [] (by simp [IsPad]))
      (.cons (entryText_plain _ _ (by decide) (by decide) (by decide) (trimmed_of (by simp))
        (trimmed_of (by simp)) [' '] (by simp [IsPad])) .nil))
    (.clone (.getOptionList (ss := [[] ++ ['l', 'e', 'n'] ++ ':' :: ['u', 's', 'i', 'z', 'e']]) (by simp)
      (.cons (entryText_plain _ _ (by decide) (by decide) (by decide) (trimmed_of (by simp))
        (trimmed_of (by simp)) [] (by simp [IsPad])) .nil)
      (.getList (ss := [[] ++ ['x'] ++ ':' :: ['u', '8']]) (by simp)
        (.cons (entryText_plain _ _ (by decide) (by decide) (by decide) (trimmed_of (by simp))
          (trimmed_of (by simp)) [] (by simp [IsPad])) .nil) .nil)))))
    ['d', 'a', 't', 'a'] (by decide +kernel) (by decide +kernel) [['D', 'a', 't', 'a']] (by simp [IsTokens]; decide)
  obtain ⟨a, ha, hg⟩ := h
  exact ⟨a, ha, hg.trans (by decide +kernel)⟩

/-- C75 fails for a type with a comma: `#[jget(get = "m:HashMap<u8,u16>")]` declares `get_m` with the type `HashMap<u8`
and a second getter, named `get_u16>`, without a type. -/
theorem C75_list_violated : ∃ a, GetAttrs.parse [.prop "get" ['"', 'm', ':', 'H', 'a', 's', 'h', 'M', 'a', 'p', '<', 'u', '8', ',', 'u', '1', '6', '>', '"']] = some a ∧
    (fieldGetters a ['m'] (tokensText [['H', 'a', 's', 'h', 'M', 'a', 'p'], ['<'], ['u', '8'], [','], ['u', '1', '6'], ['>']])).map (fun g => (g.name, g.ret)) =
      [(['m'], ['H', 'a', 's', 'h', 'M', 'a', 'p', '<', 'u', '8']), (['u', '1', '6', '>'], [])] := ⟨_, rfl, by decide +kernel⟩

/-- C75 fails for a raw identifier: the getter of `r#type` reads `self.type`, which is not an identifier. -/
theorem C75_raw_violated : ∃ a, GetAttrs.parse [.tag "get"] = some a ∧
    (fieldGetters a ['r', '#', 't', 'y', 'p', 'e'] (tokensText [['u', '8']])).map (fun g => (g.name, g.path)) = [(['t', 'y', 'p', 'e'], ['t', 'y', 'p', 'e'])] :=
  ⟨_, rfl, by decide +kernel⟩

/-- The entries of all lists under `get_default`. -/
inductive DefaultItems : List AttrItem → List (Text × Text) → Prop
  | nil : DefaultItems [] []
  | cons {l es es' ss} : ss ≠ [] → EntryTexts es' ss → DefaultItems l es →
      DefaultItems (.prop "get_default" (listLit ss) :: l) (es' ++ es)

theorem getDefaults_fold {l : List AttrItem} {es : List (Text × Text)} (h : DefaultItems l es) :
    ∀ acc, l.foldlM (fun l i => match i with
      | .prop k lit => if k = "get_default" then some (l ++ getEntries lit) else none
      | .tag _ => none) acc = some (acc ++ es) := by
  induction h with
  | nil => intro acc; simp
  | @cons l es es' ss hs he _ ih =>
    intro acc
    rw [List.foldlM_cons]
    simp only [if_true, getEntries_listed hs he, Option.bind_eq_bind, Option.bind_some, ih, List.append_assoc]

/-- C75, defaults: `#[jget(get_default = "n1:T1, …")]` declares `get_n` of type `Option<T>` for every entry of every such
list (its body is `None`). -/
theorem C75_default {items : List AttrItem} {es : List (Text × Text)} (h : DefaultItems items es)
    (hraw : ∀ e ∈ es, ¬ ['r', '#'] <:+: e.1) :
    ∃ l, getDefaults items = some l ∧
      l.map defaultGetter = es.map fun e => (e.1, optionOf e.2) := by
  refine ⟨es, getDefaults_fold h [], ?_⟩
  refine List.map_congr_left fun e hm => ?_
  unfold defaultGetter optionOf
  rw [removeAll_clean _ _ (hraw e hm)]
  rfl

example : ∃ l, getDefaults [.prop "get_default" ['"', 'l', 'e', 'n', 'g', 't', 'h', ':', 'u', '1', '6', ',', 's', 'i', 'z', 'e', ':', 'O', 'p', 't', 'i', 'o', 'n', '<', 'u', '3', '2', '>', '"']] = some l ∧
    l.map defaultGetter = [(['l', 'e', 'n', 'g', 't', 'h'], ['O', 'p', 't', 'i', 'o', 'n', '<', 'u', '1', '6', '>']), (['s', 'i', 'z', 'e'], ['O', 'p', 't', 'i', 'o', 'n', '<', 'u', '3', '2', '>'])] := by
  have h := C75_default (.cons (ss := [[] ++ ['l', 'e', 'n', 'g', 't', 'h'] ++ ':' :: ['u', '1', '6'], [] ++ ['s', 'i', 'z', 'e'] ++ ':' :: ['O', 'p', 't', 'i', 'o', 'n', '<', 'u', '3', '2', '>']]) (by simp)
    (.cons (entryText_plain _ _ (by decide) (by decide) (by decide) (trimmed_of (by simp))
        (trimmed_of (by simp)) [] (by simp [IsPad]))
      (.cons (entryText_plain _ _ (by decide) (by decide) (by decide) (trimmed_of (by simp))
        (trimmed_of (by simp)) [] (by simp [IsPad])) .nil)) .nil) (by decide +kernel)
  obtain ⟨l, hl, hg⟩ := h
  exact ⟨l, hl, hg.trans (by decide +kernel)⟩

/-! ## Casts -/

/-- The numbers of an integer type. -/
def FitsInt (k : IntKind) (n : Int) : Prop :=
  if k.signed then -(2 ^ (8 * k.size - 1)) ≤ n ∧ n < 2 ^ (8 * k.size - 1) else 0 ≤ n ∧ n < 2 ^ (8 * k.size)

theorem asInt_spec (k : IntKind) (hk : 0 < k.size) (n : Int) :
    FitsInt k (asInt k n) ∧ ∃ q : Int, asInt k n = n + q * 2 ^ (8 * k.size) := by
  have hM : ((modulus k.size : Nat) : Int) = 2 ^ (8 * k.size) := by
    unfold modulus
    rw [Int.natCast_pow, Int.pow_mul]
    rfl
  have hpow : (2 : Int) ^ (8 * k.size) = 2 * 2 ^ (8 * k.size - 1) := by
    rw [← Int.pow_succ']
    congr 1
    omega
  have hpos : (0 : Int) < 2 ^ (8 * k.size - 1) := Int.pow_pos (by decide)
  have hdiv := Int.emod_add_mul_ediv n (2 ^ (8 * k.size))
  have h0 := Int.emod_nonneg n (b := 2 ^ (8 * k.size)) (by omega)
  have h1 := Int.emod_lt_of_pos n (b := 2 ^ (8 * k.size)) (by omega)
  have hof : ((k.ofInt n : Nat) : Int) = n % 2 ^ (8 * k.size) := by
    unfold IntKind.ofInt
    rw [hM]
    omega
  unfold asInt IntKind.toInt
  rw [hof, hM]
  have hq : n % 2 ^ (8 * k.size) = n + -(n / 2 ^ (8 * k.size)) * 2 ^ (8 * k.size) := by
    rw [Int.neg_mul, Int.mul_comm (n / _)]
    omega
  have hge : (2 * k.ofInt n ≥ modulus k.size) ↔ 2 ^ (8 * k.size - 1) ≤ n % 2 ^ (8 * k.size) := by
    rw [← hof]
    have : (2 * k.ofInt n ≥ modulus k.size) ↔ ((modulus k.size : Nat) : Int) ≤ 2 * ((k.ofInt n : Nat) : Int) := by
      omega
    rw [this, hM]
    omega
  unfold FitsInt
  by_cases hs : k.signed = true
  · rw [if_pos hs]
    by_cases hc : 2 * k.ofInt n ≥ modulus k.size
    · rw [if_pos ⟨hs, hc⟩]
      have := hge.1 hc
      refine ⟨by omega, -(n / 2 ^ (8 * k.size)) - 1, ?_⟩
      rw [Int.sub_mul]
      omega
    · rw [if_neg (fun h => hc h.2)]
      have : ¬ 2 ^ (8 * k.size - 1) ≤ n % 2 ^ (8 * k.size) := fun h => hc (hge.2 h)
      exact ⟨by omega, _, hq⟩
  · rw [if_neg hs, if_neg (fun h => hs h.1)]
    exact ⟨⟨h0, h1⟩, _, hq⟩

theorem asInt_fits (k : IntKind) (hk : 0 < k.size) (n : Int) (h : FitsInt k n) : asInt k n = n := by
  obtain ⟨h1, q, hq⟩ := asInt_spec k hk n
  have hpow : (2 : Int) ^ (8 * k.size) = 2 * 2 ^ (8 * k.size - 1) := by
    rw [← Int.pow_succ']
    congr 1
    omega
  have hpos : (0 : Int) < 2 ^ (8 * k.size - 1) := Int.pow_pos (by decide)
  have hlt : -(2 : Int) ^ (8 * k.size) < q * 2 ^ (8 * k.size) ∧ q * 2 ^ (8 * k.size) < 2 ^ (8 * k.size) := by
    unfold FitsInt at h h1
    split at h
    · rw [if_pos ‹_›] at h1
      omega
    · rw [if_neg ‹_›] at h1
      omega
  have hq0 : q = 0 := by
    have h2 : q < 1 := by
      refine Int.lt_of_mul_lt_mul_right (a := 2 ^ (8 * k.size)) ?_ (by omega)
      omega
    have h3 : -1 < q := by
      refine Int.lt_of_mul_lt_mul_right (a := 2 ^ (8 * k.size)) ?_ (by omega)
      omega
    omega
  rw [hq, hq0]
  omega

/-! ## Values -/

/-- The numbers in a value, in order. -/
def GVal.numbers : GVal → List Int
  | .num n => [n]
  | .nums l => l
  | .absent => []
  | .present v => v.numbers
  | .other _ => []

/-- What is asked of `.into()`: it changes no number and makes nothing absent or present. -/
def Lossless (into : GVal → Option GVal) : Prop :=
  ∀ v w, into v = some w → w.numbers = v.numbers ∧ (w = .absent ↔ v = .absent)

/-- The integer types by their names: `u` or `i` and the number of bits, or `size` (64 bits here). -/
inductive IntType : Text → IntKind → Prop
  | sized (signed : Bool) (bytes : Nat) : bytes ∈ [1, 2, 4, 8, 16] →
      IntType ((if signed then 'i' else 'u') :: Nat.toDigits 10 (8 * bytes)) ⟨bytes, signed⟩
  | size (signed : Bool) : IntType ((if signed then 'i' else 'u') :: ['s', 'i', 'z', 'e']) ⟨8, signed⟩

/-- The integer type that a return type puts numbers into: that of `Vec<T>` and `Option<Vec<T>>`; types that do not
begin so have none. -/
inductive RetElem : Text → Option IntKind → Prop
  | vec (T : Text) (k : IntKind) : IntType T k → RetElem (['V', 'e', 'c', '<'] ++ T ++ ['>']) (some k)
  | optVec (T : Text) (k : IntKind) : IntType T k → RetElem (['O', 'p', 't', 'i', 'o', 'n', '<', 'V', 'e', 'c', '<'] ++ T ++ ['>', '>']) (some k)
  | plain (ret : Text) : startsVecInt ['V', 'e', 'c', '<'] ret = false → startsVecInt ['O', 'p', 't', 'i', 'o', 'n', '<', 'V', 'e', 'c', '<'] ret = false → RetElem ret none

/-- The names of the integer types. -/
def intNames : List Text :=
  [['u', '8'], ['u', '1', '6'], ['u', '3', '2'], ['u', '6', '4'], ['u', '1', '2', '8'], ['u', 's', 'i', 'z', 'e'], ['i', '8'], ['i', '1', '6'], ['i', '3', '2'], ['i', '6', '4'], ['i', '1', '2', '8'], ['i', 's', 'i', 'z', 'e']]

theorem intNamed_mem {T : Text} {k : IntKind} (h : intNamed T = some k) : T ∈ intNames := by
  unfold intNamed at h
  rw [List.lookup_eq_some_iff] at h
  obtain ⟨l1, l2, he, _⟩ := h
  have : (T, k) ∈ l1 ++ (T, k) :: l2 := by simp
  rw [← he] at this
  have := List.mem_map_of_mem (f := Prod.fst) this
  exact this

theorem intNamed_size {T : Text} {k : IntKind} (h : intNamed T = some k) : 0 < k.size := by
  have hm := intNamed_mem h
  have : ∀ T ∈ intNames, ∀ k ∈ intNamed T, 0 < k.size := by decide +kernel
  exact this T hm k h

theorem intType_named {T : Text} {k : IntKind} (h : IntType T k) : intNamed T = some k := by
  cases h with
  | sized signed bytes hb =>
    have : ∀ s : Bool, ∀ b ∈ [1, 2, 4, 8, 16], intNamed ((if s then 'i' else 'u') :: Nat.toDigits 10 (8 * b)) =
      some ⟨b, s⟩ := by decide +kernel
    exact this signed bytes hb
  | size signed => cases signed <;> decide +kernel

theorem named_intType {T : Text} {k : IntKind} (h : intNamed T = some k) : IntType T k := by
  have h1 : ∀ T ∈ intNames, (∃ s : Bool, ∃ b ∈ [1, 2, 4, 8, 16],
        T = (if s then 'i' else 'u') :: Nat.toDigits 10 (8 * b)) ∨
      ∃ s : Bool, T = (if s then 'i' else 'u') :: ['s', 'i', 'z', 'e'] := by decide +kernel
  rcases h1 T (intNamed_mem h) with ⟨s, b, hb, rfl⟩ | ⟨s, rfl⟩
  · have := IntType.sized s b hb
    rw [intType_named this] at h
    cases h
    exact this
  · have := IntType.size s
    rw [intType_named this] at h
    cases h
    exact this

theorem elem_vec {T : Text} (h : T ∈ intNames) :
    removeAll ['>'] 0 (removeAll vecLt 0 (vecLt ++ T ++ ['>'])) = T ∧
    startsVecInt vecLt (vecLt ++ T ++ ['>']) = true ∧
    removeAll ['>', '>'] 0 (removeAll optVecLt 0 (optVecLt ++ T ++ ['>', '>'])) = T ∧
    startsVecInt vecLt (optVecLt ++ T ++ ['>', '>']) = false ∧
    startsVecInt optVecLt (vecLt ++ T ++ ['>']) = false ∧
    startsVecInt optVecLt (optVecLt ++ T ++ ['>', '>']) = true := by
  have : ∀ T ∈ intNames,
    removeAll ['>'] 0 (removeAll vecLt 0 (vecLt ++ T ++ ['>'])) = T ∧
    startsVecInt vecLt (vecLt ++ T ++ ['>']) = true ∧
    removeAll ['>', '>'] 0 (removeAll optVecLt 0 (optVecLt ++ T ++ ['>', '>'])) = T ∧
    startsVecInt vecLt (optVecLt ++ T ++ ['>', '>']) = false ∧
    startsVecInt optVecLt (vecLt ++ T ++ ['>']) = false ∧
    startsVecInt optVecLt (optVecLt ++ T ++ ['>', '>']) = true := by decide +kernel
  exact this T h

theorem convFor_cases {ret : Text} {e : Option IntKind} (h : RetElem ret e) (ft : Text) :
    (∃ T k, e = some k ∧ intNamed T = some k ∧ convFor ret ft = castFor ft T) ∨
    (convFor ret ft = if optLt.isPrefixOf ft then .intoSome (!startsRef ret)
      else .into (!(decide ('&' ∈ ft) || startsRef ret))) := by
  have key : ∀ b1 b2 : Bool, (startsVecInt vecLt ret && ret != ft) = b1 →
      (startsVecInt optVecLt ret && ((optLt.isPrefixOf ft && ret != ft)
        || (!optLt.isPrefixOf ft && ret != optLt ++ ft ++ ['>']))) = b2 →
      convFor ret ft = if b1 then castFor ft (removeAll ['>'] 0 (removeAll vecLt 0 ret))
        else if b2 then castFor ft (removeAll ['>', '>'] 0 (removeAll optVecLt 0 ret))
        else if optLt.isPrefixOf ft then .intoSome (!startsRef ret)
        else .into (!(decide ('&' ∈ ft) || startsRef ret)) := by
    rintro _ _ rfl rfl
    rfl
  cases h with
  | vec T k hT =>
    have hT := intType_named hT
    have hm := elem_vec (intNamed_mem hT)
    cases hb1 : startsVecInt vecLt (vecLt ++ T ++ ['>']) && (vecLt ++ T ++ ['>']) != ft with
    | true =>
      left
      refine ⟨T, k, rfl, hT, ?_⟩
      have := key true _ hb1 rfl
      rw [if_pos rfl] at this
      exact this.trans (congrArg (castFor ft) hm.1)
    | false =>
      right
      exact key false false hb1 (by
        show (startsVecInt optVecLt (vecLt ++ T ++ ['>']) && _) = false
        rw [hm.2.2.2.2.1, Bool.false_and])
  | optVec T k hT =>
    have hT := intType_named hT
    have hm := elem_vec (intNamed_mem hT)
    have hb1 : (startsVecInt vecLt (optVecLt ++ T ++ ['>', '>']) && (optVecLt ++ T ++ ['>', '>']) != ft) = false := by
      rw [hm.2.2.2.1, Bool.false_and]
    cases hb2 : (startsVecInt optVecLt (optVecLt ++ T ++ ['>', '>']) &&
        ((optLt.isPrefixOf ft && (optVecLt ++ T ++ ['>', '>']) != ft)
        || (!optLt.isPrefixOf ft && (optVecLt ++ T ++ ['>', '>']) != optLt ++ ft ++ ['>']))) with
    | true =>
      left
      refine ⟨T, k, rfl, hT, ?_⟩
      have := key false true hb1 hb2
      rw [if_neg (by decide), if_pos rfl] at this
      exact this.trans (congrArg (castFor ft) hm.2.2.1)
    | false =>
      right
      exact key false false hb1 hb2
  | plain _ h1 h2 =>
    right
    refine key false false ?_ ?_
    · show (startsVecInt ['V', 'e', 'c', '<'] ret && _) = false
      rw [h1, Bool.false_and]
    · show (startsVecInt ['O', 'p', 't', 'i', 'o', 'n', '<', 'V', 'e', 'c', '<'] ret && _) = false
      rw [h2, Bool.false_and]

/-- Every getter of a field is `getterFor` of something. -/
theorem fieldGetters_form {a : GetAttrs} {ident ft : Text} {g : Getter} (h : g ∈ fieldGetters a ident ft) :
    ∃ name ret path o, g = getterFor a name ret path ft o := by
  unfold fieldGetters at h
  simp only [List.mem_append, List.mem_map] at h
  rcases h with ((h | h) | ⟨e, _, rfl⟩) | ⟨e, _, rfl⟩
  · split at h
    · exact ⟨_, _, _, _, List.mem_singleton.1 h⟩
    · simp at h
  · split at h
    · exact ⟨_, _, _, _, List.mem_singleton.1 h⟩
    · simp at h
  · exact ⟨_, _, _, _, rfl⟩
  · exact ⟨_, _, _, _, rfl⟩

theorem map_asInt {k : IntKind} (hk : 0 < k.size) {l : List Int} (h : ∀ n ∈ l, FitsInt k n) :
    l.map (asInt k) = l := by
  have : l.map (asInt k) = l.map id := List.map_congr_left fun n hn => asInt_fits k hk n (h n hn)
  rw [this, List.map_id]

theorem runConv_cast {into : GVal → Option GVal} {ft T : Text} {k : IntKind} {v w : GVal} (hT : intNamed T = some k)
    (h : runConv into (castFor ft T) v = some w) :
    w.numbers = v.numbers.map (asInt k) ∧ (w = .absent ↔ v = .absent) := by
  unfold castFor at h
  split at h
  · cases v with
    | absent =>
      simp only [runConv, hT, Option.map_some, Option.some.injEq] at h
      subst h
      exact ⟨rfl, by simp⟩
    | present u =>
      cases u <;> simp only [runConv, hT, Option.map_some, Option.some.injEq, reduceCtorEq] at h
      subst h
      exact ⟨rfl, by simp⟩
    | _ => simp [runConv] at h
  · split at h
    · cases v <;> simp only [runConv, hT, Option.map_some, Option.some.injEq, reduceCtorEq] at h
      subst h
      exact ⟨rfl, by simp⟩
    · cases v <;> simp only [runConv, hT, Option.map_some, Option.some.injEq, reduceCtorEq] at h
      subst h
      exact ⟨rfl, by simp⟩

theorem runConv_into {into : GVal → Option GVal} (hi : Lossless into) {b : Bool} {v w : GVal} {c1 c2 : Bool}
    (h : runConv into (if b then .intoSome c1 else .into c2) v = some w) :
    w.numbers = v.numbers ∧ (w = .absent ↔ v = .absent) := by
  cases b with
  | true =>
    simp only [if_true] at h
    cases v with
    | absent =>
      simp only [runConv, Option.some.injEq] at h
      subst h
      exact ⟨rfl, by simp⟩
    | present u =>
      simp only [runConv, Option.map_eq_some_iff] at h
      obtain ⟨u', hu, rfl⟩ := h
      exact ⟨(hi u u' hu).1, by simp⟩
    | _ => simp [runConv] at h
  | false =>
    simp only [Bool.false_eq_true, if_false, runConv] at h
    exact hi v w h

theorem numbers_wrap (b : Bool) (w : GVal) : (if b then GVal.present w else w).numbers = w.numbers := by
  cases b <;> rfl

/-- C75, values, exact: the numbers that a getter of a field gives are those of what it reads, each reduced to the
integer type `T` of the elements when the return type is `Vec<T>` or `Option<Vec<T>>`, and unchanged otherwise. -/
theorem C75_numbers_exact (into : GVal → Option GVal) (hi : Lossless into) (a : GetAttrs) (ident ft : Text)
    (read : Text → Option GVal) (g : Getter) (hg : g ∈ fieldGetters a ident ft) (e : Option IntKind)
    (he : RetElem g.ret e) (v w : GVal) (hv : read g.path = some v) (hw : g.run into read = some w) :
    w.numbers = v.numbers ∨
    ∃ k f, e = some k ∧ w.numbers = v.numbers.map f ∧
      ∀ n, FitsInt k (f n) ∧ ∃ q : Int, f n = n + q * 2 ^ (8 * k.size) := by
  obtain ⟨name, ret, path, o, rfl⟩ := fieldGetters_form hg
  unfold Getter.run at hw
  rw [hv] at hw
  simp only [Option.bind_some, Option.map_eq_some_iff] at hw
  obtain ⟨u, hu, rfl⟩ := hw
  rw [numbers_wrap]
  have hconv : (getterFor a name ret path ft o).conv = convFor ret (removeAll [' '] 0 ft) := rfl
  rw [hconv] at hu
  rcases convFor_cases (ret := ret) he (removeAll [' '] 0 ft) with ⟨T, k, rfl, hT, hc⟩ | hc
  · rw [hc] at hu
    exact Or.inr ⟨k, asInt k, rfl, (runConv_cast hT hu).1, fun n => asInt_spec k (intNamed_size hT) n⟩
  · rw [hc] at hu
    exact Or.inl (runConv_into hi hu).1

/-- C75, values, partial: a getter of a field gives the numbers of what it reads, if they are numbers of the integer
type of its return type; and it gives `None` only if it reads `None` (of a field of an `Option` type: exactly then).
Missing: numbers outside this type (`C75_violated`). -/
theorem C75_numbers_partial (into : GVal → Option GVal) (hi : Lossless into) (a : GetAttrs) (ident ft : Text)
    (read : Text → Option GVal) (g : Getter) (hg : g ∈ fieldGetters a ident ft) (e : Option IntKind)
    (he : RetElem g.ret e) (v w : GVal) (hv : read g.path = some v) (hfit : ∀ k ∈ e, ∀ n ∈ v.numbers, FitsInt k n)
    (hw : g.run into read = some w) :
    w.numbers = v.numbers ∧ (w = .absent → v = .absent) ∧
      (optLt.isPrefixOf (removeAll [' '] 0 ft) = true → v = .absent → w = .absent) := by
  obtain ⟨name, ret, path, o, rfl⟩ := fieldGetters_form hg
  unfold Getter.run at hw
  rw [hv] at hw
  simp only [Option.bind_some, Option.map_eq_some_iff] at hw
  obtain ⟨u, hu, rfl⟩ := hw
  rw [numbers_wrap]
  have hconv : (getterFor a name ret path ft o).conv = convFor ret (removeAll [' '] 0 ft) := rfl
  rw [hconv] at hu
  have hn : u.numbers = v.numbers ∧ (u = .absent ↔ v = .absent) := by
    rcases convFor_cases (ret := ret) he (removeAll [' '] 0 ft) with ⟨T, k, rfl, hT, hc⟩ | hc
    · rw [hc] at hu
      refine ⟨(runConv_cast hT hu).1.trans (map_asInt (intNamed_size hT) fun n hm => hfit k rfl n hm),
        (runConv_cast hT hu).2⟩
    · rw [hc] at hu
      exact runConv_into hi hu
  refine ⟨hn.1, ?_, ?_⟩
  · intro h
    split at h
    · exact absurd h (by simp)
    · exact hn.2.1 h
  · intro ho h
    have hwrap : (getterFor a name ret path ft o).wrap = false := by
      simp [getterFor, ho]
    rw [hwrap]
    exact hn.2.2 h

theorem lossless_some : Lossless some := by
  rintro v w h
  cases h
  exact ⟨rfl, Iff.rfl⟩

/-- `#[jget(get_option = "len:Vec<u8>")] size: Option<Vec<u32>>` on `Some(vec![1, 255])`. -/
example (w : GVal) (hw : (getterFor { getOptionList := [(['l', 'e', 'n'], ['V', 'e', 'c', '<', 'u', '8', '>'])] } ['l', 'e', 'n'] ['O', 'p', 't', 'i', 'o', 'n', '<', 'V', 'e', 'c', '<', 'u', '8', '>', '>'] ['s', 'i', 'z', 'e']
      ['O', 'p', 't', 'i', 'o', 'n', ' ', '<', ' ', 'V', 'e', 'c', ' ', '<', ' ', 'u', '3', '2', ' ', '>', ' ', '>', ' '] true).run some
      (fun p => if p = ['s', 'i', 'z', 'e'] then some (.present (.nums [1, 255])) else none) = some w) :
    w.numbers = [1, 255] ∧ w ≠ .absent := by
  have h := C75_numbers_partial some lossless_some { getOptionList := [(['l', 'e', 'n'], ['V', 'e', 'c', '<', 'u', '8', '>'])] } ['s', 'i', 'z', 'e']
    ['O', 'p', 't', 'i', 'o', 'n', ' ', '<', ' ', 'V', 'e', 'c', ' ', '<', ' ', 'u', '3', '2', ' ', '>', ' ', '>', ' '] _ _ (by decide +kernel) (some ⟨1, false⟩)
    (.optVec ['u', '8'] ⟨1, false⟩ (.sized false 1 (by decide))) (.present (.nums [1, 255])) w rfl
    (by rintro k ⟨⟩; simp [GVal.numbers, FitsInt]) hw
  exact ⟨h.1, fun e => nomatch h.2.1 e⟩

/-- The getter in this example gives a value. -/
example : (getterFor { getOptionList := [(['l', 'e', 'n'], ['V', 'e', 'c', '<', 'u', '8', '>'])] } ['l', 'e', 'n'] ['O', 'p', 't', 'i', 'o', 'n', '<', 'V', 'e', 'c', '<', 'u', '8', '>', '>'] ['s', 'i', 'z', 'e']
      ['O', 'p', 't', 'i', 'o', 'n', ' ', '<', ' ', 'V', 'e', 'c', ' ', '<', ' ', 'u', '3', '2', ' ', '>', ' ', '>', ' '] true).run some
      (fun p => if p = ['s', 'i', 'z', 'e'] then some (.present (.nums [1, 255])) else none) = some (.present (.nums [1, 255])) := by
  decide +kernel

/-- The tokens of the type `T`, `Vec<T>` and `Option<Vec<T>>`. -/
def tokOne (T : Text) : List Text := [T]
def tokVec (T : Text) : List Text := [['V', 'e', 'c'], ['<'], T, ['>']]
def tokOptVec (T : Text) : List Text := [['O', 'p', 't', 'i', 'o', 'n'], ['<'], ['V', 'e', 'c'], ['<'], T, ['>'], ['>']]

theorem vec_conv : ∀ T0 ∈ intNames, ∀ T1 ∈ intNames,
    (convFor (returnType (some (vecLt ++ T1 ++ ['>'])) (tokensText (tokOne T0)) false)
        (removeAll [' '] 0 (tokensText (tokOne T0))) = .castOne T1 ∧
     convFor (returnType (some (vecLt ++ T1 ++ ['>'])) (tokensText (tokOne T0)) true)
        (removeAll [' '] 0 (tokensText (tokOne T0))) = .castOne T1) ∧
    (convFor (returnType (some (vecLt ++ T1 ++ ['>'])) (tokensText (tokVec T0)) false)
        (removeAll [' '] 0 (tokensText (tokVec T0))) = (if T0 = T1 then .into true else .castVec T1) ∧
     convFor (returnType (some (vecLt ++ T1 ++ ['>'])) (tokensText (tokVec T0)) true)
        (removeAll [' '] 0 (tokensText (tokVec T0))) = (if T0 = T1 then .into true else .castVec T1)) ∧
    convFor (returnType (some (vecLt ++ T1 ++ ['>'])) (tokensText (tokOptVec T0)) true)
        (removeAll [' '] 0 (tokensText (tokOptVec T0))) = (if T0 = T1 then .intoSome true else .castOptVec T1) := by
  decide +kernel

theorem vec_opt : ∀ T0 ∈ intNames,
    optLt.isPrefixOf (removeAll [' '] 0 (tokensText (tokOne T0))) = false ∧
    optLt.isPrefixOf (removeAll [' '] 0 (tokensText (tokVec T0))) = false ∧
    optLt.isPrefixOf (removeAll [' '] 0 (tokensText (tokOptVec T0))) = true := by
  decide +kernel

theorem getterFor_run {into : GVal → Option GVal} {read : Text → Option GVal} {a : GetAttrs} {name ret path ft : Text}
    {b o : Bool} {c : GetConv} {v : GVal} (hr : read (removeAll ['r', '#'] 0 path) = some v)
    (hc : convFor ret (removeAll [' '] 0 ft) = c) (ho : optLt.isPrefixOf (removeAll [' '] 0 ft) = o) :
    (getterFor a name ret path ft b).run into read =
      (runConv into c v).map fun w => if !o && (a.option || b) then .present w else w := by
  subst hc ho
  simp only [Getter.run, getterFor, hr, Option.bind_some]
  rfl

/-- C75, vectors, partial: with `#[jget(get = "w:Vec<T>")]` a field of an integer type gives the vector of its value and
a field of a vector type the same numbers, for all integer types; with `get_option` they stand in `Some`, and for a field
of type `Option<Vec<_>>` are `None` when it is.  Missing: numbers that are not numbers of `T` (`C75_violated`). -/
theorem C75_vec_partial (into : GVal → Option GVal) (hi : ∀ l, into (.nums l) = some (.nums l))
    (T0 T1 : Text) (k0 k : IntKind) (h0 : IntType T0 k0) (h1 : IntType T1 k) (clone : Bool)
    (w ident : Text) (hw : '.' ∉ w) (hident : ¬ ['r', '#'] <:+: ident) (read : Text → Option GVal) :
    let gets := fun tokens => fieldGetters { clone := clone, getList := [(w, ['V', 'e', 'c', '<'] ++ T1 ++ ['>'])] } ident
      (tokensText tokens)
    let options := fun tokens => fieldGetters { clone := clone, getOptionList := [(w, ['V', 'e', 'c', '<'] ++ T1 ++ ['>'])] } ident
      (tokensText tokens)
    (∀ n, read ident = some (.num n) → FitsInt k n →
      (gets [T0]).map (·.run into read) = [some (.nums [n])] ∧
      (options [T0]).map (·.run into read) = [some (.present (.nums [n]))]) ∧
    (∀ l, read ident = some (.nums l) → (∀ n ∈ l, FitsInt k n) →
      (gets [['V', 'e', 'c'], ['<'], T0, ['>']]).map (·.run into read) = [some (.nums l)] ∧
      (options [['V', 'e', 'c'], ['<'], T0, ['>']]).map (·.run into read) = [some (.present (.nums l))]) ∧
    (∀ l, read ident = some (.present (.nums l)) → (∀ n ∈ l, FitsInt k n) →
      (options [['O', 'p', 't', 'i', 'o', 'n'], ['<'], ['V', 'e', 'c'], ['<'], T0, ['>'], ['>']]).map (·.run into read) =
        [some (.present (.nums l))]) ∧
    (read ident = some .absent →
      (options [['O', 'p', 't', 'i', 'o', 'n'], ['<'], ['V', 'e', 'c'], ['<'], T0, ['>'], ['>']]).map (·.run into read) = [some .absent]) := by
  have h0 := intNamed_mem (intType_named h0)
  have h1 := intType_named h1
  obtain ⟨⟨c1, c2⟩, ⟨c3, c4⟩, c5⟩ := vec_conv T0 h0 T1 (intNamed_mem h1)
  obtain ⟨o1, o2, o3⟩ := vec_opt T0 h0
  have hk := intNamed_size h1
  have hpath : removeAll ['r', '#'] 0 (getPath w ident) = ident := by
    unfold getPath
    rw [if_neg hw, removeAll_clean _ _ hident]
  intro gets options
  refine ⟨fun n hr hn => ⟨?_, ?_⟩, fun l hr hl => ⟨?_, ?_⟩, fun l hr hl => ?_, fun hr => ?_⟩ <;>
    rw [← hpath] at hr
  · refine congrArg (fun z => [z]) ((getterFor_run hr c1 o1).trans ?_)
    simp [runConv, h1, asInt_fits k hk n hn]
  · refine congrArg (fun z => [z]) ((getterFor_run hr c2 o1).trans ?_)
    simp [runConv, h1, asInt_fits k hk n hn]
  · refine congrArg (fun z => [z]) ((getterFor_run hr c3 o2).trans ?_)
    by_cases hT : T0 = T1
    · rw [if_pos hT]
      simp [runConv, hi]
    · rw [if_neg hT]
      simp [runConv, h1, map_asInt hk hl]
  · refine congrArg (fun z => [z]) ((getterFor_run hr c4 o2).trans ?_)
    by_cases hT : T0 = T1
    · rw [if_pos hT]
      simp [runConv, hi]
    · rw [if_neg hT]
      simp [runConv, h1, map_asInt hk hl]
  · refine congrArg (fun z => [z]) ((getterFor_run hr c5 o3).trans ?_)
    by_cases hT : T0 = T1
    · rw [if_pos hT]
      simp [runConv, hi]
    · rw [if_neg hT]
      simp [runConv, h1, map_asInt hk hl]
  · refine congrArg (fun z => [z]) ((getterFor_run hr c5 o3).trans ?_)
    by_cases hT : T0 = T1
    · rw [if_pos hT]
      simp [runConv]
    · rw [if_neg hT]
      simp [runConv, h1]

/-- `#[jget(get = "list:Vec<i32>")] list: Vec<u16>` -/
example : (fieldGetters { getList := [(['l', 'i', 's', 't'], ['V', 'e', 'c', '<', 'i', '3', '2', '>'])] } ['l', 'i', 's', 't'] (tokensText [['V', 'e', 'c'], ['<'], ['u', '1', '6'], ['>']])).map
    (·.run some (fun p => if p = ['l', 'i', 's', 't'] then some (.nums [1, 65535]) else none)) = [some (.nums [1, 65535])] :=
  (((C75_vec_partial some (fun _ => rfl) ['u', '1', '6'] ['i', '3', '2'] ⟨2, false⟩ ⟨4, true⟩ (.sized false 2 (by decide)) (.sized true 4 (by decide)) false ['l', 'i', 's', 't'] ['l', 'i', 's', 't']
    (by decide) (by decide +kernel) _).2.1 [1, 65535] rfl (by simp [FitsInt]))).1

/-- C75 fails for numbers that do not fit: `#[jget(get = "list:Vec<u8>")] list: Vec<u16>` gives `[0]` for `[256]`. -/
theorem C75_violated : ∃ a, GetAttrs.parse [.prop "get" ['"', 'l', 'i', 's', 't', ':', 'V', 'e', 'c', '<', 'u', '8', '>', '"']] = some a ∧
    (fieldGetters a ['l', 'i', 's', 't'] (tokensText [['V', 'e', 'c'], ['<'], ['u', '1', '6'], ['>']])).map
      (·.run some (fun p => if p = ['l', 'i', 's', 't'] then some (.nums [256]) else none)) = [some (.nums [0])] :=
  ⟨_, rfl, by decide +kernel⟩

/-- C75 fails for a path to a vector: the conversion goes by the type of the field, not of what the path leads to.  With
`#[jget(get = "data.list:Vec<u16>")] data: Data`, where `list: Vec<u16>`, the getter has the body
`vec![*value as u16]`, which is not for vectors. -/
theorem C75_path_violated : ∃ a, GetAttrs.parse [.prop "get" ['"', 'd', 'a', 't', 'a', '.', 'l', 'i', 's', 't', ':', 'V', 'e', 'c', '<', 'u', '1', '6', '>', '"']] = some a ∧
    (fieldGetters a ['d', 'a', 't', 'a'] (tokensText [['D', 'a', 't', 'a']])).map (fun g => (g.path, g.conv, g.run some (fun p =>
      if p = ['d', 'a', 't', 'a', '.', 'l', 'i', 's', 't'] then some (.nums [1]) else none))) =
      [(['d', 'a', 't', 'a', '.', 'l', 'i', 's', 't'], .castOne ['u', '1', '6'], none)] :=
  ⟨_, rfl, by decide +kernel⟩

/-! ## Enums -/

theorem containsOpt_infix : ∀ a b : Text, containsOpt (a ++ optLt ++ b) = true
  | [], b => by
    show containsOpt ('O' :: (['p', 't', 'i', 'o', 'n', '<'] ++ b)) = true
    rw [containsOpt, Bool.or_eq_true]
    left
    rw [List.isPrefixOf_iff_prefix]
    exact List.prefix_append optLt b
  | c :: a, b => by
    rw [List.cons_append, List.cons_append, containsOpt, containsOpt_infix a b, Bool.or_true]

theorem containsOpt_optionOf (t : Text) : containsOpt (optionOf t) = true := by
  unfold optionOf
  split
  · rename_i h
    obtain ⟨s, rfl⟩ := List.isPrefixOf_iff_prefix.1 h
    exact containsOpt_infix [] s
  · have := containsOpt_infix [] (t ++ ['>'])
    rwa [List.nil_append, ← List.append_assoc] at this

theorem find_arm {l : List GetArm} {a : GetArm} (hn : (l.map GetArm.name).Nodup) (ha : a ∈ l) :
    l.find? (fun b => b.name == a.name) = some a := by
  induction l with
  | nil => simp at ha
  | cons b l ih =>
    rw [List.map_cons, List.nodup_cons] at hn
    rw [List.find?_cons]
    rcases List.mem_cons.1 ha with rfl | ha
    · simp
    · have hne : b.name ≠ a.name := fun e => hn.1 (by rw [e]; exact List.mem_map_of_mem ha)
      have : (b.name == a.name) = false := beq_eq_false_iff_ne.2 hne
      rw [this]
      exact ih hn.2 ha

/-- The getters that a variant asks for: by the lists of the variant and by those of its named fields. -/
def AsksFor (v : GVariant) (x : Text) : Prop :=
  (∃ e ∈ v.attrs.getList ++ v.attrs.getOptionList, getterName e.1 = x) ∨
  ∃ f ∈ v.fields, ∃ g ∈ fieldGetters f.1 f.2.1 f.2.2, g.name = x

theorem variantArms_names (v : GVariant) (x : Text) : (∃ a ∈ variantArms v, a.name = x) ↔ AsksFor v x := by
  unfold variantArms AsksFor
  simp only [List.mem_append, List.mem_map, List.mem_flatMap]
  constructor
  · rintro ⟨_, (⟨e, he, rfl⟩ | ⟨e, he, rfl⟩) | ⟨f, hf, g, hg, rfl⟩, rfl⟩
    · exact Or.inl ⟨e, Or.inl he, rfl⟩
    · exact Or.inl ⟨e, Or.inr he, rfl⟩
    · exact Or.inr ⟨f, hf, g, hg, rfl⟩
  · rintro (⟨e, he | he, rfl⟩ | ⟨f, hf, g, hg, rfl⟩)
    · exact ⟨_, Or.inl (Or.inl ⟨e, he, rfl⟩), rfl⟩
    · exact ⟨_, Or.inl (Or.inr ⟨e, he, rfl⟩), rfl⟩
    · exact ⟨_, Or.inr ⟨f, hf, g, hg, rfl⟩, rfl⟩

/-- C75, enums, partial: `get_x` of an enum, on a value of variant `i`.  If the variant lists `w:T` for it with
`get_option`, it is `Some` of what stands at `w` below the field of the variant; with `get`, what stands there; a named
field gives what its own getter gives.  If the variant does not ask for it but another does, and none with `get`, it is
`None`.  Missing: several getters of one name in a variant, of which the first is given. -/
theorem C75_enum_partial (into : GVal → Option GVal) (inner field : Text → Option GVal) (vs : List GVariant) (i : Nat)
    (v : GVariant) (hi : vs[i]? = some v) (hn : ((variantArms v).map GetArm.name).Nodup) (x : Text) (hx : GetName x) :
    (∀ w t, (w, t) ∈ v.attrs.getOptionList → Names w x →
      enumRun into inner field vs x i = (inner w).map .present) ∧
    (∀ w t, (w, t) ∈ v.attrs.getList → Names w x → enumRun into inner field vs x i = inner w) ∧
    (∀ f ∈ v.fields, ∀ g ∈ fieldGetters f.1 f.2.1 f.2.2, g.name = x →
      enumRun into inner field vs x i = g.run into field) ∧
    (¬ AsksFor v x → (∃ u ∈ vs, AsksFor u x) → (∀ u ∈ vs, ∀ e ∈ u.attrs.getList, getterName e.1 ≠ x) →
      enumRun into inner field vs x i = some .absent) := by
  have hg : vs.getD i {} = v := by simp [List.getD, hi]
  have found : ∀ a ∈ variantArms v, a.name = x →
      (variantArms (vs.getD i {})).find? (fun b => b.name == x) = some a := by
    rintro a ha rfl
    rw [hg]
    exact find_arm hn ha
  refine ⟨fun w t hm hw => ?_, fun w t hm hw => ?_, fun f hf g hgm hgx => ?_, fun hno hsome hget => ?_⟩
  · have ha := found _ (List.mem_append_left _ (List.mem_append_right _ (List.mem_map_of_mem hm))) (C75_name w x hx hw)
    unfold enumRun
    rw [ha]
    simp only [returnType_option, containsOpt_optionOf, Bool.not_true, Bool.false_and, Bool.not_false, if_true]
  · have ha := found _ (List.mem_append_left _ (List.mem_append_left _ (List.mem_map_of_mem hm))) (C75_name w x hx hw)
    unfold enumRun
    rw [ha]
    simp
  · have ha := found { name := g.name, ret := g.ret, isMatch := true, body := .field f.2.1 g }
      (List.mem_append_right _ (List.mem_flatMap.2 ⟨f, hf, List.mem_map_of_mem hgm⟩)) hgx
    unfold enumRun
    rw [ha]
  · have hnone : (variantArms (vs.getD i {})).find? (fun b => b.name == x) = none := by
      rw [hg, List.find?_eq_none]
      intro a ha
      simp only [beq_iff_eq]
      exact fun e => hno ((variantArms_names v x).1 ⟨a, ha, e⟩)
    have hall : ∀ a ∈ (vs.flatMap variantArms).filter (fun a => a.name == x), a.isMatch = true := by
      intro a ha
      simp only [List.mem_filter, List.mem_flatMap, beq_iff_eq] at ha
      obtain ⟨⟨u, hu, ha⟩, hax⟩ := ha
      unfold variantArms at ha
      simp only [List.mem_append, List.mem_map, List.mem_flatMap] at ha
      rcases ha with (⟨e, he, rfl⟩ | ⟨e, he, rfl⟩) | ⟨f, hf, g, hg, rfl⟩
      · exact absurd hax (hget u hu e he)
      · rfl
      · rfl
    obtain ⟨u, hu, hask⟩ := hsome
    obtain ⟨a, ha, hax⟩ := (variantArms_names u x).2 hask
    have hne : (vs.flatMap variantArms).filter (fun a => a.name == x) ≠ [] := by
      intro e
      have : a ∈ (vs.flatMap variantArms).filter (fun a => a.name == x) := by
        simp only [List.mem_filter, List.mem_flatMap, beq_iff_eq]
        exact ⟨⟨u, hu, ha⟩, hax⟩
      rw [e] at this
      simp at this
    unfold enumRun enumHead
    rw [hnone, List.getLast?_eq_some_getLast hne]
    have := hall _ (List.getLast_mem hne)
    simp only [Option.map_some, this]

/-- The enum of crates/jget-rs/tests/test_enum_struct.rs. -/
def exampleEnum : List GVariant :=
  [{ attrs := { getOptionList := [(['v', 'a', 'l', 'u', 'e'], ['O', 'p', 't', 'i', 'o', 'n', '<', 'u', '1', '6', '>'])] } },
   { attrs := { getOptionList := [(['v', 'a', 'l', 'u', 'e'], ['O', 'p', 't', 'i', 'o', 'n', '<', 'u', '1', '6', '>']), (['d', 'a', 't', 'a'], ['O', 'p', 't', 'i', 'o', 'n', '<', 'u', '1', '6', '>']),
      (['g', 'e', 't', '_', 'o', 't', 'h', 'e', 'r', '(', ')'], ['O', 'p', 't', 'i', 'o', 'n', '<', 'S', 't', 'r', 'i', 'n', 'g', '>'])] } }]

theorem getName_other : GetName ['o', 't', 'h', 'e', 'r'] := by
  constructor <;> decide +kernel

example : enumRun some (fun p => if p = ['g', 'e', 't', '_', 'o', 't', 'h', 'e', 'r', '(', ')'] then some (.other ['1', '2', '3']) else none) (fun _ => none) exampleEnum
      ['o', 't', 'h', 'e', 'r'] 1 = some (.present (.other ['1', '2', '3'])) ∧
    enumRun some (fun p => if p = ['g', 'e', 't', '_', 'o', 't', 'h', 'e', 'r', '(', ')'] then some (.other ['1', '2', '3']) else none) (fun _ => none) exampleEnum
      ['o', 't', 'h', 'e', 'r'] 0 = some .absent := by
  constructor
  · exact (C75_enum_partial some _ _ exampleEnum 1 _ rfl (by decide +kernel) ['o', 't', 'h', 'e', 'r'] getName_other).1
      ['g', 'e', 't', '_', 'o', 't', 'h', 'e', 'r', '(', ')'] ['O', 'p', 't', 'i', 'o', 'n', '<', 'S', 't', 'r', 'i', 'n', 'g', '>'] (by decide) (.call ['o', 't', 'h', 'e', 'r'])
  · refine (C75_enum_partial some _ _ exampleEnum 0 _ rfl (by decide +kernel) ['o', 't', 'h', 'e', 'r'] getName_other).2.2.2 ?_ ?_ ?_
    · rw [← variantArms_names]
      decide +kernel
    · refine ⟨_, List.mem_cons_of_mem _ List.mem_cons_self, ?_⟩
      rw [← variantArms_names]
      decide +kernel
    · intro u hu
      simp only [exampleEnum, List.mem_cons, List.not_mem_nil, or_false] at hu
      rcases hu with rfl | rfl <;> simp

end JBytes
