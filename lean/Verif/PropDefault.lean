import Verif.Default
import Verif.PropTagText
/-!
# C73: what `Default::default()` of a type with `#[derive(Jdefault)]` is

The specification speaks about the attributes as written: `States as e` – some attribute of the list, of whichever of
the three names, gives the default `e` – and `Marks as` – one of them marks the variant.
-/

namespace JBytes

/-- The two spellings of a default with a value. -/
def DefaultKey (k : String) : Prop := k = "default" ∨ k = "default_value"

/-- The spellings of the mark of a variant. -/
def DefaultTag (n : String) : Prop := n = "default" ∨ n = "default_value" ∨ n = "enum_default" ∨ n = "branch_default"

/-- The items of an attribute that is for this macro. -/
def DAttribute.items : DAttribute → Option (List AttrItem)
  | .jbytes is | .jppe is | .jd is => some is
  | .other => none

/-- The items give the default `e` (the last one, if there are several). -/
def ItemsState (is : List AttrItem) (e : Text) : Prop :=
  ∃ pre k lit post, is = pre ++ .prop k lit :: post ∧ DefaultKey k ∧ litText lit = e ∧
    ∀ k' lit', AttrItem.prop k' lit' ∈ post → ¬ DefaultKey k'

/-- An attribute of the list gives the default `e`. -/
def States (as : List DAttribute) (e : Text) : Prop := ∃ a ∈ as, ∃ is, a.items = some is ∧ ItemsState is e

/-- An attribute of the list marks the variant without a value. -/
def Marks (as : List DAttribute) : Prop := ∃ a ∈ as, ∃ is, a.items = some is ∧ ∃ n, .tag n ∈ is ∧ DefaultTag n

/-- At most one attribute of the list is for this macro. -/
def OneAttr (as : List DAttribute) : Prop := (as.filter fun a => a.items.isSome).length ≤ 1

/-- Every item in an attribute of the macro's own name is known to it. -/
def KnownItems (as : List DAttribute) : Prop :=
  ∀ is, DAttribute.jd is ∈ as → ∀ i ∈ is,
    match i with
    | .tag n => DefaultTag n
    | .prop k _ => DefaultKey k

/-- The type is a path without generic arguments. -/
def PathType (ty : Text) : Prop := ∀ c ∈ ty, c.isAlphanum = true ∨ c = '_' ∨ c = ':'

/-- There is no discriminant, or a decimal or hexadecimal number that an `isize` can have. -/
def DiscIs (d : Option Text) : Prop := ∀ s, d = some s → ∃ n, RustNumber s n ∧ n ≤ isizeMax

theorem PathType.path {ty : Text} (h : PathType ty) : exprPath ty = true := by
  unfold exprPath
  rw [List.all_eq_true]
  intro c hc
  rcases h c hc with h | rfl | rfl
  · rw [h]; rfl
  · decide
  · decide

theorem DiscIs.reads {d : Option Text} (h : DiscIs d) : discReads d = true := by
  cases d with
  | none => rfl
  | some s =>
    obtain ⟨n, hn, hle⟩ := h s rfl
    have hlt : n < usizeMod := Nat.lt_of_le_of_lt hle isizeMax_lt
    have : (if startsHex s then usizeFromRadix 16 (s.drop 2) else usizeFromRadix 10 s) = some n := by
      cases hn with
      | dec h =>
        rw [startsHex_no s (h.plain (.inl rfl)).2.2.1, if_neg (by decide)]
        exact (numeral_radix h hlt).2
      | @hex s _ h =>
        show usizeFromRadix 16 s = some n
        exact (usizeFromRadix_iff 16 (.inr rfl) s n).2 ⟨hlt, [], s, rfl, .inl rfl, h⟩
    unfold discReads
    simp only [this]
    exact decide_eq_true hle

/-- What the value `v` of a field must be. -/
def FieldIs {V : Type} (I : DefaultInterp V) (f : DField) (v : V) : Prop :=
  (∀ e, States f.attrs e → v = I.value e) ∧ ((∀ e, ¬ States f.attrs e) → v = I.typeDefault f.ty)

/-- The same for all fields, in order. -/
inductive FieldsAre {V : Type} (I : DefaultInterp V) : List DField → List V → Prop
  | nil : FieldsAre I [] []
  | cons {f : DField} {v : V} {fs : List DField} {vs : List V} :
    FieldIs I f v → FieldsAre I fs vs → FieldsAre I (f :: fs) (v :: vs)

/-! ## Items -/

/-- The last default among the items. -/
def lastDefault : List AttrItem → Option Text
  | [] => none
  | .tag _ :: is => lastDefault is
  | .prop k lit :: is =>
    match lastDefault is with
    | some e => some e
    | none => if k = "default_value" ∨ k = "default" then some (litText lit) else none

theorem lastDefault_none {is : List AttrItem} (h : lastDefault is = none) :
    ∀ k lit, AttrItem.prop k lit ∈ is → ¬ DefaultKey k := by
  induction is with
  | nil => intro k lit hm; cases hm
  | cons i is ih =>
    cases i with
    | tag n =>
      intro k lit hm
      rcases List.mem_cons.1 hm with he | hm
      · cases he
      · exact ih h k lit hm
    | prop k0 l0 =>
      simp only [lastDefault] at h
      cases hl : lastDefault is with
      | some e => rw [hl] at h; cases h
      | none =>
        rw [hl] at h
        simp only at h
        intro k lit hm
        rcases List.mem_cons.1 hm with he | hm
        · cases he
          intro hk
          rw [if_pos (Or.symm hk)] at h
          cases h
        · exact ih hl k lit hm

theorem lastDefault_iff {is : List AttrItem} {e : Text} : lastDefault is = some e ↔ ItemsState is e := by
  induction is with
  | nil =>
    constructor
    · intro h; cases h
    · rintro ⟨pre, k, lit, post, h, -⟩
      cases pre <;> cases h
  | cons i is ih =>
    constructor
    · intro h
      cases i with
      | tag n =>
        obtain ⟨pre, k, lit, post, h1, h2⟩ := ih.1 h
        exact ⟨.tag n :: pre, k, lit, post, by rw [h1]; rfl, h2⟩
      | prop k0 l0 =>
        simp only [lastDefault] at h
        cases hl : lastDefault is with
        | some e' =>
          rw [hl] at h
          cases h
          obtain ⟨pre, k, lit, post, h1, h2⟩ := ih.1 hl
          exact ⟨.prop k0 l0 :: pre, k, lit, post, by rw [h1]; rfl, h2⟩
        | none =>
          rw [hl] at h
          by_cases hk : k0 = "default_value" ∨ k0 = "default"
          · simp only [if_pos hk] at h
            cases h
            exact ⟨[], k0, l0, is, rfl, Or.symm hk, rfl, lastDefault_none hl⟩
          · simp only [if_neg hk] at h
            cases h
    · rintro ⟨pre, k, lit, post, h1, hk, he, hp⟩
      cases pre with
      | nil =>
        obtain ⟨rfl, rfl⟩ := List.cons.inj h1
        have hn : lastDefault is = none := by
          cases hl : lastDefault is with
          | none => rfl
          | some e' =>
            -- a default further on would be one after the last
            have : ∀ (l : List AttrItem) e', lastDefault l = some e' → ∃ k' lit', AttrItem.prop k' lit' ∈ l ∧ DefaultKey k' := by
              intro l
              induction l with
              | nil => intro _ h; cases h
              | cons j js ihj =>
                intro e' h
                cases j with
                | tag n =>
                  obtain ⟨k', l', hm, hk'⟩ := ihj e' h
                  exact ⟨k', l', List.mem_cons_of_mem _ hm, hk'⟩
                | prop k1 l1 =>
                  simp only [lastDefault] at h
                  cases hj : lastDefault js with
                  | some e2 =>
                    obtain ⟨k', l', hm, hk'⟩ := ihj e2 hj
                    exact ⟨k', l', List.mem_cons_of_mem _ hm, hk'⟩
                  | none =>
                    rw [hj] at h
                    by_cases hk : k1 = "default_value" ∨ k1 = "default"
                    · exact ⟨k1, l1, List.mem_cons_self, Or.symm hk⟩
                    · simp only [if_neg hk] at h
                      cases h
            obtain ⟨k', l', hm, hk'⟩ := this is e' hl
            exact absurd hk' (hp k' l' hm)
        simp only [lastDefault, hn]
        rw [if_pos (Or.symm hk), he]
      | cons j pre =>
        obtain ⟨rfl, h2⟩ := List.cons.inj h1
        have := ih.2 ⟨pre, k, lit, post, h2, hk, he, hp⟩
        cases i with
        | tag n => exact this
        | prop k0 l0 => simp only [lastDefault, this]

theorem fieldItems_eq {is : List AttrItem} {t u : DText} (h : is.foldlM DText.fieldItem t = some u) :
    u.isJbytes = t.isJbytes ∧ u.defaultValue = (lastDefault is <|> t.defaultValue) ∧
      (u.defaultBool = true ↔ t.defaultBool = true ∨ ∃ n, AttrItem.tag n ∈ is ∧ DefaultTag n) := by
  induction is generalizing t with
  | nil => cases h; simp [lastDefault]
  | cons i is ih =>
    rw [List.foldlM_cons] at h
    cases hi : DText.fieldItem t i with
    | none => rw [hi] at h; cases h
    | some t' =>
      rw [hi] at h
      obtain ⟨h1, h2, h3⟩ := ih h
      cases i with
      | tag n =>
        simp only [DText.fieldItem] at hi
        by_cases hn : n = "default_value" ∨ n = "default" ∨ n = "enum_default" ∨ n = "branch_default"
        · rw [if_pos hn] at hi
          cases hi
          refine ⟨h1, h2, ?_⟩
          rw [h3]
          have hd : DefaultTag n := by
            rcases hn with h | h | h | h <;> simp [DefaultTag, h]
          constructor
          · intro _; exact Or.inr ⟨n, List.mem_cons_self, hd⟩
          · intro _; exact Or.inl rfl
        · rw [if_neg hn] at hi
          have hd : ¬ DefaultTag n := by
            rintro (h | h | h | h) <;> exact hn (by simp [h])
          have ht : t' = t := by
            by_cases hj : t.isJbytes = true
            · rw [if_pos hj] at hi; cases hi; rfl
            · rw [if_neg hj] at hi; cases hi
          subst ht
          refine ⟨h1, h2, ?_⟩
          rw [h3]
          constructor
          · rintro (h | ⟨m, hm, hd'⟩)
            · exact Or.inl h
            · exact Or.inr ⟨m, List.mem_cons_of_mem _ hm, hd'⟩
          · rintro (h | ⟨m, hm, hd'⟩)
            · exact Or.inl h
            · rcases List.mem_cons.1 hm with he | hm
              · cases he; exact absurd hd' hd
              · exact Or.inr ⟨m, hm, hd'⟩
      | prop k lit =>
        have key : (u.defaultBool = true ↔ t'.defaultBool = true ∨ ∃ n, AttrItem.tag n ∈ AttrItem.prop k lit :: is ∧ DefaultTag n) := by
          rw [h3]
          simp
        simp only [DText.fieldItem] at hi
        by_cases hk : k = "default_value" ∨ k = "default"
        · rw [if_pos hk] at hi
          cases hi
          refine ⟨h1, ?_, key⟩
          rw [h2]
          simp only [lastDefault]
          cases lastDefault is <;> simp [hk]
        · rw [if_neg hk] at hi
          have ht : t' = t := by
            by_cases hj : t.isJbytes = true
            · rw [if_pos hj] at hi; cases hi; rfl
            · rw [if_neg hj] at hi; cases hi
          subst ht
          refine ⟨h1, ?_, key⟩
          rw [h2]
          simp only [lastDefault]
          cases lastDefault is <;> simp [hk]

/-- One attribute, as `FieldAttributes::parse` reads it. -/
theorem field_eq {a : DAttribute} {r : Option DText} (h : a.field = some r) :
    (a.items = none ∧ r = none) ∨ ∃ is t, a.items = some is ∧ r = some t ∧ t.defaultValue = lastDefault is ∧
      (t.defaultBool = true ↔ ∃ n, AttrItem.tag n ∈ is ∧ DefaultTag n) := by
  cases a with
  | other => cases h; exact Or.inl ⟨rfl, rfl⟩
  | jbytes is =>
    right
    simp only [DAttribute.field] at h
    cases hf : is.foldlM DText.fieldItem { isJbytes := true } with
    | none => rw [hf] at h; cases h
    | some t =>
      rw [hf] at h; cases h
      obtain ⟨-, h2, h3⟩ := fieldItems_eq hf
      exact ⟨is, t, rfl, rfl, by rw [h2]; cases lastDefault is <;> rfl, by rw [h3]; simp⟩
  | jppe is =>
    right
    simp only [DAttribute.field] at h
    cases hf : is.foldlM DText.fieldItem { isJbytes := true } with
    | none => rw [hf] at h; cases h
    | some t =>
      rw [hf] at h; cases h
      obtain ⟨-, h2, h3⟩ := fieldItems_eq hf
      exact ⟨is, t, rfl, rfl, by rw [h2]; cases lastDefault is <;> rfl, by rw [h3]; simp⟩
  | jd is =>
    right
    simp only [DAttribute.field] at h
    cases hf : is.foldlM DText.fieldItem {} with
    | none => rw [hf] at h; cases h
    | some t =>
      rw [hf] at h; cases h
      obtain ⟨-, h2, h3⟩ := fieldItems_eq hf
      exact ⟨is, t, rfl, rfl, by rw [h2]; cases lastDefault is <;> rfl, by rw [h3]; simp⟩

/-- All attributes of a field or variant that has at most one for the macro. -/
theorem firstText_eq {as : List DAttribute} {t : DText} (ho : OneAttr as) (h : firstText DAttribute.field as = some t) :
    (∀ e, t.defaultValue = some e ↔ States as e) ∧ (t.defaultBool = true ↔ Marks as) := by
  induction as with
  | nil =>
    cases h
    exact ⟨fun e => ⟨(fun h => nomatch h), (fun ⟨_, ha, _⟩ => nomatch ha)⟩,
      ⟨(fun h => nomatch h), (fun ⟨_, ha, _⟩ => nomatch ha)⟩⟩
  | cons a as ih =>
    simp only [firstText] at h
    cases hf : a.field with
    | none => rw [hf] at h; cases h
    | some r =>
      rw [hf] at h
      rcases field_eq hf with ⟨hi, rfl⟩ | ⟨is, t', hi, rfl, hv, hb⟩
      · have ho' : OneAttr as := by
          unfold OneAttr at ho ⊢
          rw [List.filter_cons] at ho
          simpa [hi] using ho
        obtain ⟨h1, h2⟩ := ih ho' h
        constructor
        · intro e
          rw [h1]
          constructor
          · rintro ⟨b, hb, hs⟩; exact ⟨b, List.mem_cons_of_mem _ hb, hs⟩
          · rintro ⟨b, hb, is, hbi, hs⟩
            rcases List.mem_cons.1 hb with rfl | hb
            · rw [hi] at hbi; cases hbi
            · exact ⟨b, hb, is, hbi, hs⟩
        · rw [h2]
          constructor
          · rintro ⟨b, hb, hs⟩; exact ⟨b, List.mem_cons_of_mem _ hb, hs⟩
          · rintro ⟨b, hb, is, hbi, hs⟩
            rcases List.mem_cons.1 hb with rfl | hb
            · rw [hi] at hbi; cases hbi
            · exact ⟨b, hb, is, hbi, hs⟩
      · cases h
        have hrest : ∀ b ∈ as, b.items = none := by
          unfold OneAttr at ho
          rw [List.filter_cons] at ho
          simp only [hi, Option.isSome_some, if_true, List.length_cons] at ho
          have h0 : as.filter (fun a => a.items.isSome) = [] := List.length_eq_zero_iff.1 (by omega)
          intro b hb
          have := List.filter_eq_nil_iff.1 h0 b hb
          cases hb' : b.items with
          | none => rfl
          | some _ => rw [hb'] at this; simp at this
        constructor
        · intro e
          rw [hv, lastDefault_iff]
          constructor
          · intro hs; exact ⟨a, List.mem_cons_self, is, hi, hs⟩
          · rintro ⟨b, hb, is', hbi, hs⟩
            rcases List.mem_cons.1 hb with rfl | hb
            · rw [hi] at hbi; cases hbi; exact hs
            · rw [hrest b hb] at hbi; cases hbi
        · rw [hb]
          constructor
          · intro hs; exact ⟨a, List.mem_cons_self, is, hi, hs⟩
          · rintro ⟨b, hb, is', hbi, hs⟩
            rcases List.mem_cons.1 hb with rfl | hb
            · rw [hi] at hbi; cases hbi; exact hs
            · rw [hrest b hb] at hbi; cases hbi

theorem fieldItems_some {is : List AttrItem} {t : DText}
    (h : t.isJbytes = true ∨ ∀ i ∈ is, match i with | .tag n => DefaultTag n | .prop k _ => DefaultKey k) :
    ∃ u, is.foldlM DText.fieldItem t = some u := by
  induction is generalizing t with
  | nil => exact ⟨t, rfl⟩
  | cons i is ih =>
    have step : ∃ t', DText.fieldItem t i = some t' ∧ t'.isJbytes = t.isJbytes := by
      cases i with
      | tag n =>
        simp only [DText.fieldItem]
        by_cases hn : n = "default_value" ∨ n = "default" ∨ n = "enum_default" ∨ n = "branch_default"
        · rw [if_pos hn]; exact ⟨_, rfl, rfl⟩
        · rw [if_neg hn]
          rcases h with h | h
          · rw [if_pos h]; exact ⟨_, rfl, rfl⟩
          · have := h _ List.mem_cons_self
            rcases this with h | h | h | h <;> exact absurd (by simp [h]) hn
      | prop k lit =>
        simp only [DText.fieldItem]
        by_cases hk : k = "default_value" ∨ k = "default"
        · rw [if_pos hk]; exact ⟨_, rfl, rfl⟩
        · rw [if_neg hk]
          rcases h with h | h
          · rw [if_pos h]; exact ⟨_, rfl, rfl⟩
          · exact absurd (Or.symm (h _ List.mem_cons_self)) hk
    obtain ⟨t', h1, h2⟩ := step
    rw [List.foldlM_cons, h1]
    refine ih ?_
    rcases h with h | h
    · exact Or.inl (h2.trans h)
    · exact Or.inr fun j hj => h j (List.mem_cons_of_mem _ hj)

theorem firstText_some {as : List DAttribute} (hk : KnownItems as) : ∃ t, firstText DAttribute.field as = some t := by
  induction as with
  | nil => exact ⟨_, rfl⟩
  | cons a as ih =>
    have ih := ih fun is h => hk is (List.mem_cons_of_mem _ h)
    simp only [firstText]
    cases a with
    | other => exact ih
    | jbytes is =>
      obtain ⟨u, hu⟩ := fieldItems_some (is := is) (t := { isJbytes := true }) (Or.inl rfl)
      simp only [DAttribute.field, hu]; exact ⟨u, rfl⟩
    | jppe is =>
      obtain ⟨u, hu⟩ := fieldItems_some (is := is) (t := { isJbytes := true }) (Or.inl rfl)
      simp only [DAttribute.field, hu]; exact ⟨u, rfl⟩
    | jd is =>
      obtain ⟨u, hu⟩ := fieldItems_some (is := is) (t := {}) (Or.inr (hk is List.mem_cons_self))
      simp only [DAttribute.field, hu]; exact ⟨u, rfl⟩

/-! ## Fields -/

variable {V : Type} (I : DefaultInterp V)

theorem fieldDefault_is {angle : Bool} {f : DField} {v : V} (ho : OneAttr f.attrs) (h : fieldDefault I angle f = some v) :
    FieldIs I f v := by
  unfold fieldDefault at h
  cases hf : firstText DAttribute.field f.attrs with
  | none => rw [hf] at h; cases h
  | some t =>
    rw [hf] at h
    obtain ⟨h1, -⟩ := firstText_eq ho hf
    simp only [Option.bind_some] at h
    cases hd : t.defaultValue with
    | some e =>
      rw [hd] at h
      cases h
      refine ⟨fun e' he' => ?_, fun hn => absurd ((h1 e).1 hd) (hn e)⟩
      have := (h1 e').2 he'
      rw [hd] at this; cases this; rfl
    | none =>
      rw [hd] at h
      refine ⟨fun e' he' => ?_, fun _ => ?_⟩
      · have := (h1 e').2 he'
        rw [hd] at this; cases this
      · simp only at h
        split at h
        · cases h; rfl
        · cases h

theorem mapM_fields {angle : Bool} {fs : List DField} {vs : List V} (ho : ∀ f ∈ fs, OneAttr f.attrs)
    (h : fs.mapM (fieldDefault I angle) = some vs) : FieldsAre I fs vs := by
  induction fs generalizing vs with
  | nil => cases h; exact .nil
  | cons f fs ih =>
    rw [List.mapM_cons] at h
    cases hf : fieldDefault I angle f with
    | none => rw [hf] at h; cases h
    | some v =>
      cases hs : fs.mapM (fieldDefault I angle) with
      | none => rw [hf, hs] at h; cases h
      | some ws =>
        rw [hf, hs] at h
        cases h
        exact .cons (fieldDefault_is I (ho f List.mem_cons_self) hf)
          (ih (fun g hg => ho g (List.mem_cons_of_mem _ hg)) hs)

theorem shapeDefault_is {s : DShape} {vs : List V} (ho : ∀ f ∈ s.fields, OneAttr f.attrs)
    (h : shapeDefault I s = some vs) : FieldsAre I s.fields vs := by
  cases s with
  | unit => cases h; exact .nil
  | named fs => exact mapM_fields I ho h
  | tuple fs => exact mapM_fields I ho h

theorem shapeDefault_some {s : DShape} (hk : ∀ f ∈ s.fields, KnownItems f.attrs)
    (hp : ∀ f ∈ s.fields, exprPath f.ty = true) : ∃ vs, shapeDefault I s = some vs := by
  have mapM_some : ∀ (angle : Bool) (fs : List DField), (∀ f ∈ fs, KnownItems f.attrs) →
      (∀ f ∈ fs, exprPath f.ty = true) → ∃ vs, fs.mapM (fieldDefault I angle) = some vs := by
    intro angle fs
    induction fs with
    | nil => intro _ _; exact ⟨[], rfl⟩
    | cons f fs ih =>
      intro hk hp
      obtain ⟨vs, hvs⟩ := ih (fun g hg => hk g (List.mem_cons_of_mem _ hg)) (fun g hg => hp g (List.mem_cons_of_mem _ hg))
      obtain ⟨t, ht⟩ := firstText_some (hk f List.mem_cons_self)
      have hf : ∃ v, fieldDefault I angle f = some v := by
        unfold fieldDefault
        rw [ht]
        simp only [Option.bind_some]
        cases t.defaultValue with
        | some e => exact ⟨_, rfl⟩
        | none => simp [hp f List.mem_cons_self]
      obtain ⟨v, hv⟩ := hf
      rw [List.mapM_cons, hv, hvs]
      exact ⟨v :: vs, rfl⟩
  cases s with
  | unit => exact ⟨[], rfl⟩
  | named fs => exact mapM_some false fs hk hp
  | tuple fs => exact mapM_some true fs hk hp

/-! ## The claim -/

theorem containerItems_eq {is : List AttrItem} {t u : DText} (h : is.foldlM DText.containerItem t = some u) :
    u.defaultValue = (lastDefault is <|> t.defaultValue) := by
  induction is generalizing t with
  | nil => cases h; simp [lastDefault]
  | cons i is ih =>
    rw [List.foldlM_cons] at h
    cases hi : DText.containerItem t i with
    | none => rw [hi] at h; cases h
    | some t' =>
      rw [hi] at h
      have h2 := ih h
      cases i with
      | tag n =>
        simp only [DText.containerItem] at hi
        by_cases hj : t.isJbytes = true
        · rw [if_pos hj] at hi; cases hi; exact h2
        · rw [if_neg hj] at hi; cases hi
      | prop k lit =>
        simp only [DText.containerItem] at hi
        by_cases hk : k = "default_value" ∨ k = "default"
        · rw [if_pos hk] at hi
          cases hi
          rw [h2]
          simp only [lastDefault]
          cases lastDefault is <;> simp [hk]
        · rw [if_neg hk] at hi
          by_cases hj : t.isJbytes = true
          · rw [if_pos hj] at hi
            cases hi
            rw [h2]
            simp only [lastDefault]
            cases lastDefault is <;> simp [hk]
          · rw [if_neg hj] at hi; cases hi

/-- All attributes of a type that has at most one for the macro. -/
theorem firstText_container {as : List DAttribute} {t : DText} (ho : OneAttr as) (hj : ∀ is, .jppe is ∉ as)
    (h : firstText DAttribute.container as = some t) : ∀ e, t.defaultValue = some e ↔ States as e := by
  induction as with
  | nil =>
    cases h
    exact fun e => ⟨(fun h => nomatch h), (fun ⟨_, ha, _⟩ => nomatch ha)⟩
  | cons a as ih =>
    have hj' : ∀ is, DAttribute.jppe is ∉ as := fun is hm => hj is (List.mem_cons_of_mem _ hm)
    have own : ∀ is (t0 : DText), t0.defaultValue = none → a.items = some is → a.container = (is.foldlM DText.containerItem t0).map some →
        ∀ e, t.defaultValue = some e ↔ States (a :: as) e := by
      intro is t0 h0 hi hcont e
      simp only [firstText] at h
      cases hf : is.foldlM DText.containerItem t0 with
      | none => rw [hcont, hf] at h; cases h
      | some u =>
        rw [hcont, hf] at h
        cases h
        have hrest : ∀ b ∈ as, b.items = none := by
          unfold OneAttr at ho
          rw [List.filter_cons] at ho
          simp only [hi, Option.isSome_some, if_true, List.length_cons] at ho
          have h0 : as.filter (fun a => a.items.isSome) = [] := List.length_eq_zero_iff.1 (by omega)
          intro b hb
          have := List.filter_eq_nil_iff.1 h0 b hb
          cases hb' : b.items with
          | none => rfl
          | some _ => rw [hb'] at this; simp at this
        have hv : t.defaultValue = lastDefault is := by
          rw [containerItems_eq hf, h0]
          cases lastDefault is <;> rfl
        rw [hv, lastDefault_iff]
        constructor
        · intro hs; exact ⟨a, List.mem_cons_self, is, hi, hs⟩
        · rintro ⟨b, hb, is', hbi, hs⟩
          rcases List.mem_cons.1 hb with rfl | hb
          · rw [hi] at hbi; cases hbi; exact hs
          · rw [hrest b hb] at hbi; cases hbi
    cases a with
    | jppe is => exact absurd List.mem_cons_self (hj is)
    | jbytes is => exact own is _ rfl rfl rfl
    | jd is => exact own is _ rfl rfl rfl
    | other =>
      have ho' : OneAttr as := ho
      intro e
      rw [ih ho' hj' h e]
      constructor
      · rintro ⟨b, hb, hs⟩; exact ⟨b, List.mem_cons_of_mem _ hb, hs⟩
      · rintro ⟨b, hb, is, hbi, hs⟩
        rcases List.mem_cons.1 hb with rfl | hb
        · cases hbi
        · exact ⟨b, hb, is, hbi, hs⟩

/-- **C73** (structs): with at most one attribute for the macro on the type and on each field, and no `jppe` on the type, a
default on the type gives the arguments of the constructor; without one every field of `Default::default()` has the
default that its attributes give, and otherwise the default of its type.  Full statement: with any attributes
(`C73_violated_attrs`), and for fields of every type (`C73_violated_types`). -/
theorem C73_struct_partial {container : List DAttribute} {s : DShape} {vs : List V}
    (ho : ∀ f ∈ s.fields, OneAttr f.attrs) (hc : OneAttr container) (hj : ∀ is, .jppe is ∉ container)
    (h : structDefault I container s = some vs) :
    (∀ e, States container e → vs = I.args e) ∧ ((∀ e, ¬ States container e) → FieldsAre I s.fields vs) := by
  unfold structDefault at h
  cases hf : firstText DAttribute.container container with
  | none => rw [hf] at h; cases h
  | some t =>
    rw [hf] at h
    simp only [Option.bind_some] at h
    have ht := firstText_container hc hj hf
    cases hd : t.defaultValue with
    | none =>
      rw [hd] at h ht
      exact ⟨fun e he => (nomatch (ht e).2 he), fun _ => shapeDefault_is I ho h⟩
    | some e0 =>
      rw [hd] at h ht
      refine ⟨fun e he => ?_, fun hn => absurd ((ht e0).1 rfl) (hn e0)⟩
      cases (ht e).2 he
      simp only [applyArgs] at h
      split at h
      · split at h
        · cases h; rfl
        · cases h
      · cases h
      · cases h

/-- A default `e` on the type itself gives the arguments of the constructor. -/
theorem C73_container {s : DShape} {pre post : List AttrItem} {k : String} {lit : Text} {rest : List DAttribute}
    {fs : List DField} (hs : s = .tuple fs) (hk : DefaultKey k)
    (hpost : ∀ k' lit', AttrItem.prop k' lit' ∈ post → ¬ DefaultKey k')
    (ha : (I.args (litText lit)).length = fs.length) :
    structDefault I (.jbytes (pre ++ .prop k lit :: post) :: rest) s = some (I.args (litText lit)) := by
  have run : ∀ (is : List AttrItem) (t : DText), t.isJbytes = true → ∃ u, is.foldlM DText.containerItem t = some u ∧
      u.isJbytes = true ∧ ((∀ k' lit', AttrItem.prop k' lit' ∈ is → ¬ DefaultKey k') → u.defaultValue = t.defaultValue) := by
    intro is
    induction is with
    | nil => intro t ht; exact ⟨t, rfl, ht, fun _ => rfl⟩
    | cons i is ih =>
      intro t ht
      have step : ∃ t', DText.containerItem t i = some t' ∧ t'.isJbytes = true ∧
          ((∀ k' lit', i = AttrItem.prop k' lit' → ¬ DefaultKey k') → t'.defaultValue = t.defaultValue) := by
        cases i with
        | tag n => exact ⟨t, by simp [DText.containerItem, ht], ht, fun _ => rfl⟩
        | prop k0 l0 =>
          simp only [DText.containerItem]
          by_cases hk0 : k0 = "default_value" ∨ k0 = "default"
          · rw [if_pos hk0]
            exact ⟨_, rfl, ht, fun hn => absurd (Or.symm hk0) (hn k0 l0 rfl)⟩
          · rw [if_neg hk0, if_pos ht]
            exact ⟨_, rfl, ht, fun _ => rfl⟩
      obtain ⟨t', h1, h2, h3⟩ := step
      obtain ⟨u, hu, hj, hd⟩ := ih t' h2
      refine ⟨u, by rw [List.foldlM_cons, h1]; exact hu, hj, fun hn => ?_⟩
      rw [hd fun k' l' hm => hn k' l' (List.mem_cons_of_mem _ hm), h3 fun k' l' he => hn k' l' (he ▸ List.mem_cons_self)]
  obtain ⟨u, hu, hj, -⟩ := run pre { isJbytes := true } rfl
  obtain ⟨w, hw, -, hd⟩ := run post { u with defaultValue := some (litText lit) } hj
  have hfold : (pre ++ .prop k lit :: post).foldlM DText.containerItem { isJbytes := true } = some w := by
    rw [List.foldlM_append, hu]
    show ((AttrItem.prop k lit :: post).foldlM DText.containerItem u) = some w
    rw [List.foldlM_cons]
    have : DText.containerItem u (.prop k lit) = some { u with defaultValue := some (litText lit) } := by
      simp only [DText.containerItem]
      rw [if_pos (Or.symm hk)]
    rw [this]
    exact hw
  subst hs
  simp [structDefault, firstText, DAttribute.container, hfold, hd hpost, applyArgs, ha]

/-- **C73** (acceptance): if all items are known and every field type is a path without generic arguments, the struct
has a default. -/
theorem C73_accepts {s : DShape} (hk : ∀ f ∈ s.fields, KnownItems f.attrs)
    (hp : ∀ f ∈ s.fields, PathType f.ty) : ∃ vs, structDefault I [] s = some vs :=
  shapeDefault_some I hk fun f hf => (hp f hf).path

theorem variantDefault_eq {v : DVariant} {b : Option (List V)} (ho : OneAttr v.attrs)
    (hf : ∀ f ∈ v.shape.fields, OneAttr f.attrs) (h : variantDefault I v = some b) :
    (b = none → ¬ Marks v.attrs ∧ ∀ e, ¬ States v.attrs e) ∧
      (∀ x, b = some x → (Marks v.attrs ∧ FieldsAre I v.shape.fields x) ∨
        (¬ Marks v.attrs ∧ ∃ e, States v.attrs e ∧ x = I.args e)) := by
  unfold variantDefault at h
  by_cases hd : discReads v.disc = true
  · rw [if_pos hd] at h
    cases ht : firstText DAttribute.field v.attrs with
    | none => rw [ht] at h; cases h
    | some t =>
      rw [ht] at h
      simp only [Option.bind_some] at h
      obtain ⟨h1, h2⟩ := firstText_eq ho ht
      by_cases hb : t.defaultBool = true
      · rw [if_pos hb] at h
        cases hs : shapeDefault I v.shape with
        | none => rw [hs] at h; cases h
        | some vs =>
          rw [hs] at h
          cases h
          refine ⟨(fun h => nomatch h), fun x hx => ?_⟩
          cases hx
          exact Or.inl ⟨h2.1 hb, shapeDefault_is I hf hs⟩
      · rw [if_neg hb] at h
        have hm : ¬ Marks v.attrs := fun hm => hb (h2.2 hm)
        cases hv : t.defaultValue with
        | none =>
          rw [hv] at h
          cases h
          refine ⟨fun _ => ⟨hm, fun e he => ?_⟩, fun _ hx => nomatch hx⟩
          have := (h1 e).2 he
          rw [hv] at this; cases this
        | some e =>
          rw [hv] at h
          simp only at h
          cases ha : applyArgs I e v.shape with
          | none => rw [ha] at h; cases h
          | some y =>
            rw [ha] at h
            cases h
            refine ⟨(fun h => nomatch h), fun x hx => ?_⟩
            cases hx
            refine Or.inr ⟨hm, e, (h1 e).1 hv, ?_⟩
            unfold applyArgs at ha
            cases hsh : v.shape with
            | unit => rw [hsh] at ha; cases ha
            | named fs => rw [hsh] at ha; cases ha
            | tuple fs =>
              rw [hsh] at ha
              simp only at ha
              split at ha
              · cases ha; rfl
              · cases ha
  · rw [if_neg hd] at h; cases h

/-- The variant has a mark, with or without a value. -/
def Chosen (v : DVariant) : Prop := Marks v.attrs ∨ ∃ e, States v.attrs e

theorem variantBodies_eq {vs : List DVariant} {i : Nat} {bodies : List (Nat × List V)}
    (ho : ∀ v ∈ vs, OneAttr v.attrs ∧ ∀ f ∈ v.shape.fields, OneAttr f.attrs)
    (h : variantBodies I i vs = some bodies) :
    (∀ j v, vs[j]? = some v → Chosen v → ∃ x, (i + j, x) ∈ bodies) ∧
      ∀ k x, (k, x) ∈ bodies → i ≤ k ∧ ∃ v, vs[k - i]? = some v ∧
        ((Marks v.attrs ∧ FieldsAre I v.shape.fields x) ∨
          (¬ Marks v.attrs ∧ ∃ e, States v.attrs e ∧ x = I.args e)) := by
  induction vs generalizing i bodies with
  | nil =>
    cases h
    exact ⟨fun j v hv _ => by simp at hv, fun _ _ hx => nomatch hx⟩
  | cons v vs ih =>
    simp only [variantBodies] at h
    cases hb : variantDefault I v with
    | none => rw [hb] at h; cases h
    | some b =>
      cases hr : variantBodies I (i + 1) vs with
      | none => rw [hb, hr] at h; cases h
      | some rest =>
        rw [hb, hr] at h
        simp only [Option.bind_some, Option.map_some, Option.some.injEq] at h
        obtain ⟨h1, h2⟩ := variantDefault_eq I (ho v List.mem_cons_self).1 (ho v List.mem_cons_self).2 hb
        obtain ⟨r1, r2⟩ := ih (fun w hw => ho w (List.mem_cons_of_mem _ hw)) hr
        have hsub : ∀ y ∈ rest, y ∈ bodies := by
          intro y hy
          rw [← h]
          cases b with
          | none => exact hy
          | some x => exact List.mem_cons_of_mem _ hy
        constructor
        · intro j w hw hch
          cases j with
          | zero =>
            simp only [List.getElem?_cons_zero, Option.some.injEq] at hw
            subst hw
            cases b with
            | none =>
              obtain ⟨n1, n2⟩ := h1 rfl
              rcases hch with hm | ⟨e, he⟩
              · exact absurd hm n1
              · exact absurd he (n2 e)
            | some x => exact ⟨x, by rw [← h]; exact List.mem_cons_self⟩
          | succ j =>
            simp only [List.getElem?_cons_succ] at hw
            obtain ⟨x, hx⟩ := r1 j w hw hch
            exact ⟨x, by rw [show i + (j + 1) = i + 1 + j by omega]; exact hsub _ hx⟩
        · intro k x hx
          have hrest : (k, x) ∈ rest → i ≤ k ∧ ∃ w, (v :: vs)[k - i]? = some w ∧
              ((Marks w.attrs ∧ FieldsAre I w.shape.fields x) ∨
                (¬ Marks w.attrs ∧ ∃ e, States w.attrs e ∧ x = I.args e)) := by
            intro hx
            obtain ⟨hle, w, hw, hp⟩ := r2 k x hx
            refine ⟨by omega, w, ?_, hp⟩
            rw [show k - i = (k - (i + 1)) + 1 by omega, List.getElem?_cons_succ]
            exact hw
          rw [← h] at hx
          cases b with
          | none => exact hrest hx
          | some y =>
            rcases List.mem_cons.1 hx with he | hx
            · cases he
              exact ⟨Nat.le_refl _, v, by simp, h2 x rfl⟩
            · exact hrest hx

/-- **C73** (enums): with at most one attribute for the macro on each variant and field, the default is the one variant
that has a mark: no other variant has one.  A mark without a value gives the variant with the defaults of its fields, a
mark with a value the variant made from that value.  Full statement: with any attributes. -/
theorem C73_enum_partial {container : List DAttribute} {vs : List DVariant} {i : Nat} {x : List V}
    (ho : ∀ v ∈ vs, OneAttr v.attrs ∧ ∀ f ∈ v.shape.fields, OneAttr f.attrs)
    (h : enumDefault I container vs = some (i, x)) :
    (∃ v, vs[i]? = some v ∧
      ((Marks v.attrs ∧ FieldsAre I v.shape.fields x) ∨
        (¬ Marks v.attrs ∧ ∃ e, States v.attrs e ∧ x = I.args e))) ∧
      ∀ j w, vs[j]? = some w → Chosen w → j = i := by
  unfold enumDefault at h
  cases hc : firstText DAttribute.container container with
  | none => rw [hc] at h; cases h
  | some t =>
    cases hb : variantBodies I 0 vs with
    | none => rw [hc, hb] at h; cases h
    | some bodies =>
      rw [hc, hb] at h
      simp only [Option.bind_some] at h
      obtain ⟨h1, h2⟩ := variantBodies_eq I ho hb
      match bodies, h, h1, h2 with
      | [(k, y)], h, h1, h2 =>
        cases h
        constructor
        · obtain ⟨-, v, hv, hp⟩ := h2 i x List.mem_cons_self
          exact ⟨v, hv, hp⟩
        · intro j w hw hch
          obtain ⟨z, hz⟩ := h1 j w hw hch
          rcases List.mem_cons.1 hz with he | hz
          · cases he; omega
          · cases hz
      | [], h, _, _ => cases h
      | _ :: _ :: _, h, _, _ => cases h

/-- **C73** (acceptance, enums): an enum with exactly one marked variant has a default if items, field types and
discriminants are readable. -/
theorem C73_enum_accepts {vs : List DVariant} {i : Nat} {v : DVariant}
    (ho : ∀ w ∈ vs, OneAttr w.attrs) (hk : ∀ w ∈ vs, KnownItems w.attrs ∧ ∀ f ∈ w.shape.fields, KnownItems f.attrs)
    (hp : ∀ w ∈ vs, ∀ f ∈ w.shape.fields, PathType f.ty) (hd : ∀ w ∈ vs, DiscIs w.disc)
    (hi : vs[i]? = some v) (hm : Marks v.attrs) (hu : ∀ j w, vs[j]? = some w → Chosen w → j = i) :
    ∃ x, enumDefault I [] vs = some (i, x) := by
  have none_of : ∀ w ∈ vs, ¬ Chosen w → variantDefault I w = some none := by
    intro w hw hc
    obtain ⟨t, ht⟩ := firstText_some (hk w hw).1
    obtain ⟨h1, h2⟩ := firstText_eq (ho w hw) ht
    unfold variantDefault
    rw [if_pos (hd w hw).reads, ht]
    simp only [Option.bind_some]
    rw [if_neg fun hb => hc (Or.inl (h2.1 hb))]
    cases hv : t.defaultValue with
    | none => rfl
    | some e => exact absurd (Or.inr ⟨e, (h1 e).1 hv⟩) hc
  have some_of : ∀ w ∈ vs, Marks w.attrs → ∃ x, variantDefault I w = some (some x) := by
    intro w hw hm
    obtain ⟨t, ht⟩ := firstText_some (hk w hw).1
    obtain ⟨h1, h2⟩ := firstText_eq (ho w hw) ht
    obtain ⟨x, hx⟩ := shapeDefault_some I (hk w hw).2 fun f hf => (hp w hw f hf).path
    unfold variantDefault
    rw [if_pos (hd w hw).reads, ht]
    simp only [Option.bind_some]
    rw [if_pos (h2.2 hm), hx]
    exact ⟨x, rfl⟩
  have quiet : ∀ (ws : List DVariant) (k : Nat), (∀ w ∈ ws, w ∈ vs ∧ ¬ Chosen w) → variantBodies I k ws = some [] := by
    intro ws
    induction ws with
    | nil => intro _ _; rfl
    | cons w ws ih =>
      intro k h
      simp only [variantBodies, none_of w (h w List.mem_cons_self).1 (h w List.mem_cons_self).2,
        ih (k + 1) fun u hu => h u (List.mem_cons_of_mem _ hu)]
      rfl
  have main : ∀ (ws : List DVariant) (k j : Nat), (∀ w ∈ ws, w ∈ vs) → ws[j]? = some v →
      (∀ j' w, ws[j']? = some w → Chosen w → j' = j) → ∃ x, variantBodies I k ws = some [(k + j, x)] := by
    intro ws
    induction ws with
    | nil => intro k j _ h _; simp at h
    | cons w ws ih =>
      intro k j hmem hj huj
      cases j with
      | zero =>
        simp only [List.getElem?_cons_zero, Option.some.injEq] at hj
        subst hj
        obtain ⟨x, hx⟩ := some_of w (hmem w List.mem_cons_self) hm
        refine ⟨x, ?_⟩
        have hq := quiet ws (k + 1) fun u hu => ⟨hmem u (List.mem_cons_of_mem _ hu), fun hc => by
          obtain ⟨n, hn⟩ := List.getElem?_of_mem hu
          have := huj (n + 1) u (by simpa using hn) hc
          omega⟩
        simp only [variantBodies, hx, hq]
        rfl
      | succ j =>
        simp only [List.getElem?_cons_succ] at hj
        obtain ⟨x, hx⟩ := ih (k + 1) j (fun u hu => hmem u (List.mem_cons_of_mem _ hu)) hj fun j' u hu hc => by
          have := huj (j' + 1) u (by simpa using hu) hc
          omega
        have hn := none_of w (hmem w List.mem_cons_self) fun hc => by
          have := huj 0 w (by simp) hc
          omega
        refine ⟨x, ?_⟩
        simp only [variantBodies, hn, hx]
        simp only [Option.bind_some, Option.map_some]
        rw [show k + 1 + j = k + (j + 1) by omega]
  obtain ⟨x, hx⟩ := main vs 0 i (fun _ h => h) hi hu
  refine ⟨x, ?_⟩
  simp only [enumDefault, firstText, hx, Option.bind_some, Nat.zero_add]

/-! ## Examples and counterexamples -/

/-- Texts as values: an expression stands for itself, a type default for the type in brackets. -/
def textInterp : DefaultInterp Text := ⟨fun e => e, fun e => [e], fun t => '[' :: t ++ [']']⟩

/-- `struct { #[jbytes(length=2, default=18)] a: u16, b: u8 }`. -/
def defaultShape : DShape :=
  .named [⟨[.other, .jbytes [.prop "length" ['2'], .prop "default" ['1', '8']]], ['u', '1', '6']⟩, ⟨[], ['u', '8']⟩]

example : structDefault textInterp [] defaultShape = some [['1', '8'], ['[', 'u', '8', ']']] := by decide +kernel
example : ∀ f ∈ defaultShape.fields, OneAttr f.attrs := by
  intro f hf
  simp only [defaultShape, DShape.fields, List.mem_cons, List.not_mem_nil, or_false] at hf
  rcases hf with rfl | rfl <;> simp [OneAttr, DAttribute.items, List.filter]

/-- `enum { A, #[jd(default)] B { #[jd(default=3)] x: u8, y: u8 }, #[jbytes(branch=4)] C(u8) }`. -/
def defaultVariants : List DVariant :=
  [⟨[], .unit, none⟩,
   ⟨[.jd [.tag "default"]], .named [⟨[.jd [.prop "default" ['3']]], ['u', '8']⟩, ⟨[], ['u', '8']⟩], some ['0', 'x', '1', '0']⟩,
   ⟨[.jbytes [.prop "branch" ['4']]], .tuple [⟨[], ['u', '8']⟩], none⟩]

unseal usizeMod isizeMax in
example : enumDefault textInterp [] defaultVariants = some (1, [['3'], ['[', 'u', '8', ']']]) := by decide +kernel

example : structDefault textInterp [.jbytes [.prop "byteorder" ['L', 'E'], .prop "default" ['9']]]
    (.tuple [⟨[], ['u', '8']⟩]) = some [['9']] := by decide +kernel

/-- **C73, negation**: a default in `#[jd(...)]` is lost, without an error, if an attribute `#[jbytes(...)]` stands
before it: `#[jbytes(length=2)] #[jd(default=18)] a: u16` has the default 0.  A default in `#[jppe(...)]` counts on a
field and is lost on a type. -/
theorem C73_violated_attrs : (∃ (f : DField) (v : Text), States f.attrs ['1', '8'] ∧
    structDefault textInterp [] (.named [f]) = some [v] ∧ v ≠ textInterp.value ['1', '8']) ∧
    (structDefault textInterp [.jppe [.prop "default" ['9']]] (.tuple [⟨[], ['u', '8']⟩]) = some [['[', 'u', '8', ']']] ∧
      structDefault textInterp [] (.tuple [⟨[.jppe [.prop "default" ['9']]], ['u', '8']⟩]) = some [['9']]) :=
  ⟨⟨⟨[.jbytes [.prop "length" ['2']], .jd [.prop "default" ['1', '8']]], ['u', '1', '6']⟩, ['[', 'u', '1', '6', ']'],
    ⟨.jd [.prop "default" ['1', '8']], by simp, _, rfl, [], "default", ['1', '8'], [], rfl, Or.inl rfl, by decide +kernel, by simp⟩,
    by decide +kernel, by decide +kernel⟩, by decide +kernel⟩

unseal usizeMod isizeMax in
/-- **C73, negation**: a struct with a field of type `Vec<u8>` has no default, although the type has; a binary
discriminant, a `repr(u64)` discriminant of 2^63 and a second mark do the same to an enum. -/
theorem C73_violated_types :
    structDefault textInterp [] (.named [⟨[], ['V', 'e', 'c', '<', 'u', '8', '>']⟩]) = none ∧
      structDefault textInterp [] (.named [⟨[], ['(', 'u', '8', ',', 'u', '8', ')']⟩]) = none ∧
      structDefault textInterp [] (.tuple [⟨[], ['(', 'u', '8', ',', 'u', '8', ')']⟩]) ≠ none ∧
      enumDefault textInterp [] [⟨[.jd [.tag "default"]], .unit, some ['0', 'b', '1']⟩] = none ∧
      enumDefault textInterp [] [⟨[.jd [.tag "default"]], .unit, some ['0', 'x', '8', '0', '0', '0', '0', '0', '0', '0', '0', '0',
        '0', '0', '0', '0', '0', '0']⟩] = none ∧
      enumDefault textInterp [] [⟨[.jd [.tag "default"]], .unit, none⟩, ⟨[.jd [.tag "default"]], .unit, none⟩] = none := by
  decide +kernel

end JBytes
