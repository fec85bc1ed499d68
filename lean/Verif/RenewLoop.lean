import Verif.RenewFields
/-!
# Decoding, encoding and decoding again: lists with a marker before every element, lists of up to a number of elements,
enums told apart by words
-/

namespace JBytes
open M

variable {α β V : Type}

theorem Reads.marker (p suf : List Byte) : Reads (attempt (takeBytesStarts p)) (some ()) p suf := by
  intro pre hp
  rw [attempt_apply, takeBytesStarts_apply p _ (ok_of_size hp), if_neg (by simp only [List.length_append]; omega),
    if_pos (by simp)]

theorem Reads.noMarker {p suf : List Byte} (h : ¬ p <+: suf) : Reads (attempt (takeBytesStarts p)) none [] suf := by
  intro pre hp
  rw [attempt_apply, takeBytesStarts_apply p _ (ok_of_size hp)]
  simp only [List.nil_append, List.drop_left, List.length_nil, Nat.add_zero]
  split
  · rename_i h1
    split at h1
    · cases h1
    · split at h1
      · rename_i h2
        exact absurd (List.isPrefixOf_iff_prefix.mp h2) h
      · cases h1
  · rename_i h1
    split at h1
    · cases h1; rfl
    · split at h1
      · cases h1
      · cases h1; rfl
  all_goals
    rename_i h1
    split at h1
    · cases h1
    · split at h1 <;> cases h1

/-- What a marked list decodes comes back, if no marker follows it. -/
theorem whileStarts_renews {p : List Byte} {m : M α} {e : α → M Nat} (h : Renews false m e) :
    ∀ (fuel : Nat) (b : Buf) (l : List α) (b' : Buf), b.Ok → whileStarts p m fuel b = (.ok l, b') →
    b'.Ok ∧ ∃ w, Writes (encAll (fun a => do
        let n ← push p
        let m ← e a
        return n + m) l) w ∧ ∀ suf, ¬ p <+: suf → Reads (whileStarts p m fuel) l w suf := by
  intro fuel
  induction fuel with
  | zero => intro b l b' _ he; cases he
  | succ fuel ih =>
    intro b l b' hb he
    obtain ⟨o, b1, e1, e2⟩ := bind_ok (m := attempt (takeBytesStarts p)) he
    have hb1 : b1.Ok := (Gives.attemptStarts p).ok hb e1
    cases o with
    | none =>
      simp only [pure_apply, Prod.mk.injEq, Out.ok.injEq] at e2
      obtain ⟨rfl, rfl⟩ := e2
      refine ⟨hb1, [], Appends.pure0.writes, fun suf hs => ?_⟩
      exact Reads.bind (w1 := []) (w2 := []) (Reads.noMarker hs) (Reads.pure _ _)
    | some u =>
      obtain ⟨a, b2, e3, e4⟩ := bind_ok (m := m) e2
      obtain ⟨as, b3, e5, e6⟩ := bind_ok (m := whileStarts p m fuel) e4
      rw [pure_apply, Prod.mk.injEq, Out.ok.injEq] at e6
      obtain ⟨rfl, rfl⟩ := e6
      obtain ⟨o2, w1, p1, p2⟩ := h b1 a b2 hb1 e3
      obtain ⟨o3, w2, q1, q2⟩ := ih b2 as b3 o2 e5
      refine ⟨o3, (p ++ w1) ++ w2, ((Appends.push p).writes.seq p1).seq q1, fun suf hs => ?_⟩
      rw [List.append_assoc]
      exact Reads.bind (Reads.marker p _) (Reads.bind (p2 _ (fun h => nomatch h)) ((q2 suf hs).map _))

theorem Renews.loop {d : Dec α} {e : Enc α} {ca : Option CAttr} {fa : Option FAttr}
    (h : Renews false (d ca fa) (fun v => e v ca fa)) (fuel : Nat) {p : List Byte} (hp : fa.bind (·.loopSkipStarts) = some p)
    (hne : p ≠ []) : Renews true (decVec fuel d ca fa) (fun l => encVec e l ca fa) := by
  intro b l b' hb he
  unfold decVec at he
  rw [hp] at he
  obtain ⟨o, w, h1, h2⟩ := whileStarts_renews h fuel b l b' hb he
  refine ⟨o, w, ?_, fun suf hs => ?_⟩
  · unfold encVec
    rw [hp]
    exact h1
  · unfold decVec
    rw [hp]
    refine h2 suf ?_
    rw [hs rfl, List.prefix_nil]
    exact hne

/-- What `try_count` decodes comes back, if nothing follows and the element decoder fails there. -/
theorem tryRepeatM_renews {m : M α} {e : α → M Nat} (h : Renews false m e) (hi : ∀ b x b', b.Ok → m b = (.err x, b') → b'.Ok)
    (hn : ∀ pre : List Byte, pre.length ≤ isizeMax → ∃ x, m ⟨pre, pre.length⟩ = (.err x, ⟨pre, pre.length⟩)) :
    ∀ (n : Nat), Renews true (tryRepeatM m n) (encAll e) := by
  intro n
  induction n with
  | zero =>
    intro b l b' hb he
    rw [tryRepeatM, pure_apply, Prod.mk.injEq, Out.ok.injEq] at he
    obtain ⟨rfl, rfl⟩ := he
    exact ⟨hb, [], Appends.pure0.writes, fun suf _ => Reads.pure _ _⟩
  | succ n ih =>
    intro b l b' hb he
    obtain ⟨o, b1, e1, e2⟩ := bind_ok (m := attempt m) he
    rw [attempt_apply] at e1
    rcases hd : m b with ⟨r, b2⟩
    rw [hd] at e1
    cases r with
    | ok a =>
      simp only [Prod.mk.injEq, Out.ok.injEq] at e1
      obtain ⟨rfl, rfl⟩ := e1
      obtain ⟨as, b3, e5, e6⟩ := bind_ok (m := tryRepeatM m n) e2
      rw [pure_apply, Prod.mk.injEq, Out.ok.injEq] at e6
      obtain ⟨rfl, rfl⟩ := e6
      obtain ⟨o2, w1, p1, p2⟩ := h b a b2 hb hd
      obtain ⟨o3, w2, q1, q2⟩ := ih b2 as b3 o2 e5
      refine ⟨o3, w1 ++ w2, p1.seq q1, fun suf hs => ?_⟩
      refine Reads.bind (a := some a) ?_ ((q2 suf hs).map _)
      intro pre hp
      rw [attempt_apply, p2 _ (fun h => nomatch h) pre hp]
    | err x =>
      simp only [Prod.mk.injEq, Out.ok.injEq] at e1
      obtain ⟨rfl, rfl⟩ := e1
      simp only [pure_apply, Prod.mk.injEq, Out.ok.injEq] at e2
      obtain ⟨rfl, rfl⟩ := e2
      refine ⟨hi b x _ hb hd, [], Appends.pure0.writes, fun suf hs => ?_⟩
      rw [hs rfl]
      refine Reads.bind (w1 := []) (w2 := []) (a := none) ?_ (Reads.pure _ _)
      intro pre hp
      obtain ⟨y, hy⟩ := hn pre (by simpa using hp)
      simp only [List.append_nil, List.length_nil, Nat.add_zero]
      rw [attempt_apply, hy]
    | _ => simp at e1

theorem Renews.tries {d : Dec α} {e : Enc α} {ca : Option CAttr} {fr : FAttr}
    (h : Renews false (d ca (some fr)) (fun v => e v ca (some fr))) (fuel : Nat) {n : Nat} (h1 : fr.loopSkipStarts = none)
    (h2 : fr.count = none) (h3 : fr.tryCount = some n) (h4 : fr.byteCountOutside = none)
    (hi : ∀ b x b', b.Ok → d ca (some fr) b = (.err x, b') → b'.Ok)
    (hn : ∀ pre : List Byte, pre.length ≤ isizeMax → ∃ x, d ca (some fr) ⟨pre, pre.length⟩ = (.err x, ⟨pre, pre.length⟩)) :
    Renews true (decVec fuel d ca (some fr)) (fun l => encVec e l ca (some fr)) := by
  have hl : (some fr).bind (·.loopSkipStarts) = none := h1
  have hd : decVec fuel d ca (some fr) = tryRepeatM (d ca (some fr)) n := by
    unfold decVec
    rw [hl]
    funext b
    simp [decCounted, getCount, h2, h3, bind_apply, pure_apply]
  have he : ∀ l w, Writes (encAll (fun a => e a ca (some fr)) l) w → Writes (encVec e l ca (some fr)) w := by
    intro l w hw
    unfold encVec
    rw [hl]
    have h0 : Writes (pushCount ca (some fr) l.length) [] := by
      simpa [pushCount, h2, h3, h4] using Appends.pure0.writes
    exact h0.seq hw
  rw [hd]
  intro b l b' hb hx
  obtain ⟨o, w, p1, p2⟩ := tryRepeatM_renews h hi hn n b l b' hb hx
  exact ⟨o, w, he l w p1, p2⟩

/-- No two words of the enum begin the same text, and there is no default variant. -/
def WordsApart (E : EnumDef V) : Prop := ∀ (i : Nat) v, E.variants[i]? = some v → v.branchDefault = false ∧
  ∀ (j : Nat) v', j < i → E.variants[j]? = some v' → ¬ tagWord v' <+: tagWord v ∧ ¬ tagWord v <+: tagWord v'

theorem Renews.words {last : Bool} (E : EnumDef V) (hw : E.withDecode = none) (hm : E.mode = .startsWith false)
    (hv : ∀ v ∈ E.variants, v.attrs.isUse = false ∧ v.attrs.byteorder = none ∧ v.attrs.offset = none ∧ NoLeak none v.fields)
    (hf : ∀ v ∈ E.variants, SegRenews last E.container v.fields) (ht : WordsApart E) (ca : Option CAttr) (fa : Option FAttr) :
    Renews last (decEnum E ca fa) (fun x => encEnum E x ca fa) := by
  classical
  intro b x b' hb he
  obtain ⟨c1, c2⟩ := C44_words E hw false hm ca fa b hb
  by_cases hsel : ∃ i v, E.SelectsWord (b.data.drop b.pos) i v
  · obtain ⟨i, v, hsel⟩ := hsel
    rw [c1 i v hsel, mapM'_apply] at he
    obtain ⟨hi, hpre, _⟩ := id hsel
    obtain ⟨hdf, hapart⟩ := ht i v hi
    have hmem : v ∈ E.variants := List.mem_of_getElem? hi
    obtain ⟨v1, v2, v3, v4⟩ := hv v hmem
    obtain ⟨num, hnum⟩ : ∃ num, E.IsVariant i v num := by
      have hl : i < E.numbers.length := by
        unfold EnumDef.numbers
        rw [variantNumbers_length]
        exact (List.getElem?_eq_some_iff.mp hi).1
      exact ⟨_, hi, (C44_numbers E i _).mp (List.getElem?_eq_getElem hl)⟩
    simp only [hdf, Bool.or_self, Bool.false_eq_true, if_false] at he
    have hb1 : (⟨b.data, b.pos + (tagWord v).length⟩ : Buf).Ok := by
      rcases hpre with h | ⟨rest, h⟩
      · rw [hdf] at h; cases h
      · have := congrArg List.length h
        simp only [List.length_drop, List.length_append] at this
        have h1 := hb.1
        exact ⟨by show b.pos + _ ≤ b.data.length; omega, hb.2⟩
    generalize (⟨b.data, b.pos + (tagWord v).length⟩ : Buf) = b1 at he hb1
    have hvf : variantFields E ca v b1 = decFields false v.fields E.container none { vars := localVars E.getVars ca } b1 := by
      simp only [variantFields, toCode_unused _ _ v1, bind_apply, pure_apply, skipOffset, v3]
      cases v.tuple with
      | false => rfl
      | true => exact decFields_noLeak _ _ _ _ _ v4
    rw [hvf] at he
    rcases hdf' : decFields false v.fields E.container none { vars := localVars E.getVars ca } b1 with ⟨o, b2⟩
    rw [hdf'] at he
    cases o with
    | ok vs =>
      simp only [Prod.mk.injEq, Out.ok.injEq] at he
      obtain ⟨rfl, rfl⟩ := he
      obtain ⟨o1, w, hw'⟩ := hf v hmem _ b1 vs b2 hb1 hdf'
      have hbody : ∀ suf, (last = true → suf = []) → BodyRT E v { vars := localVars E.getVars ca }
          { vars := localVars E.getVars ca } vs w suf := by
        intro suf hs
        have n4 : NoLeak (ownModifiers v.attrs { vars := localVars E.getVars ca }) v.fields := by
          simpa [ownModifiers, v1] using v4
        have o4 : OrderOk v.attrs { vars := localVars E.getVars ca } := fun e he => by rw [v2] at he; cases he
        have s4 := Segments.cons (gs := []) (w2 := []) (us := []) (suf := suf) (by simpa using hw' suf hs) (.nil _ _ _ _)
        exact ⟨o4, o4, n4, n4, rfl, by simpa using s4⟩
      have hword : ∀ rest, E.SelectsWord ((if false = true then [] else tagWord v) ++ rest) i v := by
        intro rest
        refine ⟨hi, .inr ⟨rest, rfl⟩, fun j v' hj hv' => ⟨(ht j v' hv').1, ?_⟩⟩
        rintro ⟨rest', hr⟩
        have p1 : tagWord v <+: tagWord v ++ rest := List.prefix_append _ _
        have p2 : tagWord v' <+: tagWord v ++ rest := ⟨rest', hr.symm⟩
        rcases List.prefix_or_prefix_of_prefix p1 p2 with h | h
        · exact (hapart j v' hj hv').2 h
        · exact (hapart j v' hj hv').1 h
      refine ⟨o1, (if false = true then [] else tagWord v) ++
        (List.replicate (gap v.attrs { vars := localVars E.getVars ca }) v.attrs.full ++ w), ?_, fun suf hs => ?_⟩
      · obtain ⟨_, rfl, q, _⟩ := C45_words_roundtrip_partial E hw ca ca fa i v num vs w [] false hm hnum (.inr hdf)
          (by rw [List.append_assoc]; exact hword _) (hbody [] fun _ => rfl)
        exact q
      · obtain ⟨_, rfl, _, q⟩ := C45_words_roundtrip_partial E hw ca ca fa i v num vs w suf false hm hnum (.inr hdf)
          (by rw [List.append_assoc]; exact hword _) (hbody suf hs)
        exact q
    | _ => simp at he
  · rw [c2 (fun i v h => hsel ⟨i, v, h⟩)] at he
    simp at he

end JBytes
