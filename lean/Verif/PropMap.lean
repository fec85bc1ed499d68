import Verif.PropSeq
import Verif.PropBytes
/-!
# Maps and sets: C36, and C27, C31, C35 for maps and sets

A map is the list of its entries, in the arbitrary iteration order of `HashMap`; it is observed through
`List.lookup`.
-/

namespace JBytes
open M

variable {α β : Type}

/-! ## Inserting -/

theorem lookup_cons_if [DecidableEq α] (x : α × β) (m : List (α × β)) (k : α) :
    (x :: m).lookup k = if k = x.1 then some x.2 else m.lookup k := by
  obtain ⟨a, v⟩ := x
  rw [List.lookup_cons]
  by_cases h : k = a
  · simp [h]
  · have : (k == a) = false := by simpa using h
    simp [h, this]

theorem lookup_none_of_not_mem [DecidableEq α] {m : List (α × β)} {k : α} (h : k ∉ m.map Prod.fst) :
    m.lookup k = none := by
  induction m with
  | nil => rfl
  | cons x m ih =>
    simp only [List.map_cons, List.mem_cons, not_or] at h
    rw [lookup_cons_if, if_neg h.1, ih h.2]

theorem map_replace_of_not_mem [DecidableEq α] {m : List (α × β)} {e : α × β} (h : e.1 ∉ m.map Prod.fst) :
    m.map (fun x => if x.1 = e.1 then (x.1, e.2) else x) = m := by
  induction m with
  | nil => rfl
  | cons x m ih =>
    simp only [List.map_cons, List.mem_cons, not_or] at h
    rw [List.map_cons, ih h.2, if_neg (fun hh => h.1 hh.symm)]

theorem lookup_mapInsert [DecidableEq α] (m : List (α × β)) (e : α × β) (k : α) :
    (mapInsert m e).lookup k = if k = e.1 then some e.2 else m.lookup k := by
  unfold mapInsert
  by_cases he : e.1 ∈ m.map Prod.fst
  · rw [if_pos he]
    induction m with
    | nil => simp at he
    | cons x m ih =>
      rw [List.map_cons, lookup_cons_if, lookup_cons_if]
      by_cases hx : x.1 = e.1
      · rw [if_pos hx, hx]
        by_cases hk : k = e.1
        · simp only [if_pos hk]
        · simp only [if_neg hk]
          by_cases hm : e.1 ∈ m.map Prod.fst
          · rw [ih hm, if_neg hk]
          · rw [map_replace_of_not_mem hm]
      · rw [if_neg hx]
        have hm : e.1 ∈ m.map Prod.fst := by
          rcases List.mem_cons.mp he with h | h
          · exact absurd h.symm hx
          · exact h
        rw [ih hm]
        by_cases hkx : k = x.1
        · rw [if_pos hkx, if_neg (by rw [hkx]; exact hx), if_pos hkx]
        · rw [if_neg hkx, if_neg hkx]
  · rw [if_neg he, List.lookup_append, lookup_cons_if]
    by_cases hk : k = e.1
    · rw [if_pos hk, if_pos hk, lookup_none_of_not_mem (by rw [hk]; exact he)]
      rfl
    · simp [if_neg hk]

theorem keys_mapInsert [DecidableEq α] (m : List (α × β)) (e : α × β) :
    (mapInsert m e).map Prod.fst = if e.1 ∈ m.map Prod.fst then m.map Prod.fst else m.map Prod.fst ++ [e.1] := by
  unfold mapInsert
  split
  · rw [List.map_map]
    apply List.map_congr_left
    intro x _
    simp only [Function.comp]
    split <;> rfl
  · simp

theorem nodup_mapInsert [DecidableEq α] (m : List (α × β)) (e : α × β) (h : (m.map Prod.fst).Nodup) :
    ((mapInsert m e).map Prod.fst).Nodup := by
  rw [keys_mapInsert]
  split
  · exact h
  · rename_i hn
    rw [List.nodup_append]
    refine ⟨h, by simp, ?_⟩
    intro a ha b hb
    simp only [List.mem_singleton] at hb
    subst hb
    intro heq
    exact hn (heq ▸ ha)

/-- Lookups after inserting `l` in order, in terms of `l` alone: the last entry with the key, else the old one. -/
theorem lookup_foldl_mapInsert [DecidableEq α] (l : List (α × β)) (k : α) : ∀ m : List (α × β),
    (l.foldl mapInsert m).lookup k = (l.reverse.lookup k).or (m.lookup k) := by
  induction l with
  | nil => intro m; simp
  | cons e l ih =>
    intro m
    rw [List.foldl_cons, ih, lookup_mapInsert, List.reverse_cons, List.lookup_append, Option.or_assoc]
    congr 1
    rw [lookup_cons_if]
    by_cases hk : k = e.1
    · simp [hk]
    · simp [hk]

theorem nodup_foldl_mapInsert [DecidableEq α] (l : List (α × β)) : ∀ m : List (α × β), (m.map Prod.fst).Nodup →
    ((l.foldl mapInsert m).map Prod.fst).Nodup := by
  induction l with
  | nil => exact fun _ h => h
  | cons e l ih => exact fun m h => ih _ (nodup_mapInsert m e h)

theorem mem_foldl_setInsert [DecidableEq α] (l : List α) (a : α) : ∀ s : List α,
    a ∈ l.foldl setInsert s ↔ a ∈ l ∨ a ∈ s := by
  induction l with
  | nil => intro s; simp
  | cons e l ih =>
    intro s
    rw [List.foldl_cons, ih]
    unfold setInsert
    split
    · rename_i h
      simp only [List.mem_cons]
      constructor
      · rintro (h1 | h1)
        · exact .inl (.inr h1)
        · exact .inr h1
      · rintro ((rfl | h1) | h1)
        · exact .inr h
        · exact .inl h1
        · exact .inr h1
    · simp only [List.mem_cons, List.mem_append, List.not_mem_nil, or_false]
      constructor
      · rintro (h1 | h1 | h1)
        · exact .inl (.inr h1)
        · exact .inr h1
        · exact .inl (.inl h1)
      · rintro ((h1 | h1) | h1)
        · exact .inr (.inr h1)
        · exact .inl h1
        · exact .inr (.inl h1)

theorem nodup_foldl_setInsert [DecidableEq α] (l : List α) : ∀ s : List α, s.Nodup →
    (l.foldl setInsert s).Nodup := by
  induction l with
  | nil => exact fun _ h => h
  | cons e l ih =>
    intro s h
    refine ih _ ?_
    unfold setInsert
    split
    · exact h
    · rename_i hn
      rw [List.nodup_append]
      refine ⟨h, by simp, ?_⟩
      intro a ha b hb
      simp only [List.mem_singleton] at hb
      subst hb
      intro heq
      exact hn (heq ▸ ha)

theorem length_foldl_setInsert [DecidableEq α] (l : List α) : ∀ s : List α,
    (l.foldl setInsert s).length ≤ s.length + l.length := by
  induction l with
  | nil => intro s; simp
  | cons e l ih =>
    intro s
    rw [List.foldl_cons]
    have h1 := ih (setInsert s e)
    have h2 : (setInsert s e).length ≤ s.length + 1 := by
      unfold setInsert
      split <;> simp
    simp only [List.length_cons]
    omega

theorem length_foldl_mapInsert [DecidableEq α] (l : List (α × β)) : ∀ m : List (α × β),
    (l.foldl mapInsert m).length ≤ m.length + l.length := by
  induction l with
  | nil => intro s; simp
  | cons e l ih =>
    intro m
    rw [List.foldl_cons]
    have h1 := ih (mapInsert m e)
    have h2 : (mapInsert m e).length ≤ m.length + 1 := by
      unfold mapInsert
      split <;> simp
    simp only [List.length_cons]
    omega

/-- A key has at most one value: lookups in a list with distinct keys do not depend on the order. -/
theorem lookup_eq_some_iff_mem [DecidableEq α] {m : List (α × β)} (h : (m.map Prod.fst).Nodup) (k : α) (v : β) :
    m.lookup k = some v ↔ (k, v) ∈ m := by
  induction m with
  | nil => simp
  | cons x m ih =>
    simp only [List.map_cons, List.nodup_cons] at h
    rw [lookup_cons_if, List.mem_cons]
    by_cases hk : k = x.1
    · rw [if_pos hk]
      subst hk
      constructor
      · intro e
        injection e with e
        left
        rw [← e]
      · rintro (e | e)
        · rw [← e]
        · exact absurd (List.mem_map.mpr ⟨_, e, rfl⟩) h.1
    · rw [if_neg hk, ih h.2]
      constructor
      · exact .inr
      · rintro (e | e)
        · rw [← e] at hk; exact absurd rfl hk
        · exact e

theorem lookup_perm [DecidableEq α] {m l : List (α × β)} (h : (m.map Prod.fst).Nodup) (hp : l.Perm m) (k : α) :
    l.lookup k = m.lookup k := by
  have hl : (l.map Prod.fst).Nodup := (hp.map Prod.fst).nodup_iff.mpr h
  apply Option.ext
  intro v
  rw [lookup_eq_some_iff_mem h, lookup_eq_some_iff_mem hl, hp.mem_iff]

/-! ## C36 -/

theorem decEntries_eq (dk : Dec α) (dv : Dec β) (ca : Option CAttr) (fa : Option FAttr) :
    decEntries dk dv ca fa = decCounted (fun ca fa => decEntry dk dv ca fa) ca fa := rfl

/-- C36 (maps): a decoded map comes from a run of entries (key then value) on the wire, starting behind the
count; it has one entry per key, and looking up a key gives the value of its last occurrence in the run. -/
theorem C36_map_inserts [DecidableEq α] (dk : Dec α) (dv : Dec β) (ca : Option CAttr) (fa : Option FAttr)
    (b b' : Buf) (m : List (α × β)) (h : decMap dk dv ca fa b = (.ok m, b')) :
    ∃ r b1 l b2, getCount ca fa b = (.ok r, b1) ∧
      Runs (do let k ← dk ca (keyFattr fa); let v ← dv ca (valFattr fa); return (k, v)) b1 l b2 ∧
      (b' = b2 ∧ (r.2 = none → l.length = r.1) ∨
        r.2 ≠ none ∧ ∃ e, (do let k ← dk ca (keyFattr fa); let v ← dv ca (valFattr fa); return (k, v) : M (α × β)) b2
          = (.err e, b')) ∧
      (m.map Prod.fst).Nodup ∧ ∀ k, m.lookup k = l.reverse.lookup k := by
  unfold decMap at h
  rw [bind_apply, decEntries_eq, decCounted_eq, bind_apply] at h
  rcases hg : getCount ca fa b with ⟨o, b1⟩
  rw [hg] at h
  cases o with
  | ok r =>
    simp only at h
    rcases hc : countedBody (decEntry dk dv ca fa) r b1 with ⟨o2, b3⟩
    rw [hc] at h
    cases o2 with
    | ok l =>
      simp only [pure_apply, Prod.mk.injEq, Out.ok.injEq] at h
      obtain ⟨rfl, rfl⟩ := h
      obtain ⟨b2, hrun, he⟩ := countedBody_runs hc
      have hlast : (l.foldl mapInsert []).map Prod.fst |>.Nodup := nodup_foldl_mapInsert l [] (by simp)
      have hlook : ∀ k, (l.foldl mapInsert []).lookup k = l.reverse.lookup k := by
        intro k
        rw [lookup_foldl_mapInsert]
        simp
      rcases r with ⟨n, _ | t⟩
      · have := (repeatM_iff _ _ _ _ _).mp hc
        exact ⟨_, b1, l, b3, rfl, this.1, .inl ⟨rfl, fun _ => this.2⟩, hlast, hlook⟩
      · refine ⟨_, b1, l, b2, rfl, hrun, ?_, hlast, hlook⟩
        rcases he with he | he
        · exact .inl ⟨he, fun h => nomatch h⟩
        · exact .inr ⟨by simp, he⟩
    | _ => simp at h
  | _ => simp at h

/-- C36 (map round trip): whatever order `l` the entries of a map `m` are encoded in, decoding gives a map with
the same lookups (and one entry per key), consuming exactly the encoding: the count, then key and value of each
entry. -/
theorem C36_map_roundtrip [DecidableEq α] (ek : Enc α) (ev : Enc β) (dk : Dec α) (dv : Dec β) (ca : Option CAttr)
    (fa : Option FAttr) (imgk : α → List Byte) (imgv : β → List Byte) (m l : List (α × β))
    (hm : (m.map Prod.fst).Nodup) (hp : l.Perm m)
    (hek : ∀ e ∈ m, Appends (ek e.1 ca (keyFattr fa)) (imgk e.1))
    (hev : ∀ e ∈ m, Appends (ev e.2 ca (valFattr fa)) (imgv e.2))
    (hdk : ∀ e ∈ m, ∀ suf, Reads (dk ca (keyFattr fa)) e.1 (imgk e.1) suf)
    (hdv : ∀ e ∈ m, ∀ suf, Reads (dv ca (valFattr fa)) e.2 (imgv e.2) suf) (hf : CountFits fa m.length) :
    ∃ w m', w = countWire ca fa m.length ++ l.flatMap (fun e => imgk e.1 ++ imgv e.2) ∧
      Appends (encMap ek ev l ca fa) w ∧ (∀ suf, Reads (decMap dk dv ca fa) m' w suf) ∧
      (m'.map Prod.fst).Nodup ∧ ∀ k, m'.lookup k = m.lookup k := by
  have hlen : l.length = m.length := hp.length_eq
  rw [← hlen]
  refine ⟨_, l.foldl mapInsert [], rfl, ?_, ?_, ?_, ?_⟩
  · unfold encMap
    refine Appends.seq (pushCount_appends ca fa _ hf.outside) (Appends.encAll fun e he => ?_)
    have he := hp.mem_iff.mp he
    exact Appends.seq (hek e he) (hev e he)
  · intro suf
    unfold decMap
    rw [decEntries_eq]
    refine (decCounted_reads (fun e he suf => ?_) (by rw [hlen]; exact hf) suf).map (fun l => l.foldl mapInsert [])
    have he := hp.mem_iff.mp he
    exact Reads.bind (hdk e he _) ((hdv e he suf).map fun v => (e.1, v))
  · exact nodup_foldl_mapInsert l [] (by simp)
  · intro k
    rw [lookup_foldl_mapInsert]
    simp only [List.lookup_nil, Option.or_none]
    exact lookup_perm hm ((List.reverse_perm l).trans hp) k

/-- C36 (header lines): a map of byte strings with `split = sep` is written as one line `key sep value term` for each
entry, where `term` is the `linend_value`, or CRLF under `linend`; it is read back when no key contains the separator
and no value the terminator earlier than at its end (LF and NUL under `linend`). -/
theorem C36_lines (ca : Option CAttr) (fr : FAttr) (sep term : List Byte) (m l : List (List Byte × List Byte))
    (hs : fr.split = some sep)
    (ht : fr.linendValue = some term ∨ fr.linendValue = none ∧ fr.linend = true ∧ term = [13, 10])
    (hm : (m.map Prod.fst).Nodup) (hp : l.Perm m) (hf : CountFits (some fr) m.length)
    (hk : ∀ e ∈ m, ∀ x y, e.1 ++ sep = x ++ sep ++ y → e.1.length ≤ x.length)
    (hv : ∀ e ∈ m, if fr.linendValue = none then (10 : Byte) ∉ e.2 ∧ (0 : Byte) ∉ e.2
      else ∀ x y, e.2 ++ term = x ++ term ++ y → e.2.length ≤ x.length) :
    ∃ w m', w = countWire ca (some fr) m.length ++ l.flatMap (fun e => e.1 ++ sep ++ (e.2 ++ term)) ∧
      Appends (encMap encBytes encBytes l ca (some fr)) w ∧
      (∀ suf, Reads (decMap decBytes decBytes ca (some fr)) m' w suf) ∧
      (m'.map Prod.fst).Nodup ∧ ∀ k, m'.lookup k = m.lookup k := by
  have hbeq : (List.instBEq : BEq (List Byte)) = instBEqOfDecidableEq := by
    have : ∀ a b : List Byte, (List.instBEq.beq a b) = (instBEqOfDecidableEq.beq a b) := by
      intro a b
      rw [Bool.eq_iff_iff]
      show (a == b) = true ↔ decide (a = b) = true
      simp
    rw [show (List.instBEq : BEq (List Byte)) = ⟨List.instBEq.beq⟩ from rfl, funext fun a => funext fun b => this a b]
  rw [hbeq]
  have ek : keyFattr (some fr) = some { linendValue := some sep } := by simp [keyFattr, hs]
  have k1 : ∀ d, bytesWire ca (some { linendValue := some sep }) d = d ++ sep := fun d => rfl
  refine C36_map_roundtrip encBytes encBytes decBytes decBytes ca (some fr) (fun k => k ++ sep) (fun v => v ++ term) m l
    hm hp ?_ ?_ ?_ ?_ hf
  · intro e _
    rw [ek, ← k1]
    exact encBytes_appends _ _ _ fun k h => by simp [framingOf] at h
  · intro e he
    rcases ht with ht | ⟨ht, hl, rfl⟩
    · have ev : valFattr (some fr) = some { linendValue := some term } := by simp [valFattr, ht]
      have v1 : ∀ d, bytesWire ca (some { linendValue := some term }) d = d ++ term := fun d => rfl
      rw [ev, ← v1]
      exact encBytes_appends _ _ _ fun k h => by simp [framingOf] at h
    · have ev : valFattr (some fr) = some { linend := true } := by simp [valFattr, ht, hl]
      have v1 : ∀ d, bytesWire ca (some { linend := true }) d = d ++ [13, 10] := fun d => rfl
      rw [ev, ← v1]
      exact encBytes_appends _ _ _ fun k h => by simp [framingOf] at h
  · intro e he suf
    rw [ek, ← k1]
    exact decBytes_reads _ _ _ _ (hk e he)
  · intro e he suf
    have hv := hv e he
    rcases ht with ht | ⟨ht, hl, rfl⟩
    · have ev : valFattr (some fr) = some { linendValue := some term } := by simp [valFattr, ht]
      have v1 : ∀ d, bytesWire ca (some { linendValue := some term }) d = d ++ term := fun d => rfl
      rw [ev, ← v1]
      rw [ht, if_neg (by simp)] at hv
      exact decBytes_reads _ _ _ _ hv
    · have ev : valFattr (some fr) = some { linend := true } := by simp [valFattr, ht, hl]
      have v1 : ∀ d, bytesWire ca (some { linend := true }) d = d ++ [13, 10] := fun d => rfl
      rw [ev, ← v1]
      rw [ht, if_pos rfl] at hv
      exact decBytes_reads _ _ _ _ hv

/-- `Host: a` and `Via: b`, as in a text protocol (`split = ": "`, `linend`, `count = 2`). -/
example : decMap decBytes decBytes none (some { split := some [58, 32], linend := true, count := some 2 })
      ⟨[72, 58, 32, 97, 13, 10, 86, 58, 32, 98, 13, 10, 9], 0⟩
      = (.ok [([72], [97]), ([86], [98])], ⟨[72, 58, 32, 97, 13, 10, 86, 58, 32, 98, 13, 10, 9], 12⟩) := by decide +kernel

example : ∃ m' : List (List Byte × List Byte), Appends (encMap encBytes encBytes [([86], [98]), ([72], [97])] none
        (some { split := some [58, 32], linend := true, count := some 2 }))
        [86, 58, 32, 98, 13, 10, 72, 58, 32, 97, 13, 10] ∧ m'.lookup [86] = some [98] := by
  obtain ⟨w, m', hw, h1, _, _, h2⟩ :=
    C36_lines none { split := some [58, 32], linend := true, count := some 2 } [58, 32] [13, 10]
    [([72], [97]), ([86], [98])] [([86], [98]), ([72], [97])] rfl (.inr ⟨rfl, rfl, rfl⟩) (by decide)
    (List.Perm.swap _ _ _) rfl
    (by
      intro e he x y h
      simp only [List.mem_cons, List.not_mem_nil, or_false] at he
      match x, h with
      | [], h => rcases he with rfl | rfl <;> simp at h
      | _ :: x, _ => rcases he with rfl | rfl <;> simp)
    (by intro e he; rw [if_pos rfl]; revert e; decide)
  subst hw
  exact ⟨m', h1, h2 [86]⟩

/-- C36 (sets): a decoded set consists of the elements of the run behind the count, each once. -/
theorem C36_set [DecidableEq α] (d : Dec α) (ca : Option CAttr) (fa : Option FAttr) (b b' : Buf) (s : List α)
    (h : decSet d ca fa b = (.ok s, b')) :
    ∃ r b1 l b2, getCount ca fa b = (.ok r, b1) ∧ Runs (d ca fa) b1 l b2 ∧
      (b' = b2 ∧ (r.2 = none → l.length = r.1) ∨ r.2 ≠ none ∧ ∃ e, d ca fa b2 = (.err e, b')) ∧
      s.Nodup ∧ ∀ a, a ∈ s ↔ a ∈ l := by
  unfold decSet at h
  rw [bind_apply, decCounted_eq, bind_apply] at h
  rcases hg : getCount ca fa b with ⟨o, b1⟩
  rw [hg] at h
  cases o with
  | ok r =>
    simp only at h
    rcases hc : countedBody (d ca fa) r b1 with ⟨o2, b3⟩
    rw [hc] at h
    cases o2 with
    | ok l =>
      simp only [pure_apply, Prod.mk.injEq, Out.ok.injEq] at h
      obtain ⟨rfl, rfl⟩ := h
      obtain ⟨b2, hrun, he⟩ := countedBody_runs hc
      have h1 : (l.foldl setInsert []).Nodup := nodup_foldl_setInsert l [] (by simp)
      have h2 : ∀ a, a ∈ l.foldl setInsert [] ↔ a ∈ l := by
        intro a
        rw [mem_foldl_setInsert]
        simp
      rcases r with ⟨n, _ | t⟩
      · have := (repeatM_iff _ _ _ _ _).mp hc
        exact ⟨_, b1, l, b3, rfl, this.1, .inl ⟨rfl, fun _ => this.2⟩, h1, h2⟩
      · refine ⟨_, b1, l, b2, rfl, hrun, ?_, h1, h2⟩
        rcases he with he | he
        · exact .inl ⟨he, fun h => nomatch h⟩
        · exact .inr ⟨by simp, he⟩
    | _ => simp at h
  | _ => simp at h

/-- A duplicate key: the later value wins; a set keeps one copy. -/
example : decMap (decInt ⟨1, false⟩) (decInt ⟨1, false⟩) none none ⟨[3, 1, 5, 2, 6, 1, 7], 0⟩
      = (.ok [(1, 7), (2, 6)], ⟨[3, 1, 5, 2, 6, 1, 7], 7⟩) ∧
    decSet (decInt ⟨1, false⟩) none none ⟨[3, 4, 5, 4], 0⟩ = (.ok [4, 5], ⟨[3, 4, 5, 4], 4⟩) := by decide +kernel

/-- The hypotheses of the round trip are met by every map from `u16` to `u16` with fewer than 256 entries. -/
example (m l : List (Nat × Nat)) (hm : (m.map Prod.fst).Nodup) (hp : l.Perm m)
    (hv : ∀ e ∈ m, e.1 < 65536 ∧ e.2 < 65536) (hl : m.length < 256) :
    ∃ w m', w = UInt8.ofNat m.length :: l.flatMap (fun e => toBE 2 e.1 ++ toBE 2 e.2) ∧
      Appends (encMap (encInt ⟨2, false⟩) (encInt ⟨2, false⟩) l none none) w ∧
      (∀ suf, Reads (decMap (decInt ⟨2, false⟩) (decInt ⟨2, false⟩) none none) m' w suf) ∧
      (m'.map Prod.fst).Nodup ∧ ∀ k, m'.lookup k = m.lookup k :=
  C36_map_roundtrip _ _ _ _ none none (toBE 2) (toBE 2) m l hm hp
    (fun e h => (u16_roundtrip e.1 (hv e h).1).1) (fun e h => (u16_roundtrip e.2 (hv e h).2).1)
    (fun e h => (u16_roundtrip e.1 (hv e h).1).2) (fun e h => (u16_roundtrip e.2 (hv e h).2).2) hl

/-! ## C27 and C35 for maps and sets -/

/-- C27 fails for maps: a map with 256 entries decodes to the empty map. -/
theorem C27_map_violated : ∃ w b,
    encMap (encInt ⟨1, false⟩) encUnit ((List.range 256).map fun i => (i, ())) none none ⟨[], 0⟩
      = (.ok 257, ⟨w, 257⟩) ∧
    decMap (decInt ⟨1, false⟩) decUnit none none ⟨w, 0⟩ = (.ok [], b) ∧ b.pos = 1 :=
  ⟨0 :: (List.range 256).map UInt8.ofNat, ⟨0 :: (List.range 256).map UInt8.ofNat, 1⟩, by decide +kernel⟩

/-- C35 (sets): no more elements than bytes consumed. -/
theorem C35_set_bounded [DecidableEq α] (d : Dec α) (ca : Option CAttr) (fa : Option FAttr) (b b' : Buf) (s : List α)
    (hb : b.Ok) (hi : Inside (d ca fa)) (hc : Consumes (d ca fa)) (h : decSet d ca fa b = (.ok s, b')) :
    s.length ≤ b'.pos - b.pos ∧ b'.pos ≤ b.data.length := by
  unfold decSet at h
  rw [bind_apply] at h
  rcases hm : decCounted d ca fa b with ⟨o, b1⟩
  rw [hm] at h
  cases o with
  | ok l =>
    simp only [pure_apply, Prod.mk.injEq, Out.ok.injEq] at h
    obtain ⟨rfl, rfl⟩ := h
    have h1 := decCounted_length_le hi hc hb hm
    have h2 := length_foldl_setInsert l []
    simp only [List.length_nil, Nat.zero_add] at h2
    omega
  | _ => simp at h

/-- C35 (maps): no more entries than bytes consumed, if a key consumes at least one byte. -/
theorem C35_map_bounded [DecidableEq α] (dk : Dec α) (dv : Dec β) (ca : Option CAttr) (fa : Option FAttr) (b b' : Buf)
    (m : List (α × β)) (hb : b.Ok) (hik : Inside (dk ca (keyFattr fa))) (hiv : Inside (dv ca (valFattr fa)))
    (hc : Consumes (dk ca (keyFattr fa))) (h : decMap dk dv ca fa b = (.ok m, b')) :
    m.length ≤ b'.pos - b.pos ∧ b'.pos ≤ b.data.length := by
  have hi : Inside (decEntry dk dv ca fa) := hik.bind fun _ => hiv.bind fun _ => Inside.pure _
  have hce : Consumes (decEntry dk dv ca fa) := by
    intro b hb e b' h
    unfold decEntry at h
    rw [bind_apply] at h
    have h1 := hik.ok hb
    rcases hk : dk ca (keyFattr fa) b with ⟨o, b1⟩
    rw [hk] at h h1
    cases o with
    | ok k =>
      have h2 := hc b hb k b1 hk
      simp only [bind_apply] at h
      have h3 := hiv b1 h1
      rcases hv : dv ca (valFattr fa) b1 with ⟨o2, b2⟩
      rw [hv] at h h3
      cases o2 with
      | ok v =>
        simp only [pure_apply, Prod.mk.injEq] at h
        rw [← h.2]
        simp only at h3
        omega
      | _ => simp at h
    | _ => simp at h
  unfold decMap at h
  rw [bind_apply, decEntries_eq] at h
  rcases hm : decCounted (fun ca fa => decEntry dk dv ca fa) ca fa b with ⟨o, b1⟩
  rw [hm] at h
  cases o with
  | ok l =>
    simp only [pure_apply, Prod.mk.injEq, Out.ok.injEq] at h
    obtain ⟨rfl, rfl⟩ := h
    have h1 := decCounted_length_le (d := fun ca fa => decEntry dk dv ca fa) hi hce hb hm
    have h2 := length_foldl_mapInsert l []
    simp only [List.length_nil, Nat.zero_add] at h2
    omega
  | _ => simp at h

end JBytes
