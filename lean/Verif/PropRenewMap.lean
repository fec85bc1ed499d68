import Verif.PropRenew
import Verif.PropFormat
/-!
# C112 for maps, marked lists, `try_count` and enums told apart by words
-/

namespace JBytes
open M

variable {α β V : Type}

theorem all_mapInsert [DecidableEq α] {P : α × β → Prop} {m : List (α × β)} {e : α × β} (hm : ∀ x ∈ m, P x) (he : P e) :
    ∀ x ∈ mapInsert m e, P x := by
  intro x hx
  unfold mapInsert at hx
  split at hx
  · rw [List.mem_map] at hx
    obtain ⟨y, hy, rfl⟩ := hx
    split
    · rename_i h
      rw [h]
      exact he
    · exact hm y hy
  · rw [List.mem_append, List.mem_singleton] at hx
    rcases hx with hx | rfl
    · exact hm x hx
    · exact he

theorem all_foldl_mapInsert [DecidableEq α] {P : α × β → Prop} (l : List (α × β)) : ∀ m : List (α × β), (∀ x ∈ m, P x) →
    (∀ x ∈ l, P x) → ∀ x ∈ l.foldl mapInsert m, P x := by
  induction l with
  | nil => intro m hm _; exact hm
  | cons e l ih =>
    intro m hm hl
    rw [List.foldl_cons]
    exact ih _ (all_mapInsert hm (hl e (by simp))) fun x hx => hl x (by simp [hx])

theorem Renews.elements {m : M α} {e : α → M Nat} (h : Renews false m e) : ∀ (n : Nat) (b : Buf) (l : List α) (b' : Buf),
    b.Ok → JBytes.repeatM m n b = (.ok l, b') → l.length = n ∧ ∀ a ∈ l, Back false m (e a) a := by
  intro n
  induction n with
  | zero =>
    intro b l b' hb he
    rw [JBytes.repeatM, pure_apply, Prod.mk.injEq, Out.ok.injEq] at he
    obtain ⟨rfl, rfl⟩ := he
    exact ⟨rfl, by simp⟩
  | succ n ih =>
    intro b l b' hb he
    obtain ⟨a, b1, h1, h2⟩ := bind_ok he
    obtain ⟨as, b2, h3, h4⟩ := bind_ok h2
    rw [pure_apply, Prod.mk.injEq, Out.ok.injEq] at h4
    obtain ⟨rfl, rfl⟩ := h4
    obtain ⟨o1, p⟩ := h b a b1 hb h1
    obtain ⟨hl, q⟩ := ih b1 as b2 o1 h3
    refine ⟨by simp [hl], fun x hx => ?_⟩
    rw [List.mem_cons] at hx
    rcases hx with rfl | hx
    · exact p
    · exact q x hx

theorem Back.all {m : M α} {e : α → M Nat} : ∀ l : List α, (∀ a ∈ l, Back false m (e a) a) →
    Back false (repeatM m l.length) (encAll e l) l := by
  intro l
  induction l with
  | nil => intro _; exact ⟨[], Appends.pure0.writes, fun suf _ => Reads.pure _ _⟩
  | cons a l ih =>
    intro h
    obtain ⟨w1, p1, p2⟩ := h a (by simp)
    obtain ⟨w2, q1, q2⟩ := ih fun x hx => h x (by simp [hx])
    refine ⟨w1 ++ w2, p1.seq q1, fun suf _ => ?_⟩
    exact Reads.bind (p2 _ (fun h => nomatch h)) ((q2 suf (fun h => nomatch h)).map _)

/-- A count read from the input leaves room for any smaller one. -/
theorem Gives.countRoom (ca : Option CAttr) (fa : Option FAttr)
    (hf : ∀ fr, fa = some fr → fr.count = none ∧ fr.tryCount = none) :
    Gives (fun r _ => r.2 = none ∧ ∀ n, n ≤ r.1 → CountFits fa n) (JBytes.getCount ca fa) := by
  cases fa with
  | none =>
    refine Gives.takeU8.map fun v w _ => ⟨rfl, fun n hn => ?_⟩
    have := v.toNat_lt
    show n < 256
    dsimp only at hn
    omega
  | some fr =>
    obtain ⟨h1, h2⟩ := hf fr rfl
    have hs : statedCount (some fr) = none := by simp [statedCount, h1, h2]
    unfold JBytes.getCount
    simp only [h1, h2]
    cases ho : fr.byteCountOutside with
    | none =>
      simp only
      refine Gives.takeU8.map fun v w _ => ⟨rfl, fun n hn => ?_⟩
      have := v.toNat_lt
      have ho' : outsideWidth (some fr) = none := ho
      simp only [CountFits, hs, ho']
      dsimp only at hn
      omega
    | some k =>
      simp only
      refine (Gives.takeUint _ k).map fun v w h => ⟨rfl, fun n hn => ?_⟩
      have ho' : outsideWidth (some fr) = some k := ho
      simp only [CountFits, hs, ho']
      exact ⟨h.2.2, Nat.lt_of_le_of_lt hn h.2.1⟩

theorem Renews.entry {dk : Dec α} {ek : Enc α} {dv : Dec β} {ev : Enc β} {ca : Option CAttr} {fa : Option FAttr}
    (hk : Renews false (dk ca (keyFattr fa)) (fun v => ek v ca (keyFattr fa)))
    (hv : Renews false (dv ca (valFattr fa)) (fun v => ev v ca (valFattr fa))) :
    Renews false (decEntry dk dv ca fa) (fun e => do
      let a ← ek e.1 ca (keyFattr fa)
      let b ← ev e.2 ca (valFattr fa)
      return a + b) := by
  intro b x b' hb he
  obtain ⟨k, b1, e1, e2⟩ := bind_ok (m := dk ca (keyFattr fa)) he
  obtain ⟨v, b2, e3, e4⟩ := bind_ok (m := dv ca (valFattr fa)) e2
  rw [pure_apply, Prod.mk.injEq, Out.ok.injEq] at e4
  obtain ⟨rfl, rfl⟩ := e4
  obtain ⟨o1, w1, p1, p2⟩ := hk b k b1 hb e1
  obtain ⟨o2, w2, q1, q2⟩ := hv b1 v b2 o1 e3
  exact ⟨o2, w1 ++ w2, p1.seq q1, fun suf hs => Reads.bind (p2 _ (fun h => nomatch h)) ((q2 suf hs).map _)⟩

/-- C112 (maps): a decoded map, encoded with its entries in any order `l`, is decoded to a map with the same entries,
wherever it stands and whatever follows - also if the input named a key twice.
Missing from the full statement: `count` and `try_count` (`C112_map_violated` for `count`). -/
theorem C112_map_partial [DecidableEq α] (Ak Av : Option FAttr → Prop) (dk : Dec α) (ek : Enc α) (dv : Dec β) (ev : Enc β)
    (hk : Renewable false Ak α dk ek) (hv : Renewable false Av β dv ev) (ca : Option CAttr) (fa : Option FAttr)
    (hAk : Ak (keyFattr fa)) (hAv : Av (valFattr fa)) (hf : ∀ fr, fa = some fr → fr.count = none ∧ fr.tryCount = none)
    (b b' : Buf) (hp : b.pos ≤ b.data.length) (hs : b.data.length ≤ isizeMax) (v : List (α × β))
    (hd : decMap dk dv ca fa b = (.ok v, b')) (l : List (α × β)) (hl : l.Perm v) :
    (∀ k, l.lookup k = v.lookup k) ∧
    ∃ w, (∀ pre : List Byte, pre.length + w.length ≤ isizeMax →
        ∃ n, encMap ek ev l ca fa ⟨pre, pre.length⟩ = (.ok n, ⟨pre ++ w, pre.length + w.length⟩)) ∧
      ∀ pre suf : List Byte, pre.length + w.length + suf.length ≤ isizeMax →
        decMap dk dv ca fa ⟨pre ++ (w ++ suf), pre.length⟩ = (.ok l, ⟨pre ++ (w ++ suf), pre.length + w.length⟩) := by
  have hb : b.Ok := ⟨hp, hs⟩
  obtain ⟨es, b1, e1, e2⟩ := bind_ok (m := decEntries dk dv ca fa) hd
  rw [pure_apply, Prod.mk.injEq, Out.ok.injEq] at e2
  obtain ⟨rfl, rfl⟩ := e2
  obtain ⟨r, b2, e3, e4⟩ := bind_ok (m := getCount ca fa) e1
  obtain ⟨_, _, _, hr⟩ := Gives.countRoom ca fa hf b hb r b2 e3
  have ok2 := (Gives.countRoom ca fa hf).ok hb e3
  obtain ⟨n, t⟩ := r
  obtain ⟨rfl, hfit⟩ : t = none ∧ _ := hr
  obtain ⟨hn, hall⟩ := (Renews.entry (hk.renews ca _ hAk) (hv.renews ca _ hAv)).elements n b2 es b1 ok2 e4
  have hnd : ((es.foldl mapInsert []).map Prod.fst).Nodup := nodup_foldl_mapInsert es [] (by simp)
  have hnd' : (l.map Prod.fst).Nodup := (hl.map _).nodup_iff.mpr hnd
  have hlen : l.length ≤ n := by
    have := length_foldl_mapInsert es []
    rw [hl.length_eq]
    simp only [List.length_nil, Nat.zero_add] at this
    omega
  refine ⟨fun k => ?_, ?_⟩
  · apply Option.ext
    intro x
    rw [lookup_eq_some_iff_mem hnd', lookup_eq_some_iff_mem hnd, hl.mem_iff]
  · have hfl := hfit l.length hlen
    obtain ⟨w, w1, w2⟩ := Back.all l fun x hx => all_foldl_mapInsert es [] (by simp) hall x (hl.mem_iff.mp hx)
    refine ⟨countWire ca fa l.length ++ w, ((pushCount_appends ca fa _ hfl.outside).writes.seq w1), fun pre suf => ?_⟩
    have hres : countResult fa l.length = (l.length, none) := by
      unfold countResult
      cases fa with
      | none => rfl
      | some fr =>
        obtain ⟨h1, h2⟩ := hf fr rfl
        simp [h1, h2]
    have rd : Reads (decEntries dk dv ca fa) l (countWire ca fa l.length ++ w) suf := by
      refine Reads.bind (getCount_reads ca fa _ _ hfl) ?_
      rw [hres]
      exact w2 suf fun h => nomatch h
    have := rd.map fun l => l.foldl mapInsert []
    rw [foldl_mapInsert_self l [] (by simpa using hnd'), List.nil_append] at this
    exact this pre

/-- A map with a `u8` key named twice: the later value counts, and the map comes back. -/
example : decMap (decInt ⟨1, false⟩) (decInt ⟨2, false⟩) none none ⟨[3, 1, 0, 7, 2, 0, 8, 1, 0, 9], 0⟩ =
      (.ok [(1, 9), (2, 8)], ⟨[3, 1, 0, 7, 2, 0, 8, 1, 0, 9], 10⟩) ∧
    [(2, 8), (1, 9)].Perm [(1, 9), (2, 8)] := ⟨by decide +kernel, .swap ..⟩

example (b b' : Buf) (hp : b.pos ≤ b.data.length) (hs : b.data.length ≤ isizeMax) (v l : List (Nat × Nat))
    (hd : decMap (decInt ⟨1, false⟩) (decInt ⟨2, false⟩) none none b = (.ok v, b')) (hl : l.Perm v) :
    (∀ k, l.lookup k = v.lookup k) ∧
    ∃ w, (∀ pre : List Byte, pre.length + w.length ≤ isizeMax →
        ∃ n, encMap (encInt ⟨1, false⟩) (encInt ⟨2, false⟩) l none none ⟨pre, pre.length⟩ =
          (.ok n, ⟨pre ++ w, pre.length + w.length⟩)) ∧
      ∀ pre suf : List Byte, pre.length + w.length + suf.length ≤ isizeMax →
        decMap (decInt ⟨1, false⟩) (decInt ⟨2, false⟩) none none ⟨pre ++ (w ++ suf), pre.length⟩ =
          (.ok l, ⟨pre ++ (w ++ suf), pre.length + w.length⟩) :=
  C112_map_partial (· = none) (· = none) _ _ _ _ (.int _ (.mk _ _ (by decide)) fun _ h => nomatch h)
    (.int _ (.mk _ _ (by decide)) fun _ h => nomatch h) none none rfl rfl (fun _ h => nomatch h) b b' hp hs v hd l hl

/-- C112 fails for maps with `count`: of two entries with one key one is kept and written, and two are then wanted. -/
theorem C112_map_violated :
    decMap (decInt ⟨1, false⟩) (decInt ⟨1, false⟩) none (some { count := some 2 }) ⟨[1, 7, 1, 9], 0⟩ =
      (.ok [(1, 9)], ⟨[1, 7, 1, 9], 4⟩) ∧
    encMap (encInt ⟨1, false⟩) (encInt ⟨1, false⟩) [(1, 9)] none (some { count := some 2 }) ⟨[], 0⟩ =
      (.ok 2, ⟨[1, 9], 2⟩) ∧
    decMap (decInt ⟨1, false⟩) (decInt ⟨1, false⟩) none (some { count := some 2 }) ⟨[1, 9], 0⟩ =
      (.err ⟨2, .invalidByteLength⟩, ⟨[1, 9], 2⟩) := by
  refine ⟨?_, ?_, ?_⟩ <;> decide +kernel

/-- `Option<E>` with `enum E { A = 1 }`, as a field. -/
def maybeField : Field Val :=
  { attrs := {}
    dec := fun ca fa => mapM' (fun x : Option (Nat × List Val) => if x.isSome then .num 1 else .absent)
      (decOption (decEnum { variants := [{ disc := some 1 }] }) ca fa)
    enc := fun v ca fa => encOption (encEnum { variants := [{ disc := some 1 }] })
      (if v = .num 1 then some (0, ([] : List Val)) else none) ca fa
    dflt := .absent, noneV := .absent }

/-- `#[loop_skip_starts = "\x01"] Vec<u8>`, as a field. -/
def marksField : Field Val :=
  { attrs := { isUse := true, loopSkipStarts := some [1] }
    dec := fun ca fa => mapM' (fun l : List Nat => .bytes (l.map UInt8.ofNat)) (decVec 9 (decInt ⟨1, false⟩) ca fa)
    enc := fun v ca fa => match v with
      | .bytes l => encVec (encInt ⟨1, false⟩) (l.map (·.toNat)) ca fa
      | _ => return 0
    dflt := .absent, noneV := .absent }

unseal isizeMax in
/-- C112 fails if something follows an `Option` or a marked list.
1. an `Option` of an enum is `None` for an unknown tag, which is consumed but not written: the next field is then read
as the tag.
2. a flag behind a marked list was 5 and is written as 1, which is the marker. -/
theorem C112_follow_violated :
    (decodeTop (decStruct { fields := [maybeField, u8Field {}] }) [9, 1] = .ok [.absent, .num 1] ∧
      encodeTop (encStruct { fields := [maybeField, u8Field {}] }) [.absent, .num 1] = .ok ⟨[1], 1⟩ ∧
      decodeTop (decStruct { fields := [maybeField, u8Field {}] }) [1] = .err ⟨1, .invalidByteLength⟩) ∧
    (decodeTop (decStruct { fields := [marksField, boolField {}] }) [1, 7, 5] = .ok [.bytes [7], .num 1] ∧
      encodeTop (encStruct { fields := [marksField, boolField {}] }) [.bytes [7], .num 1] = .ok ⟨[1, 7, 1], 3⟩ ∧
      decodeTop (decStruct { fields := [marksField, boolField {}] }) [1, 7, 1] = .err ⟨3, .invalidByteLength⟩) := by
  refine ⟨⟨?_, ?_, ?_⟩, ⟨?_, ?_, ?_⟩⟩ <;> decide +kernel

/-! ## Instances for lists and words -/

/-- `#[loop_skip_starts = ";"] Vec<u16>` at the end of a message: bytes after the last element are dropped. -/
theorem marked_renewable : Renewable true (· = some { loopSkipStarts := some [59] }) (List Nat)
    (decVec 9 (decInt ⟨2, false⟩)) (encVec (encInt ⟨2, false⟩)) :=
  .loop 9 (fun fa h => ⟨[59], by simp, by rw [h]; rfl⟩) (.int _ (.mk _ _ (by decide)) fun fr h => by cases h; rfl)

unseal isizeMax in
example : decVec 9 (decInt ⟨2, false⟩) none (some { loopSkipStarts := some [59] }) ⟨[59, 1, 2, 59, 3, 4, 7, 7], 0⟩ =
      (.ok [258, 772], ⟨[59, 1, 2, 59, 3, 4, 7, 7], 6⟩) ∧
    encVec (encInt ⟨2, false⟩) [258, 772] none (some { loopSkipStarts := some [59] }) ⟨[], 0⟩ =
      (.ok 6, ⟨[59, 1, 2, 59, 3, 4], 6⟩) := by decide +kernel

/-- `#[try_count = 3] Vec<u16>` at the end of a message. -/
theorem tried_renewable : Renewable true (· = some { tryCount := some 3 }) (List Nat)
    (decVec 9 (decInt ⟨2, false⟩)) (encVec (encInt ⟨2, false⟩)) := by
  refine .tries 9 (fun fa h => ⟨_, 3, h, rfl, rfl, rfl, rfl⟩) ?_ ?_ (.int _ (.mk _ _ (by decide)) fun fr h => by cases h; rfl)
  · rintro ca fa rfl b x b' hb he
    have := (Good.decInt (p := false) (t := false) (N := 0) ⟨2, false⟩ ca (some { tryCount := some 3 }) (fun h => nomatch h)).1.ok hb
    rw [he] at this
    exact this
  · rintro ca fa rfl pre hp
    refine ⟨⟨pre.length, .invalidByteLength⟩, ?_⟩
    rw [((C19_byteorder ca (some { tryCount := some 3 }) _ rfl).1 ⟨2, false⟩ 0 rfl rfl).1]
    show (takeBytes 2 >>= _) _ = _
    rw [bind_apply, takeBytes_apply 2 _ ⟨Nat.le_refl _, hp⟩, if_pos (by simp)]

unseal isizeMax in
example : decVec 9 (decInt ⟨2, false⟩) none (some { tryCount := some 3 }) ⟨[1, 2, 3, 4, 7], 0⟩ =
      (.ok [258, 772], ⟨[1, 2, 3, 4, 7], 4⟩) ∧
    encVec (encInt ⟨2, false⟩) [258, 772] none (some { tryCount := some 3 }) ⟨[], 0⟩ =
      (.ok 4, ⟨[1, 2, 3, 4], 4⟩) := by decide +kernel

/-- `#[branch_starts_with] enum { #[branch_value = "GET"] A { x: bool }, #[branch_value = "PUT"] B }`. -/
def verbs : EnumDef Val :=
  { mode := .startsWith false, variants := [{ branchValue := some (.bytes [71, 69, 84]), fields := [boolField {}] },
      { branchValue := some (.bytes [80, 85, 84]) }] }

theorem verbs_apart : WordsApart verbs := by
  intro i v hi
  have hl : i < 2 := (List.getElem?_eq_some_iff.mp hi).1
  rcases i with _ | _ | i
  · cases hi
    exact ⟨rfl, fun j v' hj => by omega⟩
  · cases hi
    refine ⟨rfl, fun j v' hj hv' => ?_⟩
    obtain rfl : j = 0 := by omega
    cases hv'
    exact ⟨by decide, by decide⟩
  · omega

theorem verbs_renewable (A : Option FAttr → Prop) : Renewable false A (Nat × List Val) (decEnum verbs) (encEnum verbs) := by
  refine .words verbs Used (fun v => v.fields.map fun f => (false, .plain f)) rfl rfl verbs_apart ?_ ?_ ?_ ?_
  all_goals
    intro v hv
    simp only [verbs, List.mem_cons, List.not_mem_nil, or_false] at hv
  · rcases hv with rfl | rfl <;> exact ⟨rfl, rfl, rfl, by simp [NoLeak]⟩
  · rcases hv with rfl | rfl <;> exact ⟨rfl, by simp [Flags]⟩
  · rcases hv with rfl | rfl
    · intro p hp
      simp only [List.map_cons, List.map_nil, List.mem_singleton] at hp
      subst hp
      exact ⟨⟨⟨rfl, rfl, rfl, rfl, rfl, rfl⟩, rfl, rfl, (fun _ e h => by cases h), fun _ _ => rfl⟩, fun env => ⟨env, rfl⟩, .inl rfl, .inl rfl⟩
    · intro p hp; simp at hp
  · rcases hv with rfl | rfl
    · intro p hp f hf
      simp only [List.map_cons, List.map_nil, List.mem_singleton] at hp
      subst hp
      cases hf
      exact bool_renewable _ _ _
    · intro p hp; simp at hp

example (input : List Byte) (hs : input.length ≤ isizeMax) (v : Nat × List Val)
    (hd : decodeTop (decEnum verbs) input = .ok v) :
    ∃ w, w.length ≤ isizeMax → encodeTop (encEnum verbs) v = .ok ⟨w, w.length⟩ ∧ decodeTop (decEnum verbs) w = .ok v ∧
      ∀ v', decodeTop (decEnum verbs) w = .ok v' → encodeTop (encEnum verbs) v' = .ok ⟨w, w.length⟩ :=
  C112_top_partial false (fun _ => True) _ _ (verbs_renewable _) trivial input hs v hd

example : decodeTop (decEnum verbs) [71, 69, 84, 5, 1] = .ok (0, [.num 1]) ∧
    encodeTop (encEnum verbs) (0, [.num 1]) = .ok ⟨[71, 69, 84, 1], 4⟩ := by decide +kernel

end JBytes
