import Verif.PropHttp
import Verif.PropMap
/-!
# C101: requests with a map of headers, and with a method that is parsed

`Http` of examples/packet_http_example.rs (headers in a `HashMap`, at most 10 lines) and of
examples/packet_http_example_3.rs (the method is an enum, by `from_str`).
-/

namespace JBytes
open M

/-! ## Specification -/

/-- `m` is the map made by the lines `hs`: one entry for each key, with the value of the last line that has it. -/
def IsMapOf (m hs : List (List Byte × List Byte)) : Prop :=
  (m.map Prod.fst).Nodup ∧ ∀ k v, (k, v) ∈ m ↔ ∃ before after, hs = before ++ (k, v) :: after ∧ k ∉ after.map Prod.fst

/-- The value, with the headers as a map. -/
def Request.mapValue (q : Request) (m : List (List Byte × List Byte)) : List Pkt :=
  [.bytes q.method, .bytes q.uri, .bytes q.version, .ofMap m]

/-- The value, with the method as a variant. -/
def Request.methodValue (q : Request) (i : Nat) : List Pkt :=
  [.variant i [], .bytes q.uri, .bytes q.version, .record (q.headers.map fun h => .record (headerValue h))]

/-- The texts of the nine methods are words, and each is parsed to its method. -/
structure MethodText.Lawful (T : MethodText) : Prop where
  clean : ∀ i < 9, PieceClean [32] (T.print i)
  back : ∀ i < 9, T.parse (T.print i) = some i

/-! ## The map -/

theorem lookup_eq_some_iff_last {α β : Type} [DecidableEq α] (l : List (α × β)) (k : α) (v : β) :
    l.reverse.lookup k = some v ↔ ∃ before after, l = before ++ (k, v) :: after ∧ k ∉ after.map Prod.fst := by
  constructor
  · intro h
    obtain ⟨l1, l2, e, hn⟩ := List.lookup_eq_some_iff.mp h
    refine ⟨l2.reverse, l1.reverse, ?_, ?_⟩
    · have := congrArg List.reverse e
      simpa using this
    · intro hk
      rw [List.mem_map] at hk
      obtain ⟨x, hx, rfl⟩ := hk
      have := hn x (by simpa using hx)
      simp at this
  · rintro ⟨before, after, rfl, hn⟩
    refine List.lookup_eq_some_iff.mpr ⟨after.reverse, before.reverse, by simp, ?_⟩
    intro p hp
    have : p.1 ≠ k := fun e => hn (List.mem_map.mpr ⟨p, by simpa using hp, e⟩)
    simpa using fun e => this e.symm

theorem isMapOf_foldl (hs : List (List Byte × List Byte)) : IsMapOf (hs.foldl mapInsert []) hs := by
  have hn : ((hs.foldl mapInsert []).map Prod.fst).Nodup := nodup_foldl_mapInsert hs [] (by simp)
  refine ⟨hn, fun k v => ?_⟩
  rw [← lookup_eq_some_iff_mem hn, lookup_foldl_mapInsert, ← lookup_eq_some_iff_last]
  simp

theorem foldl_mapInsert_nodup (l : List (List Byte × List Byte)) : ∀ m : List (List Byte × List Byte),
    ((m ++ l).map Prod.fst).Nodup → l.foldl mapInsert m = m ++ l := by
  induction l with
  | nil => intro m _; simp
  | cons e l ih =>
    intro m h
    have hm : e.1 ∉ m.map Prod.fst := by
      rw [List.map_append, List.nodup_append] at h
      intro he
      exact h.2.2 e.1 he e.1 (by simp) rfl
    rw [List.foldl_cons, mapInsert, if_neg hm, ih _ (by simpa using h)]
    simp

/-- The field of the map. -/
def mapField : Field Pkt :=
  Pkt.map { isUse := true, split := some [58, 32], linend := some [13, 10], tryCount := some fun _ => 10 }

/-- Its modifiers. -/
def mapAttrs : FAttr := { split := some [58, 32], linendValue := some [13, 10], tryCount := some 10 }

/-- Key and value are read like those of a header line. -/
theorem entry_eq (ca : Option CAttr) (fa : Option FAttr) (b : Buf) :
    mapM' headerValue (decEntry decStr decStr none (some mapAttrs)) b = decStruct httpLine ca fa b := by
  have e0 : decStruct httpLine ca fa b =
    decFields false [lineField [58, 32], lineField [13, 10]] none none { vars := localVars [] ca } b := rfl
  have ek : keyFattr (some mapAttrs) = some { linendValue := some [58, 32] } := rfl
  have ev : valFattr (some mapAttrs) = some { linendValue := some [13, 10] } := rfl
  rw [e0, mapM'_apply, decEntry, ek, ev, bind_apply, decFields_cons, bind_apply, lineField_dec, mapM'_apply]
  rcases decStr none (some { linendValue := some [58, 32] }) b with ⟨o, b1⟩
  cases o with
  | ok k =>
    simp only [bind_apply]
    rw [show cacheVars (lineField [58, 32]).attrs none (({ vars := localVars [] ca } : Env Pkt).push (.bytes k)) = none from rfl,
      decFields_one, bind_apply, lineField_dec, mapM'_apply]
    rcases decStr none (some { linendValue := some [13, 10] }) b1 with ⟨o, b2⟩
    cases o <;> rfl
  | _ => rfl

theorem tryRepeatM_map {α β : Type} {m : M α} {m' : M β} {f : α → β} (h : ∀ b, mapM' f m b = m' b) (c : Nat) : ∀ b,
    mapM' (List.map f) (tryRepeatM m c) b = tryRepeatM m' c b := by
  induction c with
  | zero => intro b; rfl
  | succ c ih =>
    intro b
    have hb := h b
    rw [mapM'_apply] at hb ⊢
    unfold tryRepeatM
    rw [bind_apply, bind_apply, attempt_apply, attempt_apply, ← hb]
    rcases m b with ⟨o, b1⟩
    cases o with
    | ok a =>
      simp only [bind_apply]
      have := ih b1
      rw [mapM'_apply] at this
      rw [← this]
      rcases tryRepeatM m c b1 with ⟨o, b2⟩
      cases o <;> rfl
    | _ => rfl

theorem headerValue_inj : ∀ {l l' : List (List Byte × List Byte)}, l.map headerValue = l'.map headerValue → l = l' := by
  intro l
  induction l with
  | nil => intro l' h; cases l' with
    | nil => rfl
    | cons => simp at h
  | cons a l ih =>
    intro l' h
    cases l' with
    | nil => simp at h
    | cons a' l' =>
      simp only [List.map_cons, List.cons.injEq, headerValue, Pkt.bytes.injEq, and_true] at h
      rw [ih h.2, show a = a' from Prod.ext h.1.1 h.1.2]

theorem mapField_dec (env : Env Pkt) (b : Buf) : fieldStep mapField none env b =
    mapM' (fun l => Pkt.ofMap (l.foldl mapInsert [])) (tryRepeatM (decEntry decStr decStr none (some mapAttrs)) 10) b := by
  rw [fieldStep_plain mapField ⟨rfl, rfl, rfl, rfl, rfl, rfl⟩ rfl rfl rfl rfl rfl rfl none env b]
  show mapM' Pkt.ofMap (decMap decStr decStr none (some mapAttrs)) b = _
  rw [mapM'_apply, mapM'_apply, decMap, bind_apply, show decEntries decStr decStr none (some mapAttrs) b =
    tryRepeatM (decEntry decStr decStr none (some mapAttrs)) 10 b from rfl]
  rcases tryRepeatM (decEntry decStr decStr none (some mapAttrs)) 10 b with ⟨o, b1⟩
  cases o <;> rfl

theorem mapField_reads : ReadsHeaders mapField 10 (fun hs => .ofMap (hs.foldl mapInsert [])) none := by
  intro env hs pre r hc hl hp
  obtain ⟨hs', rest, n, k1, k2, k3, k4⟩ := headers_read none none hs 10 pre r hc hl hp
  refine ⟨hs', rest, n, k1, k2, k3, ?_⟩
  rw [decFields_one, bind_apply, mapField_dec, mapM'_apply]
  rw [← tryRepeatM_map (entry_eq none none) 10, mapM'_apply] at k4
  rcases h : tryRepeatM (decEntry decStr decStr none (some mapAttrs)) 10 ⟨pre ++ (headerLines hs ++ r), pre.length⟩ with ⟨o, b1⟩
  rw [h] at k4
  cases o with
  | ok l =>
    simp only [Prod.mk.injEq, Out.ok.injEq] at k4
    obtain ⟨e1, rfl⟩ := k4
    rw [headerValue_inj e1]
    rfl
  | _ => simp at k4

theorem httpMap_dec (ca : Option CAttr) (fa : Option FAttr) (b : Buf) : decStruct httpMap ca fa b =
    decFields false (requestFields mapField) none none { vars := localVars [] ca } b := rfl

/-- C101, for every input: the request that is read has the most header lines, up to 10; the map has the last value of each
key; what is consumed is the text of the request, and the bytes of a header line that breaks off; an input without a request is refused. -/
theorem C101_map_exact (ca : Option CAttr) (fa : Option FAttr) (pre r : List Byte) (hp : pre.length + r.length ≤ isizeMax) :
    (∃ (q : Request) (rest : List Byte) (n : Nat) (m : List (List Byte × List Byte)), q.Clean ∧ q.headers.length ≤ 10 ∧
      r = q.text ++ rest ∧ (q.headers.length = 10 ∧ n = 0 ∨ q.headers.length < 10 ∧ Broken rest n) ∧ IsMapOf m q.headers ∧
      decStruct httpMap ca fa ⟨pre ++ r, pre.length⟩ = (.ok (q.mapValue m), ⟨pre ++ r, pre.length + q.text.length + n⟩)) ∨
    ((¬ ∃ (q : Request) (rest : List Byte), q.Clean ∧ r = q.text ++ rest) ∧
      ∃ p b', decStruct httpMap ca fa ⟨pre ++ r, pre.length⟩ = (.err ⟨p, .fail⟩, b')) := by
  rw [httpMap_dec]
  rcases request_exact mapField_reads { vars := localVars [] ca } pre r hp with ⟨q, rest, n, k1, k2, k3, k4, k5⟩ | h
  · exact .inl ⟨q, rest, n, _, k1, k2, k3, k4, isMapOf_foldl _, k5⟩
  · exact .inr h

/-- C101: a request with a map of headers is written as its text, with one line for each entry in the order of iteration. -/
theorem C101_map_written (q : Request) (ca : Option CAttr) (fa : Option FAttr) :
    Writes (encStruct httpMap (q.mapValue q.headers) ca fa) q.text := by
  have hh : Writes (fieldEnc mapField none
      (((({ vars := localVars [] ca } : Env Pkt).push (.bytes q.method)).push (.bytes q.uri)).push (.bytes q.version))
      (.ofMap q.headers)) (headerLines q.headers) := by
    refine fieldEnc_plain mapField ⟨rfl, rfl, rfl, rfl, rfl, rfl⟩ rfl rfl rfl rfl none _ _ _ ?_
    have hl : Appends (encAll (fun e : List Byte × List Byte => do
        let a ← encBytes e.1 none (keyFattr (some mapAttrs))
        let b ← encBytes e.2 none (valFattr (some mapAttrs))
        return a + b) q.headers) (headerLines q.headers) := by
      have : headerLines q.headers = q.headers.flatMap fun e => (e.1 ++ [58, 32]) ++ (e.2 ++ [13, 10]) := by
        rw [headerLines, List.flatMap_def]
        congr 1
        refine List.map_congr_left fun h _ => ?_
        simp only [headerLine, List.append_assoc]
      rw [this]
      refine Appends.encAll fun e _ => Appends.seq ?_ ?_
      · exact encBytes_appends e.1 none (some { linendValue := some [58, 32] }) (by intro k h; cases h)
      · exact encBytes_appends e.2 none (some { linendValue := some [13, 10] }) (by intro k h; cases h)
    have e : (q.headers.map fun e => Pkt.record [.bytes e.1, .bytes e.2]).map Pkt.entry = q.headers := by
      rw [List.map_map]
      exact (List.map_congr_left fun h _ => rfl).trans (List.map_id _)
    refine ((Appends.pure0.writes).seq hl.writes).congr fun b => ?_
    show encMap encBytes encBytes ((q.headers.map fun e => Pkt.record [.bytes e.1, .bytes e.2]).map Pkt.entry) none (some mapAttrs) b = _
    rw [e]
    rfl
  have := encFields_cons_writes (line_writes [32] q.method none { vars := localVars [] ca })
    (encFields_cons_writes (line_writes [32] q.uri none _) (encFields_cons_writes (line_writes [13, 10] q.version none _)
      (encFields_cons_writes hh (encFields_nil_writes none _))))
  rw [List.append_nil] at this
  exact this

/-- C101: a clean request with at most 10 headers and distinct keys comes back in front of data without `: `, whatever the order
of iteration (any list of the entries can be `q.headers`). -/
theorem C101_map_message_partial (q : Request) (hq : q.Clean) (h10 : q.headers.length ≤ 10)
    (hn : (q.headers.map Prod.fst).Nodup) (ca : Option CAttr) (fa : Option FAttr) (rest : List Byte)
    (hr : q.headers.length = 10 ∨ ¬ ∃ l r, rest = l ++ [58, 32] ++ r) :
    Reads (decStruct httpMap ca fa) (q.mapValue q.headers) q.text rest := by
  have hf : q.headers.foldl mapInsert [] = q.headers := foldl_mapInsert_nodup q.headers [] (by simpa using hn)
  have := request_back mapField_reads hq h10 { vars := localVars [] ca } rest hr
  intro pre hp
  rw [httpMap_dec, this pre hp]
  simp only [Request.valueWith, Request.mapValue, hf]

/-! ## The method -/

/-- The field of the method. -/
def methodField (T : MethodText) : Field Pkt :=
  Pkt.enum methodEnum { isUse := true, linend := some [32], fromStr := some T.conv }

theorem methodField_dec (T : MethodText) (ca : Option CAttr) (env : Env Pkt) (b : Buf) :
    fieldStep (methodField T) ca env b = (decStr ca (some { linendValue := some [32] }) >>= fun s =>
      match T.parse s with
      | some i => (Pure.pure (.variant i []) : M Pkt)
      | none => fail .fail) b := by
  rw [fieldStep, bind_apply, toCode_ok _ _ (by intro e he; cases he)]
  rw [show ownModifiers (methodField T).attrs env = some { linendValue := some [32] } from rfl]
  simp only [decField, skipOffset, methodField, Pkt.enum, bind_apply, pure_apply, Bool.or_self, Bool.false_eq_true, if_false]
  rcases decStr ca (some { linendValue := some [32] }) b with ⟨o, b1⟩
  cases o with
  | ok s =>
    simp only [MethodText.conv]
    cases T.parse s <;> rfl
  | _ => rfl

/-- Fields that do not look at the scope. -/
theorem decFields_env {fs : List (Field V)} {ca : Option CAttr}
    (h : ∀ f ∈ fs, f.attrs.variableName = none ∧ ∀ env env' b, fieldStep f ca env b = fieldStep f ca env' b) :
    ∀ (env env' : Env V) (b : Buf), decFields false fs ca none env b = decFields false fs ca none env' b := by
  induction fs with
  | nil => intro env env' b; rfl
  | cons f fs ih =>
    intro env env' b
    obtain ⟨h1, h2⟩ := h f (by simp)
    rw [decFields_cons, decFields_cons, bind_apply, bind_apply, h2 env env' b]
    rcases fieldStep f ca env' b with ⟨o, b1⟩
    cases o with
    | ok v =>
      simp only [cacheVars, h1, bind_apply]
      rw [ih (fun g hg => h g (by simp [hg])) (env.push v) (env'.push v) b1]
    | _ => rfl

/-- The fields behind the method. -/
def restFields : List (Field Pkt) := [lineField [32], lineField [13, 10], headersField]

theorem restFields_env (env env' : Env Pkt) (b : Buf) :
    decFields false restFields none none env b = decFields false restFields none none env' b := by
  refine decFields_env ?_ env env' b
  intro f hf
  simp only [restFields, List.mem_cons, List.not_mem_nil, or_false] at hf
  rcases hf with rfl | rfl | rfl
  · exact ⟨rfl, fun _ _ _ => by rw [lineField_dec, lineField_dec]⟩
  · exact ⟨rfl, fun _ _ _ => by rw [lineField_dec, lineField_dec]⟩
  · exact ⟨rfl, fun _ _ _ => by rw [headersField_dec, headersField_dec]⟩

theorem Request.value_inj {q q' : Request} (h : q.value = q'.value) : q = q' := by
  obtain ⟨m, u, v, l⟩ := q
  obtain ⟨m', u', v', l'⟩ := q'
  simp only [Request.value, List.cons.injEq, Pkt.bytes.injEq, Pkt.record.injEq, and_true] at h
  obtain ⟨rfl, rfl, rfl, h⟩ := h
  have : l.map headerValue = l'.map headerValue := by
    have := congrArg (List.map Pkt.parts) h
    simpa [List.map_map, Function.comp_def, Pkt.parts] using this
  rw [headerValue_inj this]

/-- C101, for every input: what is read is what `Http` of C100 reads, if the method is one; everything else is refused. -/
theorem C101_method_exact (T : MethodText) (ca : Option CAttr) (fa : Option FAttr) (pre r : List Byte)
    (hp : pre.length + r.length ≤ isizeMax) :
    (∃ (q : Request) (i : Nat) (b' : Buf), decStruct http ca fa ⟨pre ++ r, pre.length⟩ = (.ok q.value, b') ∧
      T.parse q.method = some i ∧ decStruct (httpParsed T) ca fa ⟨pre ++ r, pre.length⟩ = (.ok (q.methodValue i), b')) ∨
    ((¬ ∃ (q : Request) (i : Nat) (b' : Buf), decStruct http ca fa ⟨pre ++ r, pre.length⟩ = (.ok q.value, b') ∧
        T.parse q.method = some i) ∧
      ∃ p b', decStruct (httpParsed T) ca fa ⟨pre ++ r, pre.length⟩ = (.err ⟨p, .fail⟩, b')) := by
  have e3 : ∀ b, decStruct (httpParsed T) ca fa b =
    decFields false (methodField T :: restFields) none none { vars := localVars [] ca } b := fun b => rfl
  have e2 : ∀ b, decStruct http ca fa b =
    decFields false (lineField [32] :: restFields) none none { vars := localVars [] ca } b := fun b => rfl
  have hx := C100_exact ca fa pre r hp
  have h3 : decStruct (httpParsed T) ca fa ⟨pre ++ r, pre.length⟩ =
      match decStr none (some { linendValue := some [32] }) ⟨pre ++ r, pre.length⟩ with
      | (.ok m, b1) => match T.parse m with
        | some i => match decFields false restFields none none {} b1 with
          | (.ok vs, b2) => (.ok (.variant i [] :: vs), b2)
          | (.err e, b2) => (.err e, b2)
          | (.panic, b2) => (.panic, b2)
          | (.timeout, b2) => (.timeout, b2)
        | none => (.err ⟨b1.pos, .fail⟩, b1)
      | (.err e, b1) => (.err e, b1)
      | (.panic, b1) => (.panic, b1)
      | (.timeout, b1) => (.timeout, b1) := by
    rw [e3, decFields_cons, bind_apply, methodField_dec, bind_apply]
    rcases decStr none (some { linendValue := some [32] }) ⟨pre ++ r, pre.length⟩ with ⟨o, b1⟩
    cases o with
    | ok m =>
      simp only
      cases T.parse m with
      | some i =>
        simp only [pure_apply, bind_apply]
        rw [show cacheVars (methodField T).attrs none (({ vars := localVars [] ca } : Env Pkt).push (.variant i [])) = none from rfl,
          restFields_env _ {}]
        rcases decFields false restFields none none {} b1 with ⟨o, b2⟩
        cases o <;> rfl
      | none => rfl
    | _ => rfl
  have h2 : decStruct http ca fa ⟨pre ++ r, pre.length⟩ =
      match decStr none (some { linendValue := some [32] }) ⟨pre ++ r, pre.length⟩ with
      | (.ok m, b1) => match decFields false restFields none none {} b1 with
          | (.ok vs, b2) => (.ok (.bytes m :: vs), b2)
          | (.err e, b2) => (.err e, b2)
          | (.panic, b2) => (.panic, b2)
          | (.timeout, b2) => (.timeout, b2)
      | (.err e, b1) => (.err e, b1)
      | (.panic, b1) => (.panic, b1)
      | (.timeout, b1) => (.timeout, b1) := by
    rw [e2, decFields_cons, bind_apply, lineField_dec, mapM'_apply]
    rcases decStr none (some { linendValue := some [32] }) ⟨pre ++ r, pre.length⟩ with ⟨o, b1⟩
    cases o with
    | ok m =>
      simp only [bind_apply]
      rw [show cacheVars (lineField [32]).attrs none (({ vars := localVars [] ca } : Env Pkt).push (.bytes m)) = none from rfl,
        restFields_env _ {}]
      rcases decFields false restFields none none {} b1 with ⟨o, b2⟩
      cases o <;> rfl
    | _ => rfl
  rcases hx with ⟨q, rest, n, -, -, -, -, k⟩ | ⟨-, p, b', k⟩
  · have k' := k
    rw [h2] at k'
    rw [h3]
    generalize decStr none (some { linendValue := some [32] }) ⟨pre ++ r, pre.length⟩ = x at k' ⊢
    obtain ⟨o, b1⟩ := x
    cases o with
    | ok m =>
      simp only at k' ⊢
      generalize decFields false restFields none none {} b1 = x at k' ⊢
      obtain ⟨o, b2⟩ := x
      cases o with
      | ok vs =>
        simp only [Prod.mk.injEq, Out.ok.injEq, Request.value, List.cons.injEq, Pkt.bytes.injEq] at k'
        obtain ⟨⟨rfl, hvs⟩, rfl⟩ := k'
        cases ht : T.parse q.method with
        | some i => exact .inl ⟨q, i, _, k, ht, by rw [hvs]; rfl⟩
        | none =>
          refine .inr ⟨?_, _, _, rfl⟩
          rintro ⟨q', i, b', e1, e2⟩
          rw [k] at e1
          simp only [Prod.mk.injEq, Out.ok.injEq] at e1
          rw [← Request.value_inj e1.1, ht] at e2
          cases e2
      | _ => simp at k'
    | _ => simp at k'
  · refine .inr ⟨?_, ?_⟩
    · rintro ⟨q, i, b'', e1, _⟩
      rw [k] at e1
      cases e1
    · rw [h2] at k
      rw [h3]
      generalize decStr none (some { linendValue := some [32] }) ⟨pre ++ r, pre.length⟩ = x at k ⊢
      obtain ⟨o, b1⟩ := x
      cases o with
      | ok m =>
        simp only at k ⊢
        cases T.parse m with
        | none => exact ⟨_, _, rfl⟩
        | some i =>
          simp only
          generalize decFields false restFields none none {} b1 = x at k ⊢
          obtain ⟨o, b2⟩ := x
          cases o with
          | err e =>
            simp only [Prod.mk.injEq, Out.err.injEq] at k
            obtain ⟨rfl, rfl⟩ := k
            exact ⟨_, _, rfl⟩
          | _ => simp at k
      | err e =>
        simp only [Prod.mk.injEq, Out.err.injEq] at k
        obtain ⟨rfl, rfl⟩ := k
        exact ⟨_, _, rfl⟩
      | _ => simp at k

/-- C101: a request is written as its text, the method as its name (and not again as a variant, because of `byte_count_disable`). -/
theorem C101_method_written (T : MethodText) (q : Request) (i : Nat) (hi : i < 9) (ca : Option CAttr) (fa : Option FAttr) :
    Writes (encStruct (httpParsed T) (q.methodValue i) ca fa) { q with method := T.print i : Request }.text := by
  have hm : ∀ env : Env Pkt, Writes (fieldEnc (methodField T) none env (.variant i [])) (T.print i ++ [32]) := by
    intro env
    have h1 : Writes (encBytes (T.print i) none (some { linendValue := some [32] })) (T.print i ++ [32]) :=
      (encBytes_appends (T.print i) none (some { linendValue := some [32] }) (by intro k h; cases h)).writes
    have h2 : Writes (encEnum methodEnum (i, []) none (some { linendValue := some [32] })) [] := by
      have : ∃ v num, (methodEnum.variants.zip methodEnum.numbers)[i]? = some (v, num) ∧ v.attrs = {} ∧ v.fields = [] := by
        match i, hi with
        | 0, _ | 1, _ | 2, _ | 3, _ | 4, _ | 5, _ | 6, _ | 7, _ | 8, _ => exact ⟨_, _, rfl, rfl, rfl⟩
      obtain ⟨v, num, e, ha, hf⟩ := this
      refine Appends.pure0.writes.congr fun b => ?_
      rw [encEnum, e]
      show encVariant methodEnum v num [] none (some { linendValue := some [32] }) b = _
      rw [encVariant, ha, hf]
      rfl
    have := h1.seq h2
    rw [List.append_nil] at this
    exact this.congr fun b => rfl
  have hh := headersField_writes q.headers (((({ vars := localVars [] ca } : Env Pkt).push (.variant i [])).push (.bytes q.uri)).push (.bytes q.version))
  have := encFields_cons_writes (hm { vars := localVars [] ca })
    (encFields_cons_writes (line_writes [32] q.uri none _) (encFields_cons_writes (line_writes [13, 10] q.version none _)
      (encFields_cons_writes hh (encFields_nil_writes none _))))
  rw [List.append_nil] at this
  exact this

/-- C101: a request with one of the nine methods comes back in front of data without `: `. -/
theorem C101_method_message_partial (T : MethodText) (hT : T.Lawful) (i : Nat) (hi : i < 9) (q : Request) (hm : q.method = T.print i)
    (hu : PieceClean [32] q.uri) (hv : PieceClean [13, 10] q.version) (hh : ∀ h ∈ q.headers, HeaderClean h)
    (h20 : q.headers.length ≤ 20) (ca : Option CAttr) (fa : Option FAttr) (rest : List Byte)
    (hr : q.headers.length = 20 ∨ ¬ ∃ l r, rest = l ++ [58, 32] ++ r) :
    Reads (decStruct (httpParsed T) ca fa) (q.methodValue i) q.text rest := by
  intro pre hp
  have h := C100_message_partial q ⟨hm ▸ hT.clean i hi, hu, hv, hh⟩ h20 ca fa rest hr pre hp
  rcases C101_method_exact T ca fa pre (q.text ++ rest) (by rw [List.length_append]; omega) with ⟨q', i', b', k1, k2, k3⟩ | ⟨k, _⟩
  · rw [h] at k1
    simp only [Prod.mk.injEq, Out.ok.injEq] at k1
    obtain ⟨e1, rfl⟩ := k1
    obtain rfl := Request.value_inj e1
    rw [hm, hT.back i hi] at k2
    cases k2
    exact k3
  · exact absurd ⟨q, i, _, h, by rw [hm]; exact hT.back i hi⟩ k

/-! ## Examples and counterexamples -/

/-- C101 in full, for the map: every header line of a request of the protocol is an entry of the map. -/
def headersBecomeEntries : Prop := ∀ q : Request, q.Standard → q.text.length ≤ isizeMax →
  ∃ m, decStruct httpMap none none ⟨q.text, 0⟩ = (.ok (q.mapValue m), ⟨q.text, q.text.length⟩) ∧ ∀ h ∈ q.headers, h ∈ m

/-- What is read from `r`, and how many bytes are consumed. -/
def readHttpMap (r : List Byte) : Option (Request × Nat) :=
  match decStruct httpMap none none ⟨r, 0⟩ with
  | (.ok vs, b) => (requestOf vs).map fun q => (q, b.pos)
  | _ => none

/-- Two lines with one key. -/
def cookieRequest : Request := getRequest [(ascii "Cookie", ascii "a"), (ascii "Cookie", ascii "b")]

theorem cookieRequest_standard : cookieRequest.Standard := getRequest_standard _ (by
  intro h hh
  rcases List.mem_cons.mp hh with rfl | hh
  · exact ⟨by decide, by decide, ⟨_, rfl⟩, ⟨_, rfl⟩⟩
  · rw [List.mem_singleton] at hh
    subst hh
    exact ⟨by decide, by decide, ⟨_, rfl⟩, ⟨_, rfl⟩⟩)

/-- 11 header lines. -/
def elevenRequest : Request := getRequest ((List.range 11).map fun i => ([UInt8.ofNat (97 + i)], ascii "b"))

theorem IsMapOf.value {m hs : List (List Byte × List Byte)} (h : IsMapOf m hs) (k v : List Byte)
    (hm : (k, v) ∈ m) : ∀ v', (k, v') ∈ m → v' = v := by
  intro v' hm'
  have e1 := (lookup_eq_some_iff_mem h.1 _ _).mpr hm
  have e2 := (lookup_eq_some_iff_mem h.1 _ _).mpr hm'
  rw [e1] at e2
  exact (Option.some.inj e2).symm

unseal usizeMod isizeMax in
/-- C101 is violated: of two lines with the same key only the last is kept, so the value is not written as it was read, and the
11th header line is not read. -/
theorem C101_violated : ¬ headersBecomeEntries ∧ cookieRequest.Standard ∧
    readHttpMap cookieRequest.text = some (getRequest [(ascii "Cookie", ascii "b")], cookieRequest.text.length) ∧
    elevenRequest.headers.length = 11 ∧ (elevenRequest.headers.map Prod.fst).Nodup ∧
    readHttpMap elevenRequest.text =
      some ({ elevenRequest with headers := elevenRequest.headers.take 10 }, elevenRequest.text.length - 6) := by
  refine ⟨?_, cookieRequest_standard, by decide +kernel, by decide +kernel, by decide +kernel, by decide +kernel⟩
  intro h
  obtain ⟨m, h1, h2⟩ := h cookieRequest cookieRequest_standard (by rw [isizeMax_def]; decide)
  have ha := h2 (ascii "Cookie", ascii "a") (by decide)
  rcases C101_map_exact none none [] cookieRequest.text (by rw [isizeMax_def]; decide) with ⟨q, rest, n, m', -, -, -, -, k, e⟩ | ⟨h, _⟩
  · have hb := h2 (ascii "Cookie", ascii "b") (by decide)
    have e' : decStruct httpMap none none ⟨cookieRequest.text, 0⟩ = _ := e
    rw [h1] at e'
    simp only [Prod.mk.injEq, Out.ok.injEq, Request.mapValue, List.cons.injEq, Pkt.ofMap, Pkt.record.injEq] at e'
    have em : m = m' := by
      have := congrArg (List.map Pkt.entry) e'.1.2.2.2.1
      simpa [List.map_map, Function.comp_def, Pkt.entry] using this
    subst em
    exact absurd (k.value _ _ ha _ hb) (by decide)
  · exact h ⟨_, [], cookieRequest_standard.clean, by simp⟩

/-- The request of the example programs has distinct keys: it is read from its text and written back. -/
example : Reads (decStruct httpMap none none) (exampleRequest.mapValue exampleRequest.headers) exampleRequest.text [] ∧
    Writes (encStruct httpMap (exampleRequest.mapValue exampleRequest.headers) none none) exampleRequest.text :=
  ⟨C101_map_message_partial _ exampleRequest_standard.clean (by decide) (by decide +kernel) none none [] (.inr (by rintro ⟨l, r, h⟩; simp at h)),
    C101_map_written _ none none⟩

/-- The names of the methods, as in examples/packet_http_example_3.rs:31-44. -/
def methodNames : List (List Byte) :=
  ["GET", "POST", "HEAD", "PUT", "DELETE", "CONNECT", "OPTIONS", "TRACE", "PATCH"].map ascii

/-- The texts that `jkcenum` is expected to give them. -/
def plainMethods : MethodText where
  parse s := methodNames.findIdx? (· == s)
  print i := (methodNames[i]?).getD []

theorem plainMethods_lawful : plainMethods.Lawful where
  clean := by
    intro i hi
    match i, hi with
    | 0, _ | 1, _ | 2, _ | 3, _ | 4, _ | 5, _ | 6, _ | 7, _ | 8, _ => exact ⟨endsFirst_of_not_mem (by decide), _, rfl⟩
  back := by
    intro i hi
    match i, hi with
    | 0, _ | 1, _ | 2, _ | 3, _ | 4, _ | 5, _ | 6, _ | 7, _ | 8, _ => decide

/-- The request of the example program, and the one with the method `SET`, which is refused. -/
example : Reads (decStruct (httpParsed plainMethods) none none) (exampleRequest.methodValue 0) exampleRequest.text [] ∧
    Writes (encStruct (httpParsed plainMethods) (exampleRequest.methodValue 0) none none) exampleRequest.text ∧
    plainMethods.parse (ascii "SET") = none :=
  ⟨C101_method_message_partial _ plainMethods_lawful 0 (by decide) _ rfl exampleRequest_standard.clean.uri
    exampleRequest_standard.clean.version exampleRequest_standard.clean.headers (by decide) none none []
    (.inr (by rintro ⟨l, r, h⟩; simp at h)),
  C101_method_written plainMethods exampleRequest 0 (by decide) none none, by decide⟩

/-- The error, and how many bytes are consumed. -/
def refusal (r : List Byte) : Option (JErr × Nat) :=
  match decStruct (httpParsed plainMethods) none none ⟨r, 0⟩ with
  | (.err e, b) => some (e, b.pos)
  | _ => none

unseal usizeMod isizeMax in
example : refusal (ascii "SET / HTTP/1.1\r\n") = some (⟨4, .fail⟩, 4) := by decide +kernel

end JBytes
