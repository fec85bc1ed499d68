import Verif.Http
import Verif.PropFrames
import Verif.PropBytes
/-!
# C100: requests in text form

`Http` of examples/packet_http_example_2.rs: a request line and at most 20 header lines, each part a text that ends at a
separator.
-/

namespace JBytes
open M

/-! ## Specification -/

/-- A request: the request line and the header lines (bytes of texts). -/
structure Request where
  method : List Byte
  uri : List Byte
  version : List Byte
  headers : List (List Byte × List Byte)
  deriving DecidableEq

/-- `key: value` and the end of the line. -/
def headerLine (h : List Byte × List Byte) : List Byte := h.1 ++ [58, 32] ++ h.2 ++ [13, 10]

/-- Header lines one after the other. -/
def headerLines (hs : List (List Byte × List Byte)) : List Byte := (hs.map headerLine).flatten

/-- `METHOD uri version`, the end of the line, the header lines. -/
def Request.text (q : Request) : List Byte :=
  q.method ++ [32] ++ (q.uri ++ [32] ++ (q.version ++ [13, 10] ++ headerLines q.headers))

/-- The separator `x` is found behind `a` and not earlier. -/
def EndsFirst (x a : List Byte) : Prop := ∀ l r, a ++ x = l ++ x ++ r → a.length ≤ l.length

/-- `a` is the UTF-8 of a text. -/
def IsUtf8 (a : List Byte) : Prop := ∃ text : List Char, a = utf8Of text

/-- A part that ends at `x`. -/
def PieceClean (x a : List Byte) : Prop := EndsFirst x a ∧ IsUtf8 a

/-- A header whose key ends at `: ` and whose value ends at the end of the line. -/
def HeaderClean (h : List Byte × List Byte) : Prop := PieceClean [58, 32] h.1 ∧ PieceClean [13, 10] h.2

/-- A request whose parts end where they should. -/
structure Request.Clean (q : Request) : Prop where
  method : PieceClean [32] q.method
  uri : PieceClean [32] q.uri
  version : PieceClean [13, 10] q.version
  headers : ∀ h ∈ q.headers, HeaderClean h

/-- The bytes `r` are taken as a text up to `x`: the text, if any, and the number of bytes consumed. -/
inductive Piece (x r : List Byte) : Option (List Byte) → Nat → Prop where
  | text (a rest : List Byte) : r = a ++ x ++ rest → EndsFirst x a → IsUtf8 a → Piece x r (some a) (a.length + x.length)
  /-- Not a text: refused, with the bytes consumed. -/
  | other (a rest : List Byte) : r = a ++ x ++ rest → EndsFirst x a → ¬ IsUtf8 a → Piece x r none (a.length + x.length)
  /-- No `x`: refused. -/
  | absent : (¬ ∃ l r', r = l ++ x ++ r') → Piece x r none 0

/-- No header line is taken from `r`, but `n` bytes are consumed in trying. -/
inductive Broken (r : List Byte) (n : Nat) : Prop where
  | key : Piece [58, 32] r none n → Broken r n
  | value (k : List Byte) (n1 n2 : Nat) : Piece [58, 32] r (some k) n1 → Piece [13, 10] (r.drop n1) none n2 → n = n1 + n2 →
      Broken r n

/-- The value of the Rust type. -/
def headerValue (h : List Byte × List Byte) : List Pkt := [.bytes h.1, .bytes h.2]

def Request.value (q : Request) : List Pkt :=
  [.bytes q.method, .bytes q.uri, .bytes q.version, .record (q.headers.map fun h => .record (headerValue h))]

/-- A request of the protocol: no blanks in method and URI, no carriage returns anywhere, no colons in keys. -/
structure Request.Standard (q : Request) : Prop where
  method : 32 ∉ q.method ∧ IsUtf8 q.method
  uri : 32 ∉ q.uri ∧ IsUtf8 q.uri
  version : 13 ∉ q.version ∧ IsUtf8 q.version
  headers : ∀ h ∈ q.headers, 58 ∉ h.1 ∧ 13 ∉ h.2 ∧ IsUtf8 h.1 ∧ IsUtf8 h.2

/-! ## Pieces -/

theorem EndsFirst.whole {x a rest l r : List Byte} (h : EndsFirst x a) (e : a ++ x ++ rest = l ++ x ++ r) :
    a.length ≤ l.length := by
  by_cases hl : a.length ≤ l.length
  · exact hl
  · refine h l ((a ++ x).drop (l ++ x).length) ?_
    have h1 : (a ++ x ++ rest).take (a ++ x).length = a ++ x := List.take_left
    have h2 := congrArg (List.take (a ++ x).length) e
    rw [h1, List.take_append] at h2
    rw [List.take_of_length_le (by simp only [List.length_append]; omega)] at h2
    have h3 : (a ++ x).drop (l ++ x).length = r.take ((a ++ x).length - (l ++ x).length) := by
      conv => lhs; rw [h2]
      rw [List.drop_left]
    rw [h3]
    exact h2

theorem endsFirst_of_not_mem {c : Byte} {x a : List Byte} (h : c ∉ a) : EndsFirst (c :: x) a := by
  intro l r e
  by_cases hl : a.length ≤ l.length
  · exact hl
  · exfalso
    refine h ?_
    have : (a ++ c :: x)[l.length]? = some c := by rw [e]; simp
    rw [List.getElem?_append_left (by omega)] at this
    exact List.mem_of_getElem? this

theorem Request.Standard.clean {q : Request} (h : q.Standard) : q.Clean where
  method := ⟨endsFirst_of_not_mem h.method.1, h.method.2⟩
  uri := ⟨endsFirst_of_not_mem h.uri.1, h.uri.2⟩
  version := ⟨endsFirst_of_not_mem h.version.1, h.version.2⟩
  headers := fun x hx => ⟨⟨endsFirst_of_not_mem (h.headers x hx).1, (h.headers x hx).2.2.1⟩,
    endsFirst_of_not_mem (h.headers x hx).2.1, (h.headers x hx).2.2.2⟩

/-- The field of a text up to `x`. -/
def lineField (x : List Byte) : Field Pkt := Pkt.text { isUse := true, linend := some x }

theorem lineField_dec (x : List Byte) (ca : Option CAttr) (env : Env Pkt) (b : Buf) :
    fieldStep (lineField x) ca env b = mapM' Pkt.bytes (decStr ca (some { linendValue := some x })) b :=
  fieldStep_plain (lineField x) ⟨rfl, rfl, rfl, rfl, rfl, rfl⟩ rfl rfl rfl rfl rfl rfl ca env b

/-- Every input is one of the cases of `Piece`, and that is what the decoder does. -/
theorem line_covers (x : List Byte) (ca : Option CAttr) (env : Env Pkt) (pre r : List Byte)
    (hs : pre.length + r.length ≤ isizeMax) :
    (∃ a rest, r = a ++ x ++ rest ∧ PieceClean x a ∧
      fieldStep (lineField x) ca env ⟨pre ++ r, pre.length⟩ = (.ok (.bytes a), ⟨pre ++ r, pre.length + (a.length + x.length)⟩)) ∨
    ∃ n p, Piece x r none n ∧
      fieldStep (lineField x) ca env ⟨pre ++ r, pre.length⟩ = (.err ⟨p, .fail⟩, ⟨pre ++ r, pre.length + n⟩) := by
  have hd : (pre ++ r).drop pre.length = r := List.drop_left
  obtain ⟨f1, f2, f3⟩ := C09_find_leftmost x (pre ++ r) pre.length (by simp) (by simpa using hs)
  rw [hd] at f1 f2 f3
  have eb : ∀ b, decBytes ca (some { linendValue := some x }) b = findSubsequence x b := fun b => rfl
  obtain ⟨t1, t2, t3⟩ := C28_text_decode ca (some { linendValue := some x }) ⟨pre ++ r, pre.length⟩
  by_cases ho : ∃ l r', r = l ++ x ++ r'
  · obtain ⟨a, rest, hr, hmin⟩ := f3 ho
    have hf := f1 a rest hr hmin
    have he : EndsFirst x a := fun l r' e => hmin l (r' ++ rest) (by rw [hr, e, List.append_assoc])
    by_cases ht : IsUtf8 a
    · left
      refine ⟨a, rest, hr, ⟨he, ht⟩, ?_⟩
      rw [lineField_dec, mapM'_apply, (t1 a _).mpr ⟨hf, ht⟩]
    · right
      refine ⟨_, pre.length + (a.length + x.length), .other a rest hr he ht, ?_⟩
      rw [lineField_dec, mapM'_apply, t2 a _ hf ht]
  · right
    refine ⟨0, pre.length, .absent ho, ?_⟩
    rw [lineField_dec, mapM'_apply, t3 _ _ (f2 ho)]
    rfl

theorem line_reads {x a : List Byte} (h : PieceClean x a) (ca : Option CAttr) (env : Env Pkt) (pre rest : List Byte)
    (hs : pre.length + (a ++ x ++ rest).length ≤ isizeMax) :
    fieldStep (lineField x) ca env ⟨pre ++ (a ++ x ++ rest), pre.length⟩ =
      (.ok (.bytes a), ⟨pre ++ (a ++ x ++ rest), pre.length + (a.length + x.length)⟩) := by
  have same : ∀ a' rest', a ++ x ++ rest = a' ++ x ++ rest' → EndsFirst x a' → a' = a := by
    intro a' rest' e1 e2
    have l1 := h.1.whole e1
    have l2 := e2.whole e1.symm
    have := congrArg (List.take a.length) e1
    rw [List.append_assoc, List.append_assoc, List.take_left, show a.length = a'.length by omega, List.take_left] at this
    exact this.symm
  rcases line_covers x ca env pre _ hs with ⟨a', rest', e1, e2, e3⟩ | ⟨n, p, e1, e2⟩
  · obtain rfl := same _ _ e1 e2.1
    exact e3
  · cases e1 with
    | other a' rest' k1 k2 k3 => exact absurd h.2 (same _ _ k1 k2 ▸ k3)
    | absent k1 => exact absurd ⟨a, rest, rfl⟩ k1

/-! ## Header lines -/

theorem decFields_cons_ok {f : Field V} {fs : List (Field V)} {ca : Option CAttr} {env : Env V} {b b1 : Buf} {v : V}
    (h : fieldStep f ca env b = (.ok v, b1)) (hv : f.attrs.variableName = none) :
    decFields false (f :: fs) ca none env b = mapM' (v :: ·) (decFields false fs ca none (env.push v)) b1 := by
  rw [decFields_cons, bind_apply, h]
  simp only [cacheVars, hv]
  rfl

theorem decFields_cons_err {f : Field V} {fs : List (Field V)} {ca : Option CAttr} {env : Env V} {b b1 : Buf} {e : JErr}
    (h : fieldStep f ca env b = (.err e, b1)) : decFields false (f :: fs) ca none env b = (.err e, b1) := by
  rw [decFields_cons, bind_apply, h]

/-- A header line is read, or some bytes are consumed in vain. -/
theorem header_covers (ca : Option CAttr) (fa : Option FAttr) (pre r : List Byte) (hs : pre.length + r.length ≤ isizeMax) :
    (∃ h rest, HeaderClean h ∧ r = headerLine h ++ rest ∧
      decStruct httpLine ca fa ⟨pre ++ r, pre.length⟩ =
        (.ok (headerValue h), ⟨pre ++ r, pre.length + (headerLine h).length⟩)) ∨
    ∃ n p, Broken r n ∧ decStruct httpLine ca fa ⟨pre ++ r, pre.length⟩ = (.err ⟨p, .fail⟩, ⟨pre ++ r, pre.length + n⟩) := by
  have e0 : ∀ b, decStruct httpLine ca fa b =
    decFields false [lineField [58, 32], lineField [13, 10]] none none { vars := localVars [] ca } b := fun b => rfl
  rw [e0]
  rcases line_covers [58, 32] none { vars := localVars [] ca } pre r hs with ⟨k, r1, e1, c1, d1⟩ | ⟨n, p, c1, d1⟩
  · rw [decFields_cons_ok d1 rfl, mapM'_apply]
    subst e1
    have hb : (⟨pre ++ (k ++ [58, 32] ++ r1), pre.length + (k.length + ([58, 32] : List Byte).length)⟩ : Buf) =
        ⟨(pre ++ (k ++ [58, 32])) ++ r1, (pre ++ (k ++ [58, 32])).length⟩ := by
      simp only [List.append_assoc, List.length_append]
    rw [hb, decFields_one, bind_apply]
    rcases line_covers [13, 10] none (({ vars := localVars [] ca } : Env Pkt).push (.bytes k)) (pre ++ (k ++ [58, 32])) r1
      (by simp only [List.length_append] at hs ⊢; omega) with ⟨v, r2, e2, c2, d2⟩ | ⟨n, p, c2, d2⟩
    · left
      refine ⟨(k, v), r2, ⟨c1, c2⟩, ?_, ?_⟩
      · rw [e2]; simp only [headerLine, List.append_assoc]
      · rw [d2]
        simp only [pure_apply, headerValue, headerLine, List.append_assoc, List.length_append, Nat.add_assoc]
    · right
      refine ⟨_, p, .value k _ n (.text k r1 rfl c1.1 c1.2) ?_ rfl, ?_⟩
      · have : (k ++ [58, 32] ++ r1).drop (k.length + ([58, 32] : List Byte).length) = r1 := by
          rw [show k.length + ([58, 32] : List Byte).length = (k ++ [58, 32]).length by simp, List.drop_left]
        rw [this]
        exact c2
      · rw [d2]
        simp only [List.append_assoc, List.length_append, Nat.add_assoc]
  · right
    exact ⟨n, p, .key c1, decFields_cons_err d1⟩

theorem header_reads {h : List Byte × List Byte} (hc : HeaderClean h) (ca : Option CAttr) (fa : Option FAttr)
    (pre rest : List Byte) (hs : pre.length + (headerLine h ++ rest).length ≤ isizeMax) :
    decStruct httpLine ca fa ⟨pre ++ (headerLine h ++ rest), pre.length⟩ =
      (.ok (headerValue h), ⟨pre ++ (headerLine h ++ rest), pre.length + (headerLine h).length⟩) := by
  have e0 : ∀ b, decStruct httpLine ca fa b =
    decFields false [lineField [58, 32], lineField [13, 10]] none none { vars := localVars [] ca } b := fun b => rfl
  obtain ⟨k, v⟩ := h
  have er : headerLine (k, v) ++ rest = k ++ [58, 32] ++ (v ++ [13, 10] ++ rest) := by
    simp only [headerLine, List.append_assoc]
  rw [er] at hs ⊢
  rw [e0, decFields_cons_ok (line_reads hc.1 none _ pre _ hs) rfl, mapM'_apply]
  have hb : (⟨pre ++ (k ++ [58, 32] ++ (v ++ [13, 10] ++ rest)), pre.length + (k.length + ([58, 32] : List Byte).length)⟩ : Buf) =
      ⟨(pre ++ (k ++ [58, 32])) ++ (v ++ [13, 10] ++ rest), (pre ++ (k ++ [58, 32])).length⟩ := by
    simp only [List.append_assoc, List.length_append]
  rw [show (k, v).1 = k from rfl, hb, decFields_one, bind_apply, line_reads hc.2 none _ (pre ++ (k ++ [58, 32])) rest
    (by simp only [List.length_append] at hs ⊢; omega)]
  simp only [pure_apply, headerValue, headerLine, List.append_assoc, List.length_append, Nat.add_assoc]

/-- Where no header line is taken there is none. -/
theorem Broken.none {r : List Byte} {n : Nat} (hb : Broken r n) :
    ¬ ∃ h rest, HeaderClean h ∧ r = headerLine h ++ rest := by
  rintro ⟨⟨k, v⟩, rest, ⟨c1, c2⟩, rfl⟩
  have same : ∀ {x a a' : List Byte} {s s' : List Byte}, a ++ x ++ s = a' ++ x ++ s' → EndsFirst x a → EndsFirst x a' →
      a' = a := by
    intro x a a' s s' e h1 h2
    have l1 := h1.whole e
    have l2 := h2.whole e.symm
    have := congrArg (List.take a.length) e
    rw [List.append_assoc, List.append_assoc, List.take_left, show a.length = a'.length by omega, List.take_left] at this
    exact this.symm
  have er : headerLine (k, v) ++ rest = k ++ [58, 32] ++ (v ++ [13, 10] ++ rest) := by
    simp only [headerLine, List.append_assoc]
  rw [er] at hb
  cases hb with
  | key h =>
    cases h with
    | other a s e1 e2 e3 => exact e3 (same e1 c1.1 e2 ▸ c1.2)
    | absent e => exact e ⟨_, _, rfl⟩
  | value k' n1 n2 h1 h2 =>
    cases h1 with
    | text _ s e1 e2 e3 =>
      obtain rfl := same e1 c1.1 e2
      have : (k' ++ [58, 32] ++ (v ++ [13, 10] ++ rest)).drop (k'.length + ([58, 32] : List Byte).length) =
          v ++ [13, 10] ++ rest := by
        rw [show k'.length + ([58, 32] : List Byte).length = (k' ++ [58, 32]).length by simp, List.drop_left]
      rw [this] at h2
      cases h2 with
      | other a s e1 e2 e3 => exact e3 (same e1 c2.1 e2 ▸ c2.2)
      | absent e => exact e ⟨_, _, rfl⟩

theorem headerLines_cons (h : List Byte × List Byte) (hs : List (List Byte × List Byte)) :
    headerLines (h :: hs) = headerLine h ++ headerLines hs := rfl

/-- The loop of `try_count`. -/
theorem headers_cover (ca : Option CAttr) (fa : Option FAttr) (c : Nat) : ∀ (pre r : List Byte),
    pre.length + r.length ≤ isizeMax →
    ∃ hs rest n, (∀ h ∈ hs, HeaderClean h) ∧ r = headerLines hs ++ rest ∧
      (hs.length = c ∧ n = 0 ∨ hs.length < c ∧ Broken rest n) ∧
      tryRepeatM (decStruct httpLine ca fa) c ⟨pre ++ r, pre.length⟩ =
        (.ok (hs.map headerValue), ⟨pre ++ r, pre.length + (headerLines hs).length + n⟩) := by
  induction c with
  | zero =>
    intro pre r _
    exact ⟨[], r, 0, (fun h hh => nomatch hh), rfl, .inl ⟨rfl, rfl⟩, rfl⟩
  | succ c ih =>
    intro pre r hs
    unfold tryRepeatM
    rw [bind_apply, attempt_apply]
    rcases header_covers ca fa pre r hs with ⟨h, rest, e1, e2, e3⟩ | ⟨n, p, e1, e2⟩
    · rw [e3]
      simp only [bind_apply]
      subst e2
      have hb : (⟨pre ++ (headerLine h ++ rest), pre.length + (headerLine h).length⟩ : Buf) =
          ⟨(pre ++ headerLine h) ++ rest, (pre ++ headerLine h).length⟩ := by
        simp only [List.append_assoc, List.length_append]
      rw [hb]
      obtain ⟨hs', rest', n, k1, k2, k3, k4⟩ := ih (pre ++ headerLine h) rest
        (by simp only [List.length_append] at hs ⊢; omega)
      rw [k4]
      refine ⟨h :: hs', rest', n, ?_, by rw [k2, headerLines_cons, List.append_assoc], ?_, ?_⟩
      · intro g hg
        rcases List.mem_cons.mp hg with rfl | hg
        · exact e1
        · exact k1 g hg
      · simp only [List.length_cons]
        rcases k3 with k3 | k3
        · exact .inl ⟨by omega, k3.2⟩
        · exact .inr ⟨by omega, k3.2⟩
      · simp only [pure_apply, List.map_cons, headerLines_cons, List.append_assoc, List.length_append, Nat.add_assoc]
    · rw [e2]
      exact ⟨[], r, n, (fun h hh => nomatch hh), rfl, .inr ⟨Nat.succ_pos _, e1⟩, rfl⟩

/-- Header lines that are there are read, and then those that follow. -/
theorem headers_read (ca : Option CAttr) (fa : Option FAttr) : ∀ (hs : List (List Byte × List Byte)) (c : Nat) (pre r : List Byte),
    (∀ h ∈ hs, HeaderClean h) → hs.length ≤ c → pre.length + (headerLines hs ++ r).length ≤ isizeMax →
    ∃ hs' rest n, (∀ h ∈ hs', HeaderClean h) ∧ r = headerLines hs' ++ rest ∧
      ((hs ++ hs').length = c ∧ n = 0 ∨ (hs ++ hs').length < c ∧ Broken rest n) ∧
      tryRepeatM (decStruct httpLine ca fa) c ⟨pre ++ (headerLines hs ++ r), pre.length⟩ =
        (.ok ((hs ++ hs').map headerValue), ⟨pre ++ (headerLines hs ++ r), pre.length + (headerLines (hs ++ hs')).length + n⟩) := by
  intro hs
  induction hs with
  | nil =>
    intro c pre r _ _ hp
    exact headers_cover ca fa c pre r hp
  | cons h hs ih =>
    intro c pre r hc hl hp
    cases c with
    | zero => exact absurd hl (by simp)
    | succ c =>
      rw [headerLines_cons, List.append_assoc] at hp ⊢
      have hb : (⟨pre ++ (headerLine h ++ (headerLines hs ++ r)), pre.length + (headerLine h).length⟩ : Buf) =
          ⟨(pre ++ headerLine h) ++ (headerLines hs ++ r), (pre ++ headerLine h).length⟩ := by
        simp only [List.append_assoc, List.length_append]
      obtain ⟨hs', rest, n, k1, k2, k3, k4⟩ := ih c (pre ++ headerLine h) r (fun g hg => hc g (by simp [hg]))
        (by simpa using hl) (by simp only [List.length_append] at hp ⊢; omega)
      refine ⟨hs', rest, n, k1, k2, ?_, ?_⟩
      · simp only [List.cons_append, List.length_cons]
        rcases k3 with k3 | k3
        · exact .inl ⟨by omega, k3.2⟩
        · exact .inr ⟨by omega, k3.2⟩
      · unfold tryRepeatM
        rw [bind_apply, attempt_apply, header_reads (hc h (by simp)) ca fa pre _ hp]
        simp only [bind_apply]
        rw [hb, k4]
        simp only [pure_apply, List.map_cons, List.cons_append, headerLines_cons, List.append_assoc, List.length_append,
          Nat.add_assoc]

/-! ## Requests -/

/-- The field of the header lines. -/
def headersField : Field Pkt := Pkt.list httpLine { isUse := true, tryCount := some fun _ => 20 }

theorem headersField_dec (ca : Option CAttr) (env : Env Pkt) (b : Buf) : fieldStep headersField ca env b =
    mapM' (fun l => Pkt.record (l.map Pkt.record)) (tryRepeatM (decStruct httpLine ca (some { tryCount := some 20 })) 20) b :=
  fieldStep_plain headersField ⟨rfl, rfl, rfl, rfl, rfl, rfl⟩ rfl rfl rfl rfl rfl rfl ca env b

theorem decFields_cons_read {x a : List Byte} (h : PieceClean x a) {fs : List (Field Pkt)} {ca : Option CAttr} {env : Env Pkt}
    {pre rest : List Byte} (hs : pre.length + (a ++ x ++ rest).length ≤ isizeMax) :
    decFields false (lineField x :: fs) ca none env ⟨pre ++ (a ++ x ++ rest), pre.length⟩ =
      mapM' (Pkt.bytes a :: ·) (decFields false fs ca none (env.push (.bytes a)))
        ⟨(pre ++ (a ++ x)) ++ rest, (pre ++ (a ++ x)).length⟩ := by
  rw [decFields_cons_ok (line_reads h ca env pre rest hs) rfl]
  simp only [List.append_assoc, List.length_append]

theorem decFields_cons_cover (x : List Byte) (fs : List (Field Pkt)) (ca : Option CAttr) (env : Env Pkt) (pre r : List Byte)
    (hs : pre.length + r.length ≤ isizeMax) :
    (∃ a rest, r = a ++ x ++ rest ∧ PieceClean x a) ∨
    ((¬ ∃ a rest, r = a ++ x ++ rest ∧ PieceClean x a) ∧ ∃ n p,
      decFields false (lineField x :: fs) ca none env ⟨pre ++ r, pre.length⟩ = (.err ⟨p, .fail⟩, ⟨pre ++ r, pre.length + n⟩)) := by
  rcases line_covers x ca env pre r hs with ⟨a, rest, e1, e2, _⟩ | ⟨n, p, e1, e2⟩
  · exact .inl ⟨a, rest, e1, e2⟩
  · refine .inr ⟨?_, n, p, decFields_cons_err e2⟩
    rintro ⟨a, rest, rfl, hc⟩
    have := line_reads hc ca env pre rest hs
    rw [this] at e2
    cases e2

/-- The value, with the headers as `val`. -/
def Request.valueWith (val : List (List Byte × List Byte) → Pkt) (q : Request) : List Pkt :=
  [.bytes q.method, .bytes q.uri, .bytes q.version, val q.headers]

/-- The field `f` reads up to `c` header lines. -/
def ReadsHeaders (f : Field Pkt) (c : Nat) (val : List (List Byte × List Byte) → Pkt)
    (ca : Option CAttr) : Prop :=
  ∀ (env : Env Pkt) (hs : List (List Byte × List Byte)) (pre r : List Byte),
    (∀ h ∈ hs, HeaderClean h) → hs.length ≤ c → pre.length + (headerLines hs ++ r).length ≤ isizeMax →
    ∃ hs' rest n, (∀ h ∈ hs', HeaderClean h) ∧ r = headerLines hs' ++ rest ∧
      ((hs ++ hs').length = c ∧ n = 0 ∨ (hs ++ hs').length < c ∧ Broken rest n) ∧
      decFields false [f] ca none env ⟨pre ++ (headerLines hs ++ r), pre.length⟩ =
        (.ok [val (hs ++ hs')], ⟨pre ++ (headerLines hs ++ r), pre.length + (headerLines (hs ++ hs')).length + n⟩)

/-- The header lines of `Http`. -/
def headerRecords (hs : List (List Byte × List Byte)) : Pkt := .record (hs.map fun h => .record (headerValue h))

theorem headersField_reads (ca : Option CAttr) : ReadsHeaders headersField 20 headerRecords ca := by
  intro env hs pre r hc hl hp
  obtain ⟨hs', rest, n, k1, k2, k3, k4⟩ := headers_read ca (some { tryCount := some 20 }) hs 20 pre r hc hl hp
  refine ⟨hs', rest, n, k1, k2, k3, ?_⟩
  rw [decFields_one, bind_apply, headersField_dec, mapM'_apply, k4]
  simp only [pure_apply, List.map_map]
  rfl

/-- The fields of a request. -/
def requestFields (f : Field Pkt) : List (Field Pkt) := [lineField [32], lineField [32], lineField [13, 10], f]

theorem http_dec (ca : Option CAttr) (fa : Option FAttr) (b : Buf) : decStruct http ca fa b =
    decFields false (requestFields headersField) none none { vars := localVars [] ca } b := rfl

theorem headerLines_append (hs hs' : List (List Byte × List Byte)) :
    headerLines (hs ++ hs') = headerLines hs ++ headerLines hs' := by
  simp only [headerLines, List.map_append, List.flatten_append]

/-- A request that is there is read, with the header lines that follow it. -/
theorem request_reads {f : Field Pkt} {c : Nat} {val : List (List Byte × List Byte) → Pkt} {ca : Option CAttr}
    (hf : ReadsHeaders f c val ca) {q : Request} (hq : q.Clean) (hl : q.headers.length ≤ c) (env : Env Pkt)
    (pre r : List Byte) (hp : pre.length + (q.text ++ r).length ≤ isizeMax) :
    ∃ hs rest n, (∀ h ∈ hs, HeaderClean h) ∧ r = headerLines hs ++ rest ∧
      ((q.headers ++ hs).length = c ∧ n = 0 ∨ (q.headers ++ hs).length < c ∧ Broken rest n) ∧
      decFields false (requestFields f) ca none env ⟨pre ++ (q.text ++ r), pre.length⟩ =
        (.ok ({ q with headers := q.headers ++ hs : Request }.valueWith val),
          ⟨pre ++ (q.text ++ r), pre.length + { q with headers := q.headers ++ hs : Request }.text.length + n⟩) := by
  obtain ⟨m, u, v, l⟩ := q
  have er : Request.text ⟨m, u, v, l⟩ ++ r = m ++ [32] ++ (u ++ [32] ++ (v ++ [13, 10] ++ (headerLines l ++ r))) := by
    simp only [Request.text, List.append_assoc]
  rw [er] at hp ⊢
  have hp2 : (pre ++ (m ++ [32])).length + (u ++ [32] ++ (v ++ [13, 10] ++ (headerLines l ++ r))).length ≤ isizeMax := by
    simp only [List.length_append] at hp ⊢; omega
  have hp3 : (pre ++ (m ++ [32]) ++ (u ++ [32])).length + (v ++ [13, 10] ++ (headerLines l ++ r)).length ≤ isizeMax := by
    simp only [List.length_append] at hp ⊢; omega
  rw [requestFields, decFields_cons_read hq.method hp, mapM'_apply, decFields_cons_read hq.uri hp2, mapM'_apply,
    decFields_cons_read hq.version hp3, mapM'_apply]
  obtain ⟨hs, rest, n, k1, k2, k3, k4⟩ := hf (((env.push (.bytes m)).push (.bytes u)).push (.bytes v)) l
    (pre ++ (m ++ [32]) ++ (u ++ [32]) ++ (v ++ [13, 10])) r hq.headers hl
    (by simp only [List.length_append] at hp ⊢; omega)
  refine ⟨hs, rest, n, k1, k2, k3, ?_⟩
  rw [k4]
  simp only [Request.valueWith, Request.text, List.append_assoc, List.length_append, Nat.add_assoc]

theorem http_reads {q : Request} (hq : q.Clean) (h20 : q.headers.length ≤ 20) (ca : Option CAttr) (fa : Option FAttr)
    (pre r : List Byte) (hp : pre.length + (q.text ++ r).length ≤ isizeMax) :
    ∃ hs rest n, (∀ h ∈ hs, HeaderClean h) ∧ r = headerLines hs ++ rest ∧
      ((q.headers ++ hs).length = 20 ∧ n = 0 ∨ (q.headers ++ hs).length < 20 ∧ Broken rest n) ∧
      decStruct http ca fa ⟨pre ++ (q.text ++ r), pre.length⟩ =
        (.ok { q with headers := q.headers ++ hs : Request }.value,
          ⟨pre ++ (q.text ++ r), pre.length + { q with headers := q.headers ++ hs : Request }.text.length + n⟩) :=
  request_reads (headersField_reads none) hq h20 _ pre r hp

/-- Every input begins with a request or is refused. -/
theorem request_exact {f : Field Pkt} {c : Nat} {val : List (List Byte × List Byte) → Pkt} {ca : Option CAttr}
    (hf : ReadsHeaders f c val ca) (env : Env Pkt) (pre r : List Byte) (hp : pre.length + r.length ≤ isizeMax) :
    (∃ (q : Request) (rest : List Byte) (n : Nat), q.Clean ∧ q.headers.length ≤ c ∧ r = q.text ++ rest ∧
      (q.headers.length = c ∧ n = 0 ∨ q.headers.length < c ∧ Broken rest n) ∧
      decFields false (requestFields f) ca none env ⟨pre ++ r, pre.length⟩ =
        (.ok (q.valueWith val), ⟨pre ++ r, pre.length + q.text.length + n⟩)) ∨
    ((¬ ∃ (q : Request) (rest : List Byte), q.Clean ∧ r = q.text ++ rest) ∧
      ∃ p b', decFields false (requestFields f) ca none env ⟨pre ++ r, pre.length⟩ = (.err ⟨p, .fail⟩, b')) := by
  by_cases hq : ∃ (q : Request) (rest : List Byte), q.Clean ∧ r = q.text ++ rest
  · obtain ⟨q, rest, hc, rfl⟩ := hq
    left
    have e0 : q.text ++ rest = { q with headers := [] : Request }.text ++ (headerLines q.headers ++ rest) := by
      simp only [Request.text, headerLines, List.map_nil, List.flatten_nil, List.append_assoc, List.nil_append]
    rw [e0] at hp ⊢
    obtain ⟨hs, rest', n, k1, k2, k3, k4⟩ := request_reads hf (q := { q with headers := [] })
      ⟨hc.method, hc.uri, hc.version, (fun h hh => nomatch hh)⟩ (by simp) env pre _ hp
    refine ⟨{ q with headers := [] ++ hs }, rest', n, ⟨hc.method, hc.uri, hc.version, k1⟩, ?_, ?_, k3, k4⟩
    · rcases k3 with k3 | k3
      · exact Nat.le_of_eq k3.1
      · exact Nat.le_of_lt k3.1
    · rw [k2]
      simp only [Request.text, headerLines, List.map_nil, List.flatten_nil, List.append_assoc, List.nil_append]
  · refine .inr ⟨hq, ?_⟩
    rw [requestFields]
    rcases decFields_cons_cover [32] [lineField [32], lineField [13, 10], f] ca env pre r hp with
      ⟨m, r1, rfl, c1⟩ | ⟨_, n, p, e⟩
    · rw [decFields_cons_read c1 hp, mapM'_apply]
      have hp1 : (pre ++ (m ++ [32])).length + r1.length ≤ isizeMax := by
        simp only [List.length_append] at hp ⊢; omega
      rcases decFields_cons_cover [32] [lineField [13, 10], f] ca
        (env.push (.bytes m)) (pre ++ (m ++ [32])) r1 hp1 with ⟨u, r2, rfl, c2⟩ | ⟨_, n, p, e⟩
      · rw [decFields_cons_read c2 hp1, mapM'_apply]
        have hp2 : (pre ++ (m ++ [32]) ++ (u ++ [32])).length + r2.length ≤ isizeMax := by
          simp only [List.length_append] at hp1 ⊢; omega
        rcases decFields_cons_cover [13, 10] [f] ca
          ((env.push (.bytes m)).push (.bytes u)) (pre ++ (m ++ [32]) ++ (u ++ [32])) r2 hp2 with
          ⟨v, r3, rfl, c3⟩ | ⟨_, n, p, e⟩
        · refine absurd ⟨⟨m, u, v, []⟩, r3, ⟨c1, c2, c3, (fun h hh => nomatch hh)⟩, ?_⟩ hq
          simp only [Request.text, headerLines, List.map_nil, List.flatten_nil, List.append_assoc, List.nil_append]
        · rw [e]; exact ⟨_, _, rfl⟩
      · rw [e]; exact ⟨_, _, rfl⟩
    · rw [e]; exact ⟨_, _, rfl⟩

/-- C100, for every input: the request that is read is the longest there is with at most 20 header lines, and the text of
what is read is exactly what is consumed, except that the bytes of a header line that breaks off are lost; an input
without a request is refused. -/
theorem C100_exact (ca : Option CAttr) (fa : Option FAttr) (pre r : List Byte) (hp : pre.length + r.length ≤ isizeMax) :
    (∃ (q : Request) (rest : List Byte) (n : Nat), q.Clean ∧ q.headers.length ≤ 20 ∧ r = q.text ++ rest ∧
      (q.headers.length = 20 ∧ n = 0 ∨ q.headers.length < 20 ∧ Broken rest n) ∧
      decStruct http ca fa ⟨pre ++ r, pre.length⟩ = (.ok q.value, ⟨pre ++ r, pre.length + q.text.length + n⟩)) ∨
    ((¬ ∃ (q : Request) (rest : List Byte), q.Clean ∧ r = q.text ++ rest) ∧ ∃ p b', decStruct http ca fa ⟨pre ++ r, pre.length⟩ = (.err ⟨p, .fail⟩, b')) :=
  request_exact (headersField_reads none) { vars := localVars [] ca } pre r hp

/-! ## Writing -/

theorem fieldEnc_plain (f : Field V) (hord : Ordinary f.attrs) (ho : f.attrs.byteorder = none)
    (hoff : f.attrs.offset = none) (hu : f.attrs.untake = false) (hv : f.attrs.valueEncode = none) (ca : Option CAttr) (env : Env V) (v : V)
    (w : List Byte) (h : Writes (f.enc v ca (ownModifiers f.attrs env)) w) : Writes (fieldEnc f ca env v) w := by
  obtain ⟨h1, h2, h3, h4, h5, h6⟩ := hord
  intro pre hp
  obtain ⟨n, e⟩ := h pre hp
  refine ⟨0 + n, ?_⟩
  rw [fieldEnc, bind_apply, toCode_ok _ _ (by intro e he; rw [ho] at he; cases he)]
  simp only [encField, encText, encPlain, padOffset, hoff, h1, h2, h3, h4, h5, h6, hu, hv, bind_apply, pure_apply,
    Bool.or_self, Bool.false_eq_true, if_false, Bool.not_false, Bool.or_true, if_true, e]

theorem line_writes (x a : List Byte) (ca : Option CAttr) (env : Env Pkt) : Writes (fieldEnc (lineField x) ca env (.bytes a)) (a ++ x) := by
  refine fieldEnc_plain (lineField x) ⟨rfl, rfl, rfl, rfl, rfl, rfl⟩ rfl rfl rfl rfl ca env _ _ ?_
  exact (encBytes_appends a ca (some { linendValue := some x }) (by intro k h; cases h)).writes

theorem encFields_cons_writes {f : Field V} {fs : List (Field V)} {ca : Option CAttr} {env : Env V} {v : V} {vs : List V}
    {w w' : List Byte} (h : Writes (fieldEnc f ca env v) w) (h' : Writes (encFields false fs ca none (env.push v) vs) w') :
    Writes (encFields false (f :: fs) ca none env (v :: vs)) (w ++ w') :=
  (h.seq h').congr fun b => encFields_cons f fs ca env v vs b

theorem encFields_nil_writes (ca : Option CAttr) (env : Env V) : Writes (encFields false [] ca none env []) [] :=
  Appends.pure0.writes

theorem header_writes (h : List Byte × List Byte) (ca : Option CAttr) (fa : Option FAttr) :
    Writes (encStruct httpLine (headerValue h) ca fa) (headerLine h) := by
  have := encFields_cons_writes (line_writes [58, 32] h.1 none { vars := localVars [] ca })
    (encFields_cons_writes (line_writes [13, 10] h.2 none _) (encFields_nil_writes none _))
  rw [List.append_nil] at this
  rw [headerLine, List.append_assoc]
  exact this

theorem headers_write (hs : List (List Byte × List Byte)) (ca : Option CAttr) (fa : Option FAttr) :
    Writes (encAll (fun vs => encStruct httpLine vs ca fa) (hs.map headerValue)) (headerLines hs) := by
  induction hs with
  | nil => exact Appends.pure0.writes
  | cons h hs ih => exact (header_writes h ca fa).seq ih

theorem headersField_writes (hs : List (List Byte × List Byte)) (env : Env Pkt) :
    Writes (fieldEnc headersField none env (.record (hs.map fun h => .record (headerValue h)))) (headerLines hs) := by
  refine fieldEnc_plain headersField ⟨rfl, rfl, rfl, rfl, rfl, rfl⟩ rfl rfl rfl rfl none _ _ _ ?_
  have h0 := (Appends.pure0.writes).seq (headers_write hs none (some { tryCount := some 20 }))
  have e : ((hs.map fun h => Pkt.record (headerValue h)).map Pkt.parts) = hs.map headerValue := by
    rw [List.map_map]; rfl
  refine h0.congr fun b => ?_
  show encVec (encStruct httpLine) ((hs.map fun h => Pkt.record (headerValue h)).map Pkt.parts) none
    (some { tryCount := some 20 }) b = _
  rw [e]
  rfl

/-- C100: every request, clean or not and with any number of header lines, is written as its text. -/
theorem C100_written (q : Request) (ca : Option CAttr) (fa : Option FAttr) : Writes (encStruct http q.value ca fa) q.text := by
  have hh := headersField_writes q.headers
    (((({ vars := localVars [] ca } : Env Pkt).push (.bytes q.method)).push (.bytes q.uri)).push (.bytes q.version))
  have := encFields_cons_writes (line_writes [32] q.method none { vars := localVars [] ca })
    (encFields_cons_writes (line_writes [32] q.uri none _) (encFields_cons_writes (line_writes [13, 10] q.version none _)
      (encFields_cons_writes hh (encFields_nil_writes none _))))
  rw [List.append_nil] at this
  exact this

/-- C100 in full: a request of the protocol comes back, whatever follows the blank line. -/
def requestsComeBack : Prop := ∀ (q : Request) (body : List Byte), q.Standard →
  ∀ rest, rest = [13, 10] ++ body → q.text.length + rest.length ≤ isizeMax →
  decStruct http none none ⟨q.text ++ rest, 0⟩ = (.ok q.value, ⟨q.text ++ rest, q.text.length⟩)

/-- A clean request comes back in front of data without `: `. -/
theorem request_back {f : Field Pkt} {c : Nat} {val : List (List Byte × List Byte) → Pkt} {ca : Option CAttr}
    (hf : ReadsHeaders f c val ca) {q : Request} (hq : q.Clean) (hl : q.headers.length ≤ c) (env : Env Pkt)
    (rest : List Byte) (hr : q.headers.length = c ∨ ¬ ∃ l r, rest = l ++ [58, 32] ++ r) :
    Reads (decFields false (requestFields f) ca none env) (q.valueWith val) q.text rest := by
  intro pre hp
  obtain ⟨hs, rest', n, k1, k2, k3, k4⟩ := request_reads hf hq hl env pre rest (by rw [List.length_append]; omega)
  have e : hs = [] ∧ n = 0 := by
    rcases hr with hr | hr
    · rw [List.length_append, hr] at k3
      have : hs.length = 0 ∧ n = 0 := by rcases k3 with k3 | k3 <;> omega
      exact ⟨List.eq_nil_of_length_eq_zero this.1, this.2⟩
    · cases hs with
      | cons h hs =>
        refine absurd ⟨h.1, h.2 ++ [13, 10] ++ headerLines hs ++ rest', ?_⟩ hr
        rw [k2, headerLines_cons, headerLine]
        simp only [List.append_assoc]
      | nil =>
        refine ⟨rfl, ?_⟩
        rcases k3 with k3 | ⟨_, k3⟩
        · exact k3.2
        · rw [show rest' = rest from k2.symm] at k3
          cases k3 with
          | key h =>
            cases h with
            | other a s e1 => exact absurd ⟨a, s, e1⟩ hr
            | absent => rfl
          | value k n1 n2 h =>
            cases h with
            | text _ s e1 => exact absurd ⟨k, s, e1⟩ hr
  obtain ⟨rfl, rfl⟩ := e
  rw [k4]
  simp only [List.append_nil, Nat.add_zero]

/-- C100, the part that holds: a clean request with at most 20 header lines comes back, if no `: ` follows. -/
theorem C100_message_partial (q : Request) (hq : q.Clean) (h20 : q.headers.length ≤ 20) (ca : Option CAttr) (fa : Option FAttr)
    (rest : List Byte) (hr : q.headers.length = 20 ∨ ¬ ∃ l r, rest = l ++ [58, 32] ++ r) :
    Reads (decStruct http ca fa) q.value q.text rest :=
  request_back (headersField_reads none) hq h20 { vars := localVars [] ca } rest hr

/-- C100: when the body is left alone.  After the blank line the body must not contain `: `, unless there are 20 header
lines already. -/
theorem C100_body_iff (q : Request) (hq : q.Clean) (h20 : q.headers.length ≤ 20) (ca : Option CAttr) (fa : Option FAttr)
    (pre body : List Byte) (hp : pre.length + (q.text ++ ([13, 10] ++ body)).length ≤ isizeMax) :
    decStruct http ca fa ⟨pre ++ (q.text ++ ([13, 10] ++ body)), pre.length⟩ =
      (.ok q.value, ⟨pre ++ (q.text ++ ([13, 10] ++ body)), pre.length + q.text.length⟩) ↔
    q.headers.length = 20 ∨ ¬ ∃ l r, body = l ++ [58, 32] ++ r := by
  have hcolon : (∃ l r, [13, 10] ++ body = l ++ [58, 32] ++ r) → ∃ l r, body = l ++ ([58, 32] : List Byte) ++ r := by
    rintro ⟨l, r, e⟩
    cases l with
    | nil => simp at e
    | cons x l =>
      cases l with
      | nil => simp at e
      | cons y l =>
        refine ⟨l, r, ?_⟩
        simp only [List.cons_append, List.nil_append, List.cons.injEq] at e
        simpa using e.2.2
  constructor
  · intro h
    by_cases hl : q.headers.length = 20
    · exact .inl hl
    · right
      rintro ⟨l, r, e⟩
      obtain ⟨hs, rest', n, k1, k2, k3, k4⟩ := http_reads hq h20 ca fa pre ([13, 10] ++ body) hp
      rw [h] at k4
      simp only [Prod.mk.injEq, Buf.mk.injEq, true_and] at k4
      have ht : { q with headers := q.headers ++ hs : Request }.text.length = q.text.length + (headerLines hs).length := by
        simp only [Request.text, headerLines_append, List.length_append]; omega
      have k5 := k4.2
      rw [ht] at k5
      have h0 : (headerLines hs).length = 0 ∧ n = 0 := by omega
      cases hs with
      | cons g hs =>
        have := h0.1
        rw [headerLines_cons, headerLine] at this
        simp at this
      | nil =>
        rw [List.append_nil] at k3
        rcases k3 with k3 | ⟨_, k3⟩
        · exact hl k3.1
        · have er : rest' = [13, 10] ++ body := k2.symm
          have occ : ∃ l r, rest' = l ++ ([58, 32] : List Byte) ++ r := ⟨[13, 10] ++ l, r, by rw [er, e]; simp⟩
          cases k3 with
          | key h =>
            generalize hn : n = n' at h
            cases h with
            | other a s e1 => simp at hn; omega
            | absent h => exact h occ
          | value k n1 n2 h _ hn =>
            cases h with
            | text => simp at hn; omega
  · intro h
    have := C100_message_partial q hq h20 ca fa ([13, 10] ++ body)
      (h.imp id fun h h' => h (hcolon h')) pre (by rw [List.length_append] at hp; omega)
    exact this

/-! ## Examples and counterexamples -/

/-- The bytes of a text. -/
def ascii (s : String) : List Byte := utf8Of s.toList

/-- `GET / HTTP/1.1` with the given headers. -/
def getRequest (hs : List (List Byte × List Byte)) : Request := ⟨ascii "GET", ascii "/", ascii "HTTP/1.1", hs⟩

/-- The header of a value. -/
def headerOf : Pkt → Option (List Byte × List Byte)
  | .record [.bytes k, .bytes v] => some (k, v)
  | _ => none

/-- The request of a value. -/
def requestOf : List Pkt → Option Request
  | [.bytes m, .bytes u, .bytes v, .record hs] => (hs.mapM headerOf).map fun hs => ⟨m, u, v, hs⟩
  | _ => none

/-- What is read from `r`, and how many bytes are consumed. -/
def readHttp (r : List Byte) : Option (Request × Nat) :=
  match decStruct http none none ⟨r, 0⟩ with
  | (.ok vs, b) => (requestOf vs).map fun q => (q, b.pos)
  | _ => none

theorem getRequest_standard (hs : List (List Byte × List Byte))
    (h : ∀ h ∈ hs, 58 ∉ h.1 ∧ 13 ∉ h.2 ∧ IsUtf8 h.1 ∧ IsUtf8 h.2) : (getRequest hs).Standard :=
  ⟨⟨(by decide : 32 ∉ ascii "GET"), _, rfl⟩, ⟨(by decide : 32 ∉ ascii "/"), _, rfl⟩, ⟨(by decide : 13 ∉ ascii "HTTP/1.1"), _, rfl⟩, h⟩

/-- One header line. -/
def hostRequest : Request := getRequest [(ascii "Host", ascii "a")]

/-- 21 header lines. -/
def longRequest : Request := getRequest (List.replicate 21 (ascii "a", ascii "b"))

theorem hostRequest_standard : hostRequest.Standard := getRequest_standard _ (by
  intro h hh
  rw [List.mem_singleton] at hh
  subst hh
  exact ⟨by decide, by decide, ⟨_, rfl⟩, ⟨_, rfl⟩⟩)

theorem longRequest_standard : longRequest.Standard := getRequest_standard _ (by
  intro h hh
  rw [List.eq_of_mem_replicate hh]
  exact ⟨by decide, by decide, ⟨_, rfl⟩, ⟨_, rfl⟩⟩)

unseal usizeMod isizeMax in
/-- C100 is violated.
* A body in which `: ` and later the end of a line occur is taken for header lines, the blank line for part of a key.
* A body with `: ` and no end of a line behind is consumed in part, and lost.
* A truncated header line is not refused: the request is accepted without it, and the key is consumed.
* The 21st header line is not read. -/
theorem C100_violated : ¬ requestsComeBack ∧ hostRequest.Standard ∧ longRequest.Standard ∧
    readHttp (hostRequest.text ++ ascii "\r\nname: x\r\n") =
      some (getRequest [(ascii "Host", ascii "a"), (ascii "\r\nname", ascii "x")], hostRequest.text.length + 11) ∧
    readHttp (hostRequest.text ++ ascii "\r\nname: x") = some (hostRequest, hostRequest.text.length + 8) ∧
    readHttp (hostRequest.text ++ ascii "Port: 8") = some (hostRequest, hostRequest.text.length + 6) ∧
    readHttp longRequest.text =
      some (getRequest (List.replicate 20 (ascii "a", ascii "b")), longRequest.text.length - 6) := by
  refine ⟨?_, hostRequest_standard, longRequest_standard, by decide +kernel, by decide +kernel, by decide +kernel,
    by decide +kernel⟩
  intro h
  have hs := h hostRequest (ascii "name: x") hostRequest_standard _ rfl (by rw [isizeMax_def]; decide)
  rcases (C100_body_iff hostRequest hostRequest_standard.clean (by decide) none none [] (ascii "name: x")
    (by rw [isizeMax_def]; decide)).mp (by simpa using hs) with h | h
  · exact absurd h (by decide)
  · exact h ⟨ascii "name", ascii "x", by decide⟩

/-- The request of the example program, examples/packet_http_example_2.rs:30. -/
def exampleRequest : Request := ⟨ascii "GET", ascii "http://www.jankincai.com/", ascii "HTTP/1.1",
  [(ascii "Host", ascii "www.jankincai.com"), (ascii "Accept-Encoding", ascii "gzip, deflate")]⟩

theorem exampleRequest_standard : exampleRequest.Standard where
  method := ⟨by decide, _, rfl⟩
  uri := ⟨by decide +kernel, _, rfl⟩
  version := ⟨by decide, _, rfl⟩
  headers := by
    intro h hh
    rcases List.mem_cons.mp hh with rfl | hh
    · exact ⟨by decide, by decide, ⟨_, rfl⟩, ⟨_, rfl⟩⟩
    · rw [List.mem_singleton] at hh
      subst hh
      exact ⟨by decide, by decide, ⟨_, rfl⟩, ⟨_, rfl⟩⟩

/-- The text of the example program. -/
example : exampleRequest.text =
    ascii "GET http://www.jankincai.com/ HTTP/1.1\r\nHost: www.jankincai.com\r\nAccept-Encoding: gzip, deflate\r\n" := by
  decide +kernel

/-- It is read to the end, and in front of a blank line and a body, and written again. -/
example (body : List Byte) (h : ¬ ∃ l r, [13, 10] ++ body = l ++ [58, 32] ++ r) :
    Reads (decStruct http none none) exampleRequest.value exampleRequest.text [] ∧
    Reads (decStruct http none none) exampleRequest.value exampleRequest.text ([13, 10] ++ body) ∧
    Writes (encStruct http exampleRequest.value none none) exampleRequest.text :=
  ⟨C100_message_partial _ exampleRequest_standard.clean (by decide) none none [] (.inr (by rintro ⟨l, r, h⟩; simp at h)),
    C100_message_partial _ exampleRequest_standard.clean (by decide) none none _ (.inr h), C100_written _ none none⟩

/-- `{"a":1}` and `a:b` are bodies without `: `; with 20 header lines any body is left alone. -/
example : (¬ ∃ l r, ascii "a:b" = l ++ [58, 32] ++ r) ∧
    (getRequest (List.replicate 20 (ascii "a", ascii "b"))).headers.length = 20 := by
  refine ⟨?_, by decide⟩
  rintro ⟨l, r, h⟩
  have : (32 : Byte) ∈ ascii "a:b" := by rw [h]; simp
  exact absurd this (by decide)

/-- Both cases of `C100_exact` occur: a request, and a line without blanks. -/
example : (∃ (q : Request) (rest : List Byte), q.Clean ∧ hostRequest.text = q.text ++ rest) ∧
    ¬ ∃ (q : Request) (rest : List Byte), q.Clean ∧ ascii "HELO\r\n" = q.text ++ rest := by
  refine ⟨⟨_, [], hostRequest_standard.clean, by simp⟩, ?_⟩
  rintro ⟨q, rest, _, h⟩
  have : (32 : Byte) ∈ ascii "HELO\r\n" := by rw [h]; simp [Request.text]
  exact absurd this (by decide)

/-- Parts that are clean without being standard: a method may hold the end of a line, a key a colon. -/
example : PieceClean [32] (ascii "GET\r\n") ∧ PieceClean [58, 32] (ascii "a:b") :=
  ⟨⟨endsFirst_of_not_mem (by decide), _, rfl⟩, by
    refine ⟨?_, _, rfl⟩
    intro l r h
    by_cases hl : (ascii "a:b").length ≤ l.length
    · exact hl
    · exfalso
      have h' : (ascii "a:b" ++ [58, 32]).drop (l.length + 1) = [32] ++ r := by
        rw [h]; simp
      have e : ascii "a:b" = [97, 58, 98] := by decide
      rw [e] at h' hl
      match hn : l.length, hl with
      | 0, _ => rw [hn] at h'; simp at h'
      | 1, _ => rw [hn] at h'; simp at h'
      | 2, _ => rw [hn] at h'; simp at h'
      | n + 3, hl => simp at hl⟩

end JBytes
