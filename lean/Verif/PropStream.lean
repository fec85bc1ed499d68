import Verif.PropSocket
import Verif.PropRecursive
import Verif.PropTruncate
/-!
# C106: how a stream is cut into pieces makes no difference
-/

namespace JBytes
open M

variable {α : Type}

/-! ## Specification -/

/-- Decode messages from the front of what has arrived, as long as there are any: the messages, and what is left. -/
def drain (m : M α) : Nat → List Byte → List α × List Byte
  | 0, held => ([], held)
  | n + 1, held =>
    match m ⟨held, 0⟩ with
    | (.ok v, b) =>
      if b.pos = 0 then ([], held)
      else (v :: (drain m n (held.drop b.pos)).1, (drain m n (held.drop b.pos)).2)
    | _ => ([], held)

/-- A piece of the stream arrives. -/
def feedChunk (m : M α) (s : List α × List Byte) (chunk : List Byte) : List α × List Byte :=
  (s.1 ++ (drain m (s.2 ++ chunk).length (s.2 ++ chunk)).1, (drain m (s.2 ++ chunk).length (s.2 ++ chunk)).2)

/-- All pieces: the messages received, and what is left. -/
def feed (m : M α) (chunks : List (List Byte)) : List α × List Byte := chunks.foldl (feedChunk m) ([], [])

/-! ## Lemmas -/

/-- One step of a decoder that stays inside the data. -/
theorem front_inside {m : M α} (hm : Loc m) {held : List Byte} (hl : held.length ≤ isizeMax) {v : α} {b : Buf} (h : m ⟨held, 0⟩ = (.ok v, b)) :
    b = ⟨held, b.pos⟩ ∧ b.pos ≤ held.length := by
  have := hm.1 ⟨held, 0⟩ ⟨Nat.zero_le _, hl⟩
  rw [h] at this
  obtain ⟨h1, -, h2⟩ := this
  exact ⟨by cases b; simp only at h1; rw [h1], h2⟩

theorem drain_fuel {m : M α} (hm : Loc m) : ∀ (n k : Nat) (held : List Byte), held.length ≤ isizeMax → held.length ≤ n → held.length ≤ k →
    drain m n held = drain m k held := by
  have step : ∀ (n : Nat) (held : List Byte), held.length ≤ isizeMax → held.length ≤ n → ∀ k, n ≤ k → drain m n held = drain m k held := by
    intro n
    induction n with
    | zero =>
      intro held hi h k _
      cases k with
      | zero => rfl
      | succ k =>
        rw [drain, drain]
        split
        · rename_i v b he
          have := (front_inside hm hi he).2
          rw [if_pos (by omega)]
        · rfl
    | succ n ih =>
      intro held hi h k hk
      obtain ⟨k, rfl⟩ : ∃ j, k = j + 1 := ⟨k - 1, by omega⟩
      rw [drain, drain]
      split
      · rename_i v b _
        by_cases hb : b.pos = 0
        · rw [if_pos hb, if_pos hb]
        · have hd : (held.drop b.pos).length = held.length - b.pos := List.length_drop
          rw [if_neg hb, if_neg hb, ih (held.drop b.pos) (by omega) (by omega) k (by omega)]
      · rfl
  intro n k held hi h1 h2
  rw [← step held.length held hi (Nat.le_refl _) n h1, ← step held.length held hi (Nat.le_refl _) k h2]

/-- What follows does not undo a message. -/
theorem front_more {m : M α} (hm : Loc m) {held more : List Byte} (hl : (held ++ more).length ≤ isizeMax) {v : α} {b : Buf}
    (h : m ⟨held, 0⟩ = (.ok v, b)) : m ⟨held ++ more, 0⟩ = (.ok v, ⟨held ++ more, b.pos⟩) := by
  have hl' : held.length ≤ isizeMax := by rw [List.length_append] at hl; omega
  have hin := (front_inside hm hl' h).2
  refine hm.2 ⟨held, 0⟩ v b ⟨Nat.zero_le _, hl'⟩ h _ hl ?_ ?_
  · rw [List.length_append]; omega
  · rw [List.take_append_of_le_length hin]

theorem drain_append {m : M α} (hm : Loc m) : ∀ (n : Nat) (held more : List Byte), (held ++ more).length ≤ isizeMax → held.length ≤ n →
    drain m (held ++ more).length (held ++ more) =
      ((drain m n held).1 ++ (drain m ((drain m n held).2 ++ more).length ((drain m n held).2 ++ more)).1,
        (drain m ((drain m n held).2 ++ more).length ((drain m n held).2 ++ more)).2) := by
  intro n
  induction n with
  | zero => intro held more hl h; rfl
  | succ n ih =>
    intro held more hl h
    rw [drain]
    split
    · rename_i v b he
      by_cases hb : b.pos = 0
      · rw [if_pos hb]; rfl
      · have hi := hl
        rw [List.length_append] at hi
        have hin := (front_inside hm (by omega) he).2
        have hd : (held.drop b.pos).length = held.length - b.pos := List.length_drop
        rw [if_neg hb]
        obtain ⟨j, hj⟩ : ∃ j, (held ++ more).length = j + 1 := ⟨(held ++ more).length - 1, by rw [List.length_append]; omega⟩
        have e := ih (held.drop b.pos) more (by rw [List.length_append]; omega) (by omega)
        conv => lhs; rw [hj, drain, front_more hm hl he]
        simp only [if_neg hb]
        rw [List.drop_append_of_le_length hin, drain_fuel hm j (held.drop b.pos ++ more).length _ (by rw [List.length_append]; omega)
          (by rw [List.length_append] at hj ⊢; omega) (Nat.le_refl _), e]
        rfl
    · rfl

/-! ## C106 -/

theorem feed_chunks {m : M α} (hm : Loc m) (chunks : List (List Byte)) : ∀ (done : List Byte),
    (done ++ chunks.flatten).length ≤ isizeMax →
    chunks.foldl (feedChunk m) (drain m done.length done) = drain m (done ++ chunks.flatten).length (done ++ chunks.flatten) := by
  induction chunks with
  | nil => intro done _; simp
  | cons c cs ih =>
    intro done hl
    rw [List.flatten_cons, ← List.append_assoc] at hl ⊢
    rw [List.foldl_cons, ← ih (done ++ c) hl, feedChunk,
      drain_append hm done.length done c (by rw [List.length_append] at hl; omega) (Nat.le_refl _)]

/-- C106 for any decoder that depends only on what it consumes: a receiver that keeps what has arrived until it decodes gets the
same messages, and is left with the same bytes, however the stream is cut into pieces. -/
theorem stream_chunks {m : M α} (hm : Loc m) (chunks : List (List Byte)) (hl : chunks.flatten.length ≤ isizeMax) :
    feed m chunks = drain m chunks.flatten.length chunks.flatten :=
  feed_chunks hm chunks [] hl

theorem drain_messages {β : Type} {m : M α} (hm : Loc m) (val : β → α) (img : β → List Byte) : ∀ (vs : List β) (rest : List Byte),
    ((vs.map img).flatten ++ rest).length ≤ isizeMax → (∀ v ∈ vs, img v ≠ [] ∧ ∀ suf, Reads m (val v) (img v) suf) →
    drain m ((vs.map img).flatten ++ rest).length ((vs.map img).flatten ++ rest) = (vs.map val ++ (drain m rest.length rest).1, (drain m rest.length rest).2) := by
  intro vs
  induction vs with
  | nil => intro rest _ _; rfl
  | cons v vs ih =>
    intro rest hl h
    obtain ⟨hne, hr⟩ := h v List.mem_cons_self
    have hp : 0 < (img v).length := List.length_pos_iff.mpr hne
    rw [List.map_cons, List.flatten_cons, List.append_assoc] at hl ⊢
    have hl' := hl
    rw [List.length_append] at hl'
    have e := hr ((vs.map img).flatten ++ rest) [] (by simpa using hl')
    simp only [List.nil_append, List.length_nil, Nat.zero_add] at e
    obtain ⟨j, hj⟩ : ∃ j, (img v ++ ((vs.map img).flatten ++ rest)).length = j + 1 :=
      ⟨(img v ++ ((vs.map img).flatten ++ rest)).length - 1, by rw [List.length_append]; omega⟩
    have hj' := hj
    rw [List.length_append] at hj'
    rw [hj, drain, e]
    simp only [if_neg (Nat.pos_iff_ne_zero.mp hp), List.drop_left]
    rw [drain_fuel hm j ((vs.map img).flatten ++ rest).length _ (by omega) (by omega) (Nat.le_refl _),
      ih rest (by omega) fun v' h' => h v' (List.mem_cons_of_mem _ h')]
    rfl

/-- **C106**, for the types that do not adapt to the end of the data (no `offset`, `remaining`, `try_count`, `loop_skip_starts`, `Option`,
`branch_starts_with`, `untake`): a receiver that keeps what has arrived until it decodes gets the same messages, and is left with the
same bytes, however the stream is cut into pieces.  Missing: the other types, for which it is false (`C106_violated`). -/
theorem C106_chunks_partial (L : Limits) (h1 : L.noOffset = true) (h2 : L.standalone = true) (d : Nat → Dec α) (h : Derivable L α d)
    (fuel : Nat) (chunks chunks' : List (List Byte)) (hs : chunks.flatten.length ≤ isizeMax) (he : chunks.flatten = chunks'.flatten) :
    feed (d fuel none none) chunks = feed (d fuel none none) chunks' := by
  have hm := Derivable.loc h1 h2 h fuel none none (FaOk?.none _)
  rw [stream_chunks hm chunks hs, stream_chunks hm chunks' (he ▸ hs), he]

/-- **C106** for recursive types. -/
theorem C106_recursive_partial {ι : Type} {T : ι → Type} {F : ((i : ι) → Nat → Dec (T i)) → (i : ι) → Nat → Dec (T i)} (L : Limits)
    (h1 : L.noOffset = true) (h2 : L.standalone = true) (hF : ∀ d i, DerivableIn L (Among d) (T i) (F d i)) (depth fuel : Nat) (i : ι)
    (chunks chunks' : List (List Byte)) (hs : chunks.flatten.length ≤ isizeMax) (he : chunks.flatten = chunks'.flatten) :
    feed (decRec F depth i fuel none none) chunks = feed (decRec F depth i fuel none none) chunks' := by
  have hm := decRec_loc h1 h2 hF fuel depth i none none (FaOk?.none _)
  rw [stream_chunks hm chunks hs, stream_chunks hm chunks' (he ▸ hs), he]

/-- **C106**: messages sent one after the other are received, all of them and in their order, as soon as their last byte has arrived; of a
message that has arrived in part nothing is received, and the part is kept.  (`val v` is the value and `img v` the bytes of the message `v`.) -/
theorem C106_messages_partial (L : Limits) (h1 : L.noOffset = true) (h2 : L.standalone = true) (h3 : L.narrow = true) (h4 : L.prefixes = true)
    (d : Nat → Dec α) (h : Derivable L α d) (fuel : Nat) {β : Type} (val : β → α) (img : β → List Byte) (vs : List β) (next : β) (k : Nat)
    (hv : ∀ v, v ∈ next :: vs → img v ≠ [] ∧ ∀ suf, Reads (d fuel none none) (val v) (img v) suf) (hk : k < (img next).length)
    (chunks : List (List Byte)) (he : chunks.flatten = (vs.map img).flatten ++ (img next).take k) (hs : chunks.flatten.length ≤ isizeMax)
    (hn : (img next).length ≤ isizeMax) (hf : (img next).length < fuel) :
    feed (d fuel none none) chunks = (vs.map val, (img next).take k) := by
  have hm := Derivable.loc h1 h2 h fuel none none (FaOk?.none _)
  rw [stream_chunks hm chunks hs, he, drain_messages hm val img vs _ (he ▸ hs) fun v h' => hv v (List.mem_cons_of_mem _ h')]
  have r := (hv next List.mem_cons_self).2 [] [] (by simpa using hn)
  simp only [List.length_nil, List.nil_append, List.append_nil, Nat.zero_add] at r
  obtain ⟨e, hx⟩ := C91_truncated L h1 h2 h3 h4 d h fuel none none (FaOk?.none _) ⟨img next, 0⟩ ⟨img next, (img next).length⟩
    ⟨Nat.zero_le _, hn⟩ (val next) r k (Nat.zero_le _) hk (by simp only; omega)
  have : drain (d fuel none none) ((img next).take k).length ((img next).take k) = ([], (img next).take k) := by
    cases ((img next).take k).length with
    | zero => rfl
    | succ n =>
      rw [drain]
      simp only at hx
      generalize d fuel none none ⟨(img next).take k, 0⟩ = x at hx
      obtain ⟨o, b⟩ := x
      simp only at hx
      subst hx
      rfl
  rw [this, List.append_nil]

/-! ## The messages of the socket example -/

theorem socket_derivable : Derivable strict (List Pkt) (fun _ => decStruct socketMessage) := by
  have hb : Derivable strict (Nat × List Pkt) (fun _ => decEnum socketBody) := by
    refine DerivableIn.enum (fun _ => socketBody) [fun _ => Pkt.u8.dec, fun _ => socketData.dec] ?_ (fun _ => rfl) ?_ ?_ ?_ ?_
    · intro d hd
      simp only [List.mem_cons, List.not_mem_nil, or_false] at hd
      rcases hd with rfl | rfl
      · exact .inject Pkt.num (.int ⟨1, false⟩ fun _ => .inr (by decide))
      · exact .inject Pkt.bytes .bytes
    · intro _ n c k h
      cases h
    · intro _ n u h
      cases h
    · intro n v hv
      simp only [socketBody, List.mem_cons, List.not_mem_nil, or_false] at hv
      rcases hv with rfl | rfl | rfl | rfl | rfl <;> exact attrsOk_plain
    · intro n v hv f hf
      have : f = Pkt.u8 ∨ f = socketData := by
        simp only [socketBody, List.mem_cons, List.not_mem_nil, or_false] at hv
        rcases hv with rfl | rfl | rfl | rfl | rfl <;> simp_all
      rcases this with rfl | rfl
      · exact ⟨attrsOk_plain, _, List.mem_cons_self, rfl⟩
      · refine ⟨⟨rfl, fun _ => rfl, ?_, fun _ => rfl, ?_⟩, fun _ => socketData.dec, by simp, rfl⟩
        · intro _ e env h
          cases h
        · intro o env
          constructor <;> simp [FieldAttrs.modifiers, socketData, Pkt.slice, strict]
  refine DerivableIn.struct (fun _ => socketMessage) [fun _ => Pkt.u8.dec, fun _ => (Pkt.enum socketBody {}).dec] ?_ (fun _ => rfl) ?_
  · intro d hd
    simp only [List.mem_cons, List.not_mem_nil, or_false] at hd
    rcases hd with rfl | rfl
    · exact .inject Pkt.num (.int ⟨1, false⟩ fun _ => .inr (by decide))
    · exact .inject (fun x => Pkt.variant x.1 x.2) hb
  · intro n f hf
    simp only [socketMessage, List.mem_cons, List.not_mem_nil, or_false] at hf
    rcases hf with rfl | rfl
    · exact ⟨attrsOk_plain, fun _ => Pkt.u8.dec, by simp, rfl⟩
    · exact ⟨attrsOk_plain, fun _ => (Pkt.enum socketBody {}).dec, by simp, rfl⟩

/-- **C106** for the messages of C105: kept until they decode, they are all received, whatever `read` yields. -/
theorem C106_socket (ms : List SocketMsg) (next : SocketMsg) (hm : ∀ m ∈ next :: ms, m.Fits) (k : Nat) (hk : k < next.wire.length)
    (chunks : List (List Byte)) (he : chunks.flatten = (ms.map SocketMsg.wire).flatten ++ next.wire.take k)
    (hs : chunks.flatten.length ≤ isizeMax) :
    feed (decStruct socketMessage none none) chunks = (ms.map SocketMsg.value, next.wire.take k) := by
  have hi := isize_small
  have hw := wire_short next (hm next List.mem_cons_self)
  refine C106_messages_partial strict rfl rfl rfl rfl (fun _ => decStruct socketMessage) socket_derivable (next.wire.length + 1) SocketMsg.value
    SocketMsg.wire ms next k (fun v hv => ⟨fun h => ?_, fun suf => ?_⟩) hk chunks he hs (by omega) (by omega)
  · cases h
  · exact (message_roundtrip v (hm v hv) none none none none suf).2

/-- C106 in full, for all types of the crate. -/
def streamsJoin : Prop := ∀ (α : Type) (d : Nat → Dec α), Derivable {} α d → ∀ (chunks chunks' : List (List Byte)), chunks.flatten = chunks'.flatten →
  chunks.flatten.length ≤ isizeMax → feed (d 100 none none) chunks = feed (d 100 none none) chunks'

unseal usizeMod isizeMax in
/-- C106 does not hold for types that adapt to where the data ends: a pair of a number and an optional number, cut behind the first byte,
is two messages; whole, it is one. -/
theorem C106_violated : ¬ streamsJoin ∧
    feed (decOption (decInt ⟨1, false⟩) none none) [[1, 2]] = ([some 1, some 2], []) ∧
    feed (decTuple [fun ca fa => mapM' some (decInt ⟨1, false⟩ ca fa), decOption (decInt ⟨1, false⟩)] none none) [[1, 2]] = ([[some 1, some 2]], []) ∧
    feed (decTuple [fun ca fa => mapM' some (decInt ⟨1, false⟩ ca fa), decOption (decInt ⟨1, false⟩)] none none) [[1], [2]] =
      ([[some 1, none], [some 2, none]], []) := by
  have h1 : feed (decTuple [fun ca fa => mapM' some (decInt ⟨1, false⟩ ca fa), decOption (decInt ⟨1, false⟩)] none none) [[1, 2]] =
      ([[some 1, some 2]], []) := by decide +kernel
  have h2 : feed (decTuple [fun ca fa => mapM' some (decInt ⟨1, false⟩ ca fa), decOption (decInt ⟨1, false⟩)] none none) [[1], [2]] =
      ([[some 1, none], [some 2, none]], []) := by decide +kernel
  refine ⟨fun h => ?_, by decide +kernel, h1, h2⟩
  have hd : Derivable {} (List (Option Nat)) (fun n => decTuple ([fun _ ca fa => mapM' some (decInt ⟨1, false⟩ ca fa),
      fun _ => decOption (decInt ⟨1, false⟩)].map (· n))) := by
    refine DerivableIn.tuple _ fun d hd => ?_
    simp only [List.mem_cons, List.not_mem_nil, or_false] at hd
    rcases hd with rfl | rfl
    · exact .inject some (.int ⟨1, false⟩ (fun h => by cases h))
    · exact .option rfl (.int ⟨1, false⟩ (fun h => by cases h))
  have := h _ _ hd [[1, 2]] [[1], [2]] rfl (by decide +kernel)
  have e := h1.symm.trans (this.trans h2)
  revert e
  decide

/-! ## Examples -/

/-- Two messages in three pieces, and the first byte of a third. -/
example : feed (decStruct socketMessage none none) [[1, 1], [2, 3, 1, 2, 2, 3], [0, 1, 2, 1]] =
    ([(⟨1, .readReq 2 3⟩ : SocketMsg).value, (⟨1, .readRsp 2 3 [0, 1, 2]⟩ : SocketMsg).value], [1]) :=
  C106_socket [⟨1, .readReq 2 3⟩, ⟨1, .readRsp 2 3 [0, 1, 2]⟩] ⟨1, .stop⟩ (by
    intro m hm
    simp only [List.mem_cons, List.not_mem_nil, or_false] at hm
    rcases hm with rfl | rfl | rfl
    · trivial
    · trivial
    · rfl) 1 (by decide) _ (by rfl) (by rw [isizeMax_def]; decide)

/-- The struct `message` of PropDerive.lean. -/
example (chunks chunks' : List (List Byte)) (hs : chunks.flatten.length ≤ isizeMax) (he : chunks.flatten = chunks'.flatten) :
    feed (decStruct (message 20) none none) chunks = feed (decStruct (message 20) none none) chunks' :=
  C106_chunks_partial strict rfl rfl _ message_derivable 20 chunks chunks' hs he

end JBytes
