import Verif.Good
import Verif.IntLemmas
/-!
# Decoders of fixed layout

`FixedRead total need size m`: `m` looks at the `need` bytes from the position on and moves the position by `size`,
whatever the bytes are; it is refused when there are fewer, and depends on no other byte.  If `total`, it is never
refused for any other reason.
-/

namespace JBytes
open M

variable {α β V : Type}

/-- There are `need` bytes from the position on (nothing is needed of an empty window, even behind the end). -/
def Enough (need : Nat) (b : Buf) : Prop := need = 0 ∨ b.pos + need ≤ b.data.length

/-- The bytes from the position on. -/
def Buf.ahead (b : Buf) (n : Nat) : List Byte := (b.data.drop b.pos).take n

/-- A buffer that fits the memory, with a position that does not wrap around within the layout. -/
structure Room (need size : Nat) (b : Buf) : Prop where
  data : b.data.length ≤ isizeMax
  need : b.pos + need < usizeMod
  size : b.pos + size < usizeMod

/-- A decoder of fixed layout (see the top of the file). -/
structure FixedRead (total : Bool) (need size : Nat) (m : M α) : Prop where
  /-- Buffers with the same bytes in the window give the same result: a value, behind `size` bytes, or (unless
  `total`) an error. -/
  enough : ∀ b1 b2 : Buf, Room need size b1 → Room need size b2 → Enough need b1 → Enough need b2 →
    b1.ahead need = b2.ahead need →
    (∃ v, m b1 = (.ok v, ⟨b1.data, b1.pos + size⟩) ∧ m b2 = (.ok v, ⟨b2.data, b2.pos + size⟩)) ∨
    (total = false ∧ (∃ e b', m b1 = (.err e, b')) ∧ ∃ e b', m b2 = (.err e, b'))
  /-- With fewer bytes there is an error. -/
  short : ∀ b : Buf, Room need size b → ¬ Enough need b →
    ∃ e b', m b = (.err e, b') ∧ (total = true → e.code = .invalidByteLength)

/-- The bytes needed by two decoders in a row, the first of which moves by `size`. -/
def reach (need size need2 : Nat) : Nat := if need2 = 0 then need else max need (size + need2)

/-- The bytes needed by `n` decoders in a row. -/
def rows (n need size : Nat) : Nat := if n = 0 ∨ need = 0 then 0 else (n - 1) * size + need

theorem reach_left (need size need2 : Nat) : need ≤ reach need size need2 := by
  unfold reach; split <;> omega

theorem reach_right {need size need2 : Nat} (h : need2 ≠ 0) : size + need2 ≤ reach need size need2 := by
  unfold reach; split <;> omega

theorem reach_le {need size need2 k : Nat} (h1 : need ≤ k) (h2 : need2 ≠ 0 → size + need2 ≤ k) :
    reach need size need2 ≤ k := by
  unfold reach; split
  · exact h1
  · rename_i h; have := h2 h; omega

theorem ahead_within {b : Buf} {n k s : Nat} (h : s + k ≤ n) :
    Buf.ahead ⟨b.data, b.pos + s⟩ k = ((b.ahead n).drop s).take k := by
  simp only [Buf.ahead, List.drop_take, List.drop_drop, List.take_take]
  rw [Nat.min_eq_left (by omega)]

theorem ahead_eq {b1 b2 : Buf} {n k s : Nat} (h : s + k ≤ n) (he : b1.ahead n = b2.ahead n) :
    Buf.ahead ⟨b1.data, b1.pos + s⟩ k = Buf.ahead ⟨b2.data, b2.pos + s⟩ k := by
  rw [ahead_within h, ahead_within h, he]

theorem ahead_prefix {b1 b2 : Buf} {n k : Nat} (h : k ≤ n) (he : b1.ahead n = b2.ahead n) :
    b1.ahead k = b2.ahead k := by
  have := ahead_eq (s := 0) (k := k) (by omega) he
  simpa using this

theorem Room.mono {n n' s s' : Nat} {b : Buf} (h : Room n s b) (hn : n' ≤ n) (hs : s' ≤ s) : Room n' s' b :=
  ⟨h.data, by have := h.need; omega, by have := h.size; omega⟩

theorem Room.split {n s n2 s2 : Nat} {b : Buf} (r : Room (reach n s n2) (s + s2) b) :
    Room n s b ∧ Room n2 s2 ⟨b.data, b.pos + s⟩ := by
  refine ⟨r.mono (reach_left _ _ _) (by omega), r.data, ?_, ?_⟩
  · have h1 := r.need
    have h2 := r.size
    show b.pos + s + n2 < usizeMod
    rcases Nat.eq_zero_or_pos n2 with h | h
    · omega
    · have := reach_right (need := n) (size := s) (need2 := n2) (by omega); omega
  · have h2 := r.size
    show b.pos + s + s2 < usizeMod
    omega

theorem FixedRead.ok {total : Bool} {n s : Nat} {m : M α} (h : FixedRead total n s m) {b b' : Buf} (r : Room n s b)
    {v : α} (he : m b = (.ok v, b')) : Enough n b ∧ b' = ⟨b.data, b.pos + s⟩ := by
  rcases Classical.em (Enough n b) with hn | hn
  · refine ⟨hn, ?_⟩
    rcases h.enough b b r r hn hn rfl with ⟨v', h1, _⟩ | ⟨_, ⟨e, b1, h1⟩, _⟩
    · rw [he] at h1; cases h1; rfl
    · rw [he] at h1; cases h1
  · obtain ⟨e, b1, h1, _⟩ := h.short b r hn
    rw [he] at h1; cases h1

theorem FixedRead.pure {total : Bool} (a : α) : FixedRead total 0 0 (Pure.pure a : M α) := by
  refine ⟨fun b1 b2 _ _ _ _ _ => .inl ⟨a, ?_, ?_⟩, fun b _ h => absurd (.inl rfl) h⟩ <;> rfl

theorem FixedRead.fail {need size : Nat} (c : ErrCode) :
    FixedRead false need size (fail c : M α) :=
  ⟨fun b1 b2 _ _ _ _ _ => .inr ⟨rfl, ⟨_, _, rfl⟩, ⟨_, _, rfl⟩⟩, fun b _ _ => ⟨_, _, rfl, fun h => nomatch h⟩⟩

theorem FixedRead.relax {total : Bool} {need size : Nat} {m : M α} (h : FixedRead true need size m) :
    FixedRead total need size m := by
  refine ⟨fun b1 b2 r1 r2 e1 e2 ha => ?_, fun b r hs => ?_⟩
  · rcases h.enough b1 b2 r1 r2 e1 e2 ha with h | ⟨h, _⟩
    · exact .inl h
    · cases h
  · obtain ⟨e, b', he, hc⟩ := h.short b r hs
    exact ⟨e, b', he, fun _ => hc rfl⟩

theorem FixedRead.bind {total : Bool} {n s n2 s2 : Nat} {m : M α} {f : α → M β} (hm : FixedRead total n s m)
    (hf : ∀ a, FixedRead total n2 s2 (f a)) : FixedRead total (reach n s n2) (s + s2) (m >>= f) := by
  have hr : ∀ {b : Buf}, Room (reach n s n2) (s + s2) b → Room n s b ∧ Room n2 s2 ⟨b.data, b.pos + s⟩ :=
    fun r => r.split
  have hen : ∀ {b : Buf}, Enough (reach n s n2) b → Enough n b ∧ Enough n2 ⟨b.data, b.pos + s⟩ := by
    intro b h
    rcases Nat.eq_zero_or_pos n2 with h2 | h2
    · refine ⟨?_, .inl h2⟩
      rw [show reach n s n2 = n by simp [reach, h2]] at h
      exact h
    · have h3 := reach_right (need := n) (size := s) (need2 := n2) (by omega)
      have h4 := reach_left n s n2
      have h5 : b.pos + reach n s n2 ≤ b.data.length := by
        rcases h with h | h
        · omega
        · exact h
      exact ⟨.inr (by omega), .inr (by show b.pos + s + n2 ≤ b.data.length; omega)⟩
  refine ⟨fun b1 b2 r1 r2 e1 e2 ha => ?_, fun b r hs => ?_⟩
  · rcases hm.enough b1 b2 (hr r1).1 (hr r2).1 (hen e1).1 (hen e2).1 (ahead_prefix (reach_left _ _ _) ha) with
      ⟨v, h1, h2⟩ | ⟨ht, ⟨x1, y1, h1⟩, ⟨x2, y2, h2⟩⟩
    · rw [bind_apply, h1, bind_apply, h2]
      have hw : Buf.ahead ⟨b1.data, b1.pos + s⟩ n2 = Buf.ahead ⟨b2.data, b2.pos + s⟩ n2 := by
        rcases Nat.eq_zero_or_pos n2 with h | h
        · subst h; simp [Buf.ahead]
        · exact ahead_eq (reach_right (by omega)) ha
      have := (hf v).enough _ _ (hr r1).2 (hr r2).2 (hen e1).2 (hen e2).2 hw
      simp only [Nat.add_assoc] at this
      exact this
    · rw [bind_apply, h1, bind_apply, h2]
      exact .inr ⟨ht, ⟨_, _, rfl⟩, ⟨_, _, rfl⟩⟩
  · rcases Classical.em (Enough n b) with h | h
    · rcases hm.enough b b (hr r).1 (hr r).1 h h rfl with ⟨v, h1, _⟩ | ⟨ht, ⟨x1, y1, h1⟩, _⟩
      · rw [bind_apply, h1]
        refine (hf v).short _ (hr r).2 fun h2 => hs ?_
        rcases Nat.eq_zero_or_pos n2 with h3 | h3
        · rw [show reach n s n2 = n by simp [reach, h3]]; exact h
        · rcases h2 with h2 | h2
          · omega
          · rcases h with h | h
            · subst h
              refine .inr ?_
              have : reach 0 s n2 ≤ s + n2 := reach_le (by omega) fun _ => Nat.le_refl _
              change b.pos + s + n2 ≤ b.data.length at h2
              omega
            · refine .inr ?_
              change b.pos + s + n2 ≤ b.data.length at h2
              have : reach n s n2 ≤ max n (s + n2) := reach_le (by omega) fun _ => by omega
              omega
      · rw [bind_apply, h1]
        exact ⟨_, _, rfl, fun h => by rw [ht] at h; cases h⟩
    · obtain ⟨e, b', he, hc⟩ := hm.short b (hr r).1 h
      rw [bind_apply, he]
      exact ⟨_, _, rfl, hc⟩

/-- Same results, another way of writing them. -/
theorem FixedRead.cast {total : Bool} {n s n2 s2 : Nat} {m : M α} (h : FixedRead total n s m) (hn : n = n2)
    (hs : s = s2) : FixedRead total n2 s2 m := by
  subst hn hs; exact h

theorem FixedRead.map {total : Bool} {n s : Nat} {m : M α} (h : FixedRead total n s m) {f : α → M β}
    (hf : ∀ a, FixedRead total 0 0 (f a)) : FixedRead total n s (m >>= f) :=
  (h.bind hf).cast (by simp [reach]) (by omega)

theorem FixedRead.fmap {total : Bool} {n s : Nat} {m : M α} (h : FixedRead total n s m) (f : α → β) :
    FixedRead total n s (do
      let a ← m
      return f a) :=
  h.map fun _ => FixedRead.pure _

/-- A first step that reads nothing. -/
theorem FixedRead.first {total : Bool} {n s : Nat} {m : M α} (h : FixedRead total 0 0 m) {f : α → M β}
    (hf : ∀ a, FixedRead total n s (f a)) : FixedRead total n s (m >>= f) := by
  refine (h.bind hf).cast ?_ (by omega)
  unfold reach
  split <;> omega

theorem FixedRead.takeBytes {total : Bool} (n : Nat) (hn : 1 ≤ n) : FixedRead total n n (takeBytes n) := by
  refine ⟨fun b1 b2 r1 r2 e1 e2 ha => .inl ⟨b1.ahead n, ?_, ?_⟩, fun b r hs => ?_⟩
  · have h : b1.pos + n ≤ b1.data.length := by rcases e1 with h | h <;> omega
    rw [takeBytes_apply n b1 ⟨by omega, r1.data⟩, if_neg (by omega)]
    rfl
  · have h : b2.pos + n ≤ b2.data.length := by rcases e2 with h | h <;> omega
    rw [takeBytes_apply n b2 ⟨by omega, r2.data⟩, if_neg (by omega), ha]
    rfl
  · have h : ¬ b.pos + n ≤ b.data.length := fun h => hs (.inr h)
    refine ⟨⟨b.pos, .invalidByteLength⟩, b, ?_, fun _ => rfl⟩
    unfold JBytes.takeBytes
    rw [bind_apply, remainingLen_apply]
    simp only
    rw [if_pos (by omega)]
    rfl

theorem FixedRead.index0 {total : Bool} : FixedRead total 1 1 (JBytes.takeBytes 1 >>= fun v => M.index0 v) := by
  have h := FixedRead.takeBytes (total := total) 1 (Nat.le_refl 1)
  refine ⟨fun b1 b2 r1 r2 e1 e2 ha => ?_, fun b r hs => ?_⟩
  · have h1 : b1.pos + 1 ≤ b1.data.length := by rcases e1 with h | h <;> omega
    have h2 : b2.pos + 1 ≤ b2.data.length := by rcases e2 with h | h <;> omega
    rw [bind_apply, takeBytes_apply 1 b1 ⟨by omega, r1.data⟩, if_neg (by omega), bind_apply,
      takeBytes_apply 1 b2 ⟨by omega, r2.data⟩, if_neg (by omega)]
    have hl : (b1.ahead 1).length = 1 := by simp only [Buf.ahead, List.length_take, List.length_drop]; omega
    unfold Buf.ahead at ha hl
    simp only [← ha]
    match h3 : (b1.data.drop b1.pos).take 1, hl with
    | [x], _ => exact .inl ⟨x, rfl, rfl⟩
  · obtain ⟨e, b', he, hc⟩ := h.short b r hs
    rw [bind_apply, he]
    exact ⟨_, _, rfl, hc⟩

theorem FixedRead.takeU8 {total : Bool} : FixedRead total 1 1 takeU8 := FixedRead.index0

/-- The first byte, in some way. -/
theorem FixedRead.first0 {total : Bool} (g : Byte → α) : FixedRead total 1 1 (do
    let v ← JBytes.takeBytes 1
    let x ← M.index0 v
    return g x) := by
  have h := (FixedRead.index0 (total := total)).fmap g
  have e : (do
      let v ← JBytes.takeBytes 1
      let x ← M.index0 v
      return g x) = (do
      let a ← (JBytes.takeBytes 1 >>= fun v => M.index0 v)
      return g a) := by
    funext b
    simp only [bind_apply]
    generalize JBytes.takeBytes 1 b = x
    obtain ⟨o, b1⟩ := x
    cases o <;> rfl
  rw [e]
  exact h

theorem Scalar.size_pos (s : Scalar) : 1 ≤ s.size := by cases s <;> decide

theorem FixedRead.takeScalar {total : Bool} (s : Scalar) (o : ByteOrder) : FixedRead total s.size s.size (takeScalar s o) := by
  cases s
  case u8 => exact FixedRead.takeU8.fmap _
  case i8 => exact FixedRead.takeU8.fmap _
  all_goals exact (FixedRead.takeBytes _ (Scalar.size_pos _)).fmap _

theorem FixedRead.takeUint {total : Bool} (n : Nat) (h1 : 1 ≤ n) (h8 : n ≤ 8) (o : ByteOrder) :
    FixedRead total n n (takeUint n o) := by
  unfold JBytes.takeUint takeN
  cases o
  · simp only [takeBeN, if_pos h8]; exact (FixedRead.takeBytes n h1).fmap _
  · simp only [takeLeN, if_pos h8]; exact (FixedRead.takeBytes n h1).fmap _

theorem FixedRead.repeatM {total : Bool} {need size : Nat} {m : M α} (h : FixedRead total need size m) (n : Nat) :
    FixedRead total (rows n need size) (n * size) (repeatM m n) := by
  induction n with
  | zero => exact (FixedRead.pure []).cast (by simp [rows]) (by omega)
  | succ n ih =>
    refine (h.bind fun _ => ih.fmap _).cast ?_ (by rw [Nat.succ_mul]; omega)
    unfold reach rows
    rcases Nat.eq_zero_or_pos need with h0 | h0
    · simp [h0]
    · rcases Nat.eq_zero_or_pos n with hn | hn
      · subst hn; simp
      · obtain ⟨k, rfl⟩ : ∃ k, n = k + 1 := ⟨n - 1, by omega⟩
        have : (k + 1) * size = k * size + size := Nat.succ_mul k size
        simp
        split <;> split <;> omega

/-- Moving on without reading. -/
theorem FixedRead.advance {total : Bool} (n : Nat) : FixedRead total 0 n (advance n) := by
  have h : ∀ b : Buf, Room 0 n b → M.advance n b = (.ok (), ⟨b.data, b.pos + n⟩) := by
    intro b r
    show (Out.ok (), (⟨b.data, wadd b.pos n⟩ : Buf)) = _
    rw [wadd, Nat.mod_eq_of_lt r.size]
  exact ⟨fun b1 b2 r1 r2 _ _ _ => .inl ⟨(), h b1 r1, h b2 r2⟩, fun b _ hs => absurd (.inl rfl) hs⟩

/-- Reading and going back. -/
theorem FixedRead.back {total : Bool} {n s : Nat} (hs : s ≤ n) {m : M α} (h : FixedRead total n s m)
    {f : α → M β} (hf : ∀ a, FixedRead total 0 0 (f a)) : FixedRead total n 0 (do
      let p ← getPos
      let v ← m
      setPos p
      f v) := by
  have hr : ∀ {b : Buf}, Room n 0 b → Room n s b := fun r => ⟨r.data, r.need, by have := r.need; omega⟩
  have hz : ∀ {b : Buf}, Room n 0 b → Room 0 0 b := fun r => r.mono (by omega) (by omega)
  refine ⟨fun b1 b2 r1 r2 e1 e2 ha => ?_, fun b r he => ?_⟩
  · simp only [bind_apply, getPos_apply]
    rcases h.enough b1 b2 (hr r1) (hr r2) e1 e2 ha with ⟨v, h1, h2⟩ | ⟨ht, ⟨x1, y1, h1⟩, ⟨x2, y2, h2⟩⟩
    · rw [h1, h2]
      exact (hf v).enough b1 b2 (hz r1) (hz r2) (.inl rfl) (.inl rfl) (by simp [Buf.ahead])
    · rw [h1, h2]
      exact .inr ⟨ht, ⟨_, _, rfl⟩, ⟨_, _, rfl⟩⟩
  · obtain ⟨e, b', h1, hc⟩ := h.short b (hr r) he
    simp only [bind_apply, getPos_apply, h1]
    exact ⟨_, _, rfl, hc⟩

/-! ## The types of fixed layout -/

/-- The place of a field: `off` bytes are skipped before it, its type needs `need` bytes and moves by `size`, under the
modifiers `under`. -/
structure GetPlace where
  off : Nat
  need : Nat
  size : Nat
  under : Option FAttr → Prop

/-- What a field needs, from the end of the field before it on. -/
def fieldNeed (a : FieldAttrs V) (s : GetPlace) : Nat :=
  if a.skip || a.skipDecode then 0 else reach 0 s.off s.need

/-- How far a field moves the position. -/
def fieldSize (a : FieldAttrs V) (s : GetPlace) : Nat :=
  s.off + if a.skip || a.skipDecode || a.untake then 0 else s.size

/-- What the fields need together. -/
def layNeed : List (Field V × GetPlace) → Nat
  | [] => 0
  | p :: ps => reach (fieldNeed p.1.attrs p.2) (fieldSize p.1.attrs p.2) (layNeed ps)

/-- How far the fields move the position together. -/
def laySize : List (Field V × GetPlace) → Nat
  | [] => 0
  | p :: ps => fieldSize p.1.attrs p.2 + laySize ps

/-- A field at a fixed place: no user-written decoder, no condition, no text; an `offset` that is always the same; byte
order expressions that give 0 or 1; `check_value` only if errors are allowed. -/
structure LaidAttrs (total : Bool) (a : FieldAttrs V) (off : Nat) : Prop where
  custom : a.withDecode = none
  fromStr : a.fromStr = none
  cond : a.ifExpr = none
  check : total = true → a.checkValue = none
  offset : (a.offset = none ∧ off = 0) ∨ ∃ e, a.offset = some e ∧ ∀ env, e env = off
  order : ∀ e env, a.byteorder = some (.expr e) → e env = 0 ∨ e env = 1

/-- The modifiers a field is decoded with meet `G`, if those left over from the fields before it meet `Q`. -/
structure PassesOn (keep : Bool) (Q : Option FAttr → Prop) (a : FieldAttrs V) (G : Option FAttr → Prop) : Prop where
  set : (a.isUse && a.anySet) = true → ∀ o env, G (some (a.modifiers o env)) ∧ Q (some (a.modifiers o env))
  unset : (a.isUse && a.anySet) = false → keep = false ∨ a.isUse = true → G none ∧ Q none
  kept : keep = true → a.isUse = false → ∀ fa, Q fa → G fa

/-- The width of the tag of an enum, given the modifiers around it (0: the tag is given by `branch`). -/
def TagWidth (mode : TagMode) (own : Option CAttr) (fa : Option FAttr) (w : Nat) : Prop :=
  match mode with
  | .startsWith _ => False
  | .takeBytes n => w = n ∧ 1 ≤ n
  | .uint =>
    match fa.bind (·.branch), fa.bind (·.byteCount), own.bind (·.byteCount) with
    | some _, _, _ => w = 0
    | none, some k, _ => w = k ∧ 1 ≤ k ∧ k ≤ 8
    | none, none, some k => w = k ∧ 1 ≤ k ∧ k ≤ 8
    | none, none, none => w = 1

/-- The fields of a variant, with the bytes skipped before them. -/
structure VariantLay (V : Type) where
  variant : Variant V
  off : Nat
  places : List (Field V × GetPlace)

/-- The decoders of fixed layout: `Fixed total G need size α d`, under modifiers that meet `G`. -/
inductive Fixed (total : Bool) : (Option FAttr → Prop) → Nat → Nat → (α : Type) → Dec α → Prop where
  | int (k : IntKind) (hk : k.Valid) : Fixed total (fun fa => fa.bind (·.length) = none) k.size k.size Nat (decInt k)
  | width (k : IntKind) (n : Nat) (h1 : 1 ≤ n) (h8 : n ≤ 8) (hn : n ≤ k.size) :
      Fixed total (fun fa => fa.bind (·.length) = some n) n n Nat (decInt k)
  | f32 : Fixed total (fun _ => True) 4 4 Nat decF32
  | f64 : Fixed total (fun _ => True) 8 8 Nat decF64
  | bool : Fixed total (fun _ => True) 1 1 Bool decBool
  | char : Fixed total (fun _ => True) 1 1 Nat decChar
  | ipv4 : Fixed total (fun _ => True) 4 4 (List Byte) decIpv4
  | ipv6 : Fixed total (fun _ => True) 16 16 (List Byte) decIpv6
  | mac : Fixed total (fun _ => True) 6 6 (List Byte) decMac
  | ip (n : Nat) (h : n = 4 ∨ n = 16) : Fixed total (fun fa => fa.bind (·.length) = some n) n n IpAddr decIpAddr
  | net (n : Nat) (h : n = 16 ∨ (1 ≤ n ∧ n ≤ 8)) :
      Fixed total (fun fa => fa.bind (·.length) = some n) n n NetAddr decNet
  | unit : Fixed total (fun _ => True) 0 0 Unit decUnit
  | bytes (n : Nat) (h : 1 ≤ n) : Fixed total
      (fun fa => fa.bind (·.length) = some n ∧ fa.bind (·.key) = none ∧ fa.bind (·.split) = none) n n (List Byte) decBytes
  | str (n : Nat) (h : 1 ≤ n) (ht : total = false) : Fixed total
      (fun fa => fa.bind (·.length) = some n ∧ fa.bind (·.key) = none ∧ fa.bind (·.split) = none) n n (List Byte) decStr
  | array {α : Type} {G : Option FAttr → Prop} {n s : Nat} {d : Dec α} (k : Nat) : Fixed total G n s α d →
      Fixed total G (rows k n s) (k * s) (List α) (decArray k d)
  | vec {α : Type} {G : Option FAttr → Prop} {n s : Nat} {d : Dec α} (fuel k : Nat) : Fixed total G n s α d →
      Fixed total (fun fa => G fa ∧ fa.bind (·.count) = some k ∧ fa.bind (·.loopSkipStarts) = none) (rows k n s) (k * s)
        (List α) (decVec fuel d)
  | set {α : Type} [DecidableEq α] {G : Option FAttr → Prop} {n s : Nat} {d : Dec α} (k : Nat) : Fixed total G n s α d →
      Fixed total (fun fa => G fa ∧ fa.bind (·.count) = some k) (rows k n s) (k * s) (List α) (decSet d)
  | map {α β : Type} [DecidableEq α] {G H : Option FAttr → Prop} {n s n2 s2 : Nat} {dk : Dec α} {dv : Dec β} (k : Nat) :
      Fixed total G n s α dk → Fixed total H n2 s2 β dv →
      Fixed total (fun fa => G (keyFattr fa) ∧ H (valFattr fa) ∧ fa.bind (·.count) = some k) (rows k (reach n s n2) (s + s2))
        (k * (s + s2)) (List (α × β)) (decMap dk dv)
  | pair {α : Type} {G : Option FAttr → Prop} {n s n2 s2 : Nat} {d : Dec α} {ds : List (Dec α)} : Fixed total G n s α d →
      Fixed total G n2 s2 (List α) (decTuple ds) → Fixed total G (reach n s n2) (s + s2) (List α) (decTuple (d :: ds))
  | done {α : Type} : Fixed total (fun _ => True) 0 0 (List α) (decTuple [])
  | inject {α β : Type} {G : Option FAttr → Prop} {n s : Nat} {d : Dec α} (f : α → β) : Fixed total G n s α d →
      Fixed total G n s β (fun ca fa => do
        let a ← d ca fa
        return f a)
  | weaken {α : Type} {G H : Option FAttr → Prop} {n s : Nat} {d : Dec α} : Fixed total G n s α d → (∀ fa, H fa → G fa) →
      Fixed total H n s α d
  | struct {V : Type} (S : StructDef V) (ps : List (Field V × GetPlace)) (Q : Option FAttr → Prop) :
      S.withDecode = none → S.fields = ps.map Prod.fst → Q none →
      (∀ p ∈ ps, LaidAttrs total p.1.attrs p.2.off) →
      (∀ p ∈ ps, PassesOn S.tuple Q p.1.attrs p.2.under) →
      (∀ p ∈ ps, p.1.attrs.untake = true → p.2.size ≤ p.2.need) →
      (∀ p ∈ ps, Fixed total p.2.under p.2.need p.2.size V p.1.dec) →
      Fixed total (fun _ => True) (layNeed ps) (laySize ps) (List V) (decStruct S)
  | enum {V : Type} (E : EnumDef V) (vs : List (VariantLay V)) (Q : Option FAttr → Prop) (w n s : Nat) : total = false →
      E.withDecode = none → E.variants = vs.map (·.variant) →
      (∀ x ∈ vs, x.variant.fields = x.places.map Prod.fst) →
      (∀ x ∈ vs, reach 0 x.off (layNeed x.places) = n ∧ x.off + laySize x.places = s) →
      (∀ x ∈ vs, LaidAttrs total x.variant.attrs x.off) →
      (∀ x ∈ vs, PassesOn false Q x.variant.attrs fun _ => True) →
      (∀ x ∈ vs, ∀ p ∈ x.places, LaidAttrs total p.1.attrs p.2.off) →
      (∀ x ∈ vs, ∀ p ∈ x.places, PassesOn x.variant.tuple Q p.1.attrs p.2.under) →
      (∀ x ∈ vs, ∀ p ∈ x.places, p.1.attrs.untake = true → p.2.size ≤ p.2.need) →
      (∀ x ∈ vs, ∀ p ∈ x.places, Fixed total p.2.under p.2.need p.2.size V p.1.dec) →
      Fixed total (fun fa => TagWidth E.mode E.container fa w) (reach w w n) (w + s) (Nat × List V) (decEnum E)

/-! ## They have a fixed layout -/

theorem FixedRead.decInt {total : Bool} (k : IntKind) (ca : Option CAttr) (fa : Option FAttr) {n : Nat}
    (h : FixedRead total n n (decWord k (getByteorder ca fa) (fa.bind (·.length)))) :
    FixedRead total n n (decInt k ca fa) := by
  refine h.map fun v => ?_
  split <;> exact FixedRead.pure _

theorem FixedRead.decWord_none {total : Bool} {k : IntKind} (hk : k.Valid) (o : ByteOrder) :
    FixedRead total k.size k.size (decWord k o none) :=
  (FixedRead.takeScalar k.scalar o).cast (scalar_size hk) (scalar_size hk)

theorem FixedRead.decWord_some {total : Bool} {k : IntKind} (n : Nat) (h1 : 1 ≤ n) (h8 : n ≤ 8) (hn : n ≤ k.size)
    (o : ByteOrder) : FixedRead total n n (decWord k o (some n)) := by
  unfold decWord
  simp only
  rw [if_neg (by omega)]
  exact (FixedRead.takeUint n h1 h8 o).fmap _

theorem FixedRead.decNet {total : Bool} (n : Nat) (h : n = 16 ∨ (1 ≤ n ∧ n ≤ 8)) (ca : Option CAttr) (fa : Option FAttr)
    (hl : fa.bind (·.length) = some n) : FixedRead total n n (decNet ca fa) := by
  unfold JBytes.decNet
  rw [hl]
  simp only
  rw [if_neg (by omega)]
  split
  · rename_i h4; subst h4; exact ((FixedRead.takeScalar .u32 _).fmap _).fmap _
  · split
    · rename_i h6; subst h6; exact ((FixedRead.takeUint 6 (by decide) (by decide) _).fmap _).fmap _
    · split
      · rename_i h16; subst h16; exact ((FixedRead.takeScalar .u128 _).fmap _).fmap _
      · refine (FixedRead.decInt _ _ _ ?_).fmap _
        rw [hl]
        exact FixedRead.decWord_some n (by omega) (by omega) (show n ≤ 8 by omega) _

theorem FixedRead.decBytes {total : Bool} (n : Nat) (h : 1 ≤ n) (ca : Option CAttr) (fa : Option FAttr)
    (hl : fa.bind (·.length) = some n) (hk : fa.bind (·.key) = none) (hs : fa.bind (·.split) = none) :
    FixedRead total n n (decBytes ca fa) := by
  cases fa with
  | none => cases hl
  | some fr =>
    change fr.length = some n at hl
    change fr.key = none at hk
    change fr.split = none at hs
    unfold JBytes.decBytes
    simp only [hk, hs, hl, skipNeedle]
    exact FixedRead.first (FixedRead.pure _) fun _ => FixedRead.first (FixedRead.pure _) fun _ => FixedRead.takeBytes n h

theorem FixedRead.decCounted {total : Bool} {n s : Nat} {d : Dec α} {ca : Option CAttr} {fa : Option FAttr} (k : Nat)
    (h : FixedRead total n s (d ca fa)) (hc : fa.bind (·.count) = some k) :
    FixedRead total (rows k n s) (k * s) (decCounted d ca fa) := by
  cases fa with
  | none => cases hc
  | some fr =>
    change fr.count = some k at hc
    unfold JBytes.decCounted getCount
    simp only [hc]
    exact h.repeatM k

theorem FixedRead.decEntries {total : Bool} {n s n2 s2 : Nat} {dk : Dec α} {dv : Dec β} {ca : Option CAttr}
    {fa : Option FAttr} (k : Nat) (hk : FixedRead total n s (dk ca (keyFattr fa)))
    (hv : FixedRead total n2 s2 (dv ca (valFattr fa))) (hc : fa.bind (·.count) = some k) :
    FixedRead total (rows k (reach n s n2) (s + s2)) (k * (s + s2)) (decEntries dk dv ca fa) := by
  have he : FixedRead total (reach n s n2) (s + s2) (decEntry dk dv ca fa) := hk.bind fun _ => hv.fmap _
  cases fa with
  | none => cases hc
  | some fr =>
    change fr.count = some k at hc
    unfold JBytes.decEntries getCount
    simp only [hc]
    exact he.repeatM k

/-- The modifiers of a field are computed without reading. -/
theorem FixedRead.toCode {total : Bool} {n s : Nat} {a : FieldAttrs V} {env : Env V}
    (ho : ∀ e env, a.byteorder = some (.expr e) → e env = 0 ∨ e env = 1) {f : Option FAttr → M β}
    (hs : (a.isUse && a.anySet) = true → ∀ o, FixedRead total n s (f (some (a.modifiers o env))))
    (hn : (a.isUse && a.anySet) = false → FixedRead total n s (f none)) : FixedRead total n s (a.toCode env >>= f) := by
  have key : ∀ (x : Option FAttr), (∀ b, a.toCode env b = (.ok x, b)) → (a.toCode env >>= f) = f x := by
    intro x hx
    funext b
    rw [bind_apply, hx]
  unfold FieldAttrs.toCode at key ⊢
  by_cases h : (a.isUse && a.anySet) = true
  · rw [if_pos h] at key ⊢
    unfold orderCode at key ⊢
    cases hb : a.byteorder with
    | none =>
      simp only [hb] at key ⊢
      rw [key _ fun b => rfl]
      exact hs h _
    | some o =>
      cases o with
      | lit o =>
        simp only [hb] at key ⊢
        rw [key _ fun b => rfl]
        exact hs h _
      | expr e =>
        simp only [hb] at key ⊢
        rcases ho e env hb with h0 | h0
        · simp only [h0] at key ⊢
          rw [key _ fun b => rfl]
          exact hs h _
        · simp only [h0] at key ⊢
          rw [key _ fun b => rfl]
          exact hs h _
  · rw [if_neg h] at key ⊢
    rw [key _ fun b => rfl]
    exact hn (by simpa using h)

theorem FixedRead.skipOffset {total : Bool} {n s : Nat} {a : FieldAttrs V} {off : Nat} (ha : LaidAttrs total a off)
    (env : Env V) {f : Unit → M β} (hf : FixedRead total n s (f ())) :
    FixedRead total (reach 0 off n) (off + s) (skipOffset a env >>= f) := by
  have h : FixedRead total 0 off (JBytes.skipOffset a env) := by
    unfold JBytes.skipOffset
    rcases ha.offset with ⟨h1, h2⟩ | ⟨e, h1, h2⟩
    · rw [h1, h2]; exact FixedRead.pure _
    · rw [h1]
      simp only [h2]
      exact FixedRead.advance off
  exact h.bind fun _ => hf

theorem FixedRead.finishValue {total : Bool} {a : FieldAttrs V} (hc : total = true → a.checkValue = none) (env : Env V)
    (v : V) : FixedRead total 0 0 (finishValue a env v) := by
  unfold JBytes.finishValue
  cases h : a.checkValue with
  | none => exact FixedRead.pure _
  | some c =>
    cases total with
    | true => rw [hc rfl] at h; cases h
    | false =>
      cases a.valueDecode <;> simp only <;> split <;> first
        | exact FixedRead.pure _
        | exact FixedRead.fail _

theorem FixedRead.decField {total : Bool} {f : Field V} {s : GetPlace} (ha : LaidAttrs total f.attrs s.off)
    (hu : f.attrs.untake = true → s.size ≤ s.need) {env : Env V} {ca : Option CAttr} {fa : Option FAttr}
    (h : FixedRead total s.need s.size (f.dec ca fa)) :
    FixedRead total (fieldNeed f.attrs s) (fieldSize f.attrs s) (decField f env ca fa) := by
  unfold JBytes.decField fieldNeed fieldSize
  rw [ha.custom, ha.fromStr]
  by_cases hs : (f.attrs.skip || f.attrs.skipDecode) = true
  · simp only [hs, Bool.true_or, if_true]
    exact (FixedRead.skipOffset ha env (FixedRead.pure f.dflt)).cast (by simp [reach]) rfl
  · simp only [Bool.not_eq_true] at hs
    simp only [hs, Bool.false_or, if_false, Bool.false_eq_true]
    refine FixedRead.skipOffset ha env ?_
    have hcond : decCond f env ca fa = f.dec ca fa := by
      unfold decCond
      rw [ha.cond]
    unfold decPlain
    rw [hcond]
    cases hut : f.attrs.untake with
    | true =>
      simp only [if_true]
      exact FixedRead.back (hu hut) h fun v => FixedRead.finishValue ha.check env v
    | false =>
      simp only [if_false, Bool.false_eq_true]
      exact h.map fun v => FixedRead.finishValue ha.check env v

theorem FixedRead.decFields {total : Bool} (keep : Bool) (Q : Option FAttr → Prop) (ps : List (Field V × GetPlace)) :
    (∀ p ∈ ps, LaidAttrs total p.1.attrs p.2.off) →
    (∀ p ∈ ps, PassesOn keep Q p.1.attrs p.2.under) →
    (∀ p ∈ ps, p.1.attrs.untake = true → p.2.size ≤ p.2.need) →
    (∀ p ∈ ps, ∀ ca fa, p.2.under fa → FixedRead total p.2.need p.2.size (p.1.dec ca fa)) →
    ∀ (ca : Option CAttr) (old : Option FAttr) (env : Env V), Q old →
      FixedRead total (layNeed ps) (laySize ps) (decFields keep (ps.map Prod.fst) ca old env) := by
  induction ps with
  | nil => intro _ _ _ _ ca old env _; exact FixedRead.pure _
  | cons p ps ih =>
    intro ha hp hu hd ca old env hq
    have hp0 := List.mem_cons_self (a := p) (l := ps)
    have key : ∀ fa, p.2.under fa → Q fa → FixedRead total (layNeed (p :: ps)) (laySize (p :: ps)) (do
        let v ← JBytes.decField p.1 env ca fa
        let vs ← JBytes.decFields keep (ps.map Prod.fst) (cacheVars p.1.attrs ca (env.push v)) fa (env.push v)
        return v :: vs) := by
      intro fa hg hqa
      refine (FixedRead.decField (ha p hp0) (hu p hp0) (hd p hp0 ca fa hg)).bind fun v => ?_
      exact (ih (fun q hm => ha q (List.mem_cons_of_mem _ hm)) (fun q hm => hp q (List.mem_cons_of_mem _ hm))
        (fun q hm => hu q (List.mem_cons_of_mem _ hm)) (fun q hm => hd q (List.mem_cons_of_mem _ hm)) _ fa _ hqa).fmap _
    rw [List.map_cons, JBytes.decFields]
    by_cases hk : (keep && !p.1.attrs.isUse) = true
    · rw [if_pos hk]
      simp only [Bool.and_eq_true, Bool.not_eq_true'] at hk
      exact key old ((hp p hp0).kept hk.1 hk.2 old hq) hq
    · rw [if_neg hk]
      refine FixedRead.toCode (ha p hp0).order (fun h o => ?_) fun h => ?_
      · exact key _ ((hp p hp0).set h o env).1 ((hp p hp0).set h o env).2
      · have hk' : keep = false ∨ p.1.attrs.isUse = true := by
          cases keep <;> simp_all
        exact key none ((hp p hp0).unset h hk').1 ((hp p hp0).unset h hk').2

theorem FixedRead.decTag {total : Bool} {own ca : Option CAttr} {fa : Option FAttr} {w : Nat}
    (h : TagWidth .uint own fa w) : FixedRead total w w (decTag own ca fa) := by
  have h8 : FixedRead total 1 1 (do
      let x ← JBytes.takeU8
      return x.toNat) := FixedRead.takeU8.fmap _
  cases fa with
  | none =>
    unfold JBytes.decTag
    unfold TagWidth at h
    cases ho : own.bind (·.byteCount) with
    | none =>
      simp only [ho, Option.bind_none] at h ⊢
      subst h
      exact h8
    | some k =>
      simp only [ho, Option.bind_none] at h ⊢
      obtain ⟨rfl, h1, h2⟩ := h
      exact FixedRead.takeUint _ h1 h2 _
  | some fr =>
    unfold JBytes.decTag
    unfold TagWidth at h
    simp only [Option.bind_some] at h ⊢
    cases hb : fr.branch with
    | some n =>
      simp only [hb] at h ⊢
      subst h
      exact FixedRead.pure _
    | none =>
      cases hc : fr.byteCount with
      | some k =>
        simp only [hb, hc] at h ⊢
        obtain ⟨rfl, h1, h2⟩ := h
        exact FixedRead.takeUint _ h1 h2 _
      | none =>
        cases ho : own.bind (·.byteCount) with
        | none =>
          simp only [hb, hc, ho] at h ⊢
          subst h
          exact h8
        | some k =>
          simp only [hb, hc, ho] at h ⊢
          obtain ⟨rfl, h1, h2⟩ := h
          exact FixedRead.takeUint _ h1 h2 _

theorem FixedRead.decArm {E : EnumDef V} {n s : Nat}
    (h : ∀ v ∈ E.variants, ∀ env i, FixedRead false n s (decVariant E.container env i v)) (env : Env V) (t : Tag) :
    FixedRead false n s (decArm E env t) := by
  unfold JBytes.decArm
  split
  · rename_i i v hf
    refine h v ?_ env i
    obtain ⟨k, hk⟩ := findArm_mem _ _ _ _ _ hf
    exact (List.of_mem_zip hk).1
  · exact FixedRead.fail _

theorem Fixed.reads {total : Bool} {G : Option FAttr → Prop} {n s : Nat} {d : Dec α} (h : Fixed total G n s α d) :
    ∀ (ca : Option CAttr) (fa : Option FAttr), G fa → FixedRead total n s (d ca fa) := by
  induction h with
  | int k hk =>
    intro ca fa hg
    refine FixedRead.decInt k ca fa ?_
    rw [hg]
    exact FixedRead.decWord_none hk _
  | width k n h1 h8 hn =>
    intro ca fa hg
    refine FixedRead.decInt k ca fa ?_
    rw [hg]
    exact FixedRead.decWord_some n h1 h8 hn _
  | f32 => intro ca fa _; exact FixedRead.takeScalar .f32 _
  | f64 => intro ca fa _; exact FixedRead.takeScalar .f64 _
  | bool => intro ca fa _; exact FixedRead.first0 _
  | char => intro ca fa _; exact FixedRead.first0 _
  | ipv4 => intro ca fa _; exact (FixedRead.takeScalar .u32 _).fmap _
  | ipv6 => intro ca fa _; exact (FixedRead.takeScalar .u128 _).fmap _
  | mac => intro ca fa _; exact (FixedRead.takeUint 6 (by decide) (by decide) _).fmap _
  | ip n h =>
    intro ca fa hg
    unfold decIpAddr
    rw [hg]
    rcases h with rfl | rfl
    · exact ((FixedRead.takeScalar .u32 _).fmap _).fmap _
    · exact ((FixedRead.takeScalar .u128 _).fmap _).fmap _
  | net n h => intro ca fa hg; exact FixedRead.decNet n h ca fa hg
  | unit => intro ca fa _; exact FixedRead.pure _
  | bytes n h => intro ca fa hg; exact FixedRead.decBytes n h ca fa hg.1 hg.2.1 hg.2.2
  | str n h ht =>
    intro ca fa hg
    subst ht
    refine (FixedRead.decBytes n h ca fa hg.1 hg.2.1 hg.2.2).map fun v => ?_
    split
    · exact FixedRead.pure _
    · exact FixedRead.fail _
  | array k _ ih => intro ca fa hg; exact (ih ca fa hg).repeatM k
  | vec fuel k _ ih =>
    intro ca fa hg
    unfold decVec
    rw [hg.2.2]
    exact FixedRead.decCounted k (ih ca fa hg.1) hg.2.1
  | set k _ ih => intro ca fa hg; exact (FixedRead.decCounted k (ih ca fa hg.1) hg.2).fmap _
  | map k _ _ ihk ihv =>
    intro ca fa hg
    exact (FixedRead.decEntries k (ihk ca _ hg.1) (ihv ca _ hg.2.1) hg.2.2).fmap _
  | pair _ _ ih1 ih2 => intro ca fa hg; exact (ih1 ca fa hg).bind fun _ => (ih2 ca fa hg).fmap _
  | done => intro ca fa _; exact FixedRead.pure _
  | inject f _ ih => intro ca fa hg; exact (ih ca fa hg).fmap f
  | weaken _ hi ih => intro ca fa hg; exact ih ca fa (hi fa hg)
  | struct S ps Q hw hf hq ha hp hu _ ih =>
    intro ca fa _
    unfold decStruct
    rw [hw, hf]
    exact FixedRead.decFields S.tuple Q ps ha hp hu (fun p hm ca fa hg => ih p hm ca fa hg) _ none _ hq
  | enum E vs Q w n s ht hw hv hf hl ha hpv hfa hp hu _ ih =>
    intro ca fa hg
    subst ht
    have harm : ∀ v ∈ E.variants, ∀ env i, FixedRead false n s (decVariant E.container env i v) := by
      intro v hm env i
      rw [hv] at hm
      obtain ⟨x, hx, rfl⟩ := List.mem_map.mp hm
      unfold decVariant
      have key : ∀ fa, Q fa → FixedRead false n s (do
          JBytes.skipOffset x.variant.attrs env
          let vs ← JBytes.decFields x.variant.tuple x.variant.fields E.container fa env
          return (i, vs)) := by
        intro fa hqa
        rw [← (hl x hx).1, ← (hl x hx).2, hf x hx]
        refine FixedRead.skipOffset (ha x hx) env ?_
        exact (FixedRead.decFields _ Q _ (hfa x hx) (hp x hx) (hu x hx) (fun p hm ca fa hg => ih x hx p hm ca fa hg)
          _ fa _ hqa).fmap _
      exact FixedRead.toCode (ha x hx).order (fun h o => key _ ((hpv x hx).set h o env).2)
        fun h => key none ((hpv x hx).unset h (.inl rfl)).2
    unfold decEnum
    rw [hw]
    cases hmode : E.mode with
    | startsWith u => rw [hmode] at hg; exact hg.elim
    | takeBytes k =>
      rw [hmode] at hg
      obtain ⟨rfl, h1⟩ := hg
      exact (FixedRead.takeBytes _ h1).bind fun _ => FixedRead.decArm harm _ _
    | uint =>
      rw [hmode] at hg
      exact (FixedRead.decTag hg).bind fun _ => FixedRead.decArm harm _ _

end JBytes
