import Verif.Size
import Verif.PropRead
import Verif.IntLemmas
/-!
# Which bytes of the input a decoded value holds

`Holds k x raw m`: when `m` succeeds, the bytes its value holds (given by `raw`) are among the bytes `x` held before and
the bytes consumed by `m`, each at most once; when `k` is set, in the order of the input.
-/

namespace JBytes
open M

variable {α β V : Type}

/-- The bytes consumed between two states of a buffer. -/
def consumed (b b' : Buf) : List Byte := (b.data.drop b.pos).take (b'.pos - b.pos)

/-- `x` is made of bytes of `y`, each used at most once: in their order (`true`), or no byte value occurring more often
than in `y` (`false`). -/
def MadeOf : Bool → List Byte → List Byte → Prop
  | true, x, y => x.Sublist y
  | false, x, y => ∀ a, x.count a ≤ y.count a

theorem MadeOf.of_sublist {k : Bool} {x y : List Byte} (h : x.Sublist y) : MadeOf k x y := by
  cases k
  · exact fun a => h.count_le a
  · exact h

theorem MadeOf.refl {k : Bool} (x : List Byte) : MadeOf k x x := MadeOf.of_sublist (List.Sublist.refl x)

theorem MadeOf.nil {k : Bool} (x : List Byte) : MadeOf k [] x := MadeOf.of_sublist (List.nil_sublist x)

theorem MadeOf.trans {k : Bool} {x y z : List Byte} (h : MadeOf k x y) (h' : MadeOf k y z) : MadeOf k x z := by
  cases k
  · exact fun a => Nat.le_trans (h a) (h' a)
  · exact List.Sublist.trans h h'

theorem MadeOf.append {k : Bool} {x y x' y' : List Byte} (h : MadeOf k x y) (h' : MadeOf k x' y') :
    MadeOf k (x ++ x') (y ++ y') := by
  cases k
  · intro a
    rw [List.count_append, List.count_append]
    exact Nat.add_le_add (h a) (h' a)
  · exact List.Sublist.append h h'

theorem MadeOf.counts {k : Bool} {x y : List Byte} (h : MadeOf k x y) (a : Byte) : x.count a ≤ y.count a := by
  cases k
  · exact h a
  · exact List.Sublist.count_le a h

/-- The bytes of the value are among those held before and those consumed. -/
def Holds (k : Bool) (x : List Byte) (raw : α → List Byte) (m : M α) : Prop := ∀ b, b.Ok → ∀ v b',
  m b = (.ok v, b') → MadeOf k (raw v) (x ++ consumed b b')

theorem consumed_append {b b1 b' : Buf} (hd : b1.data = b.data) (h1 : b.pos ≤ b1.pos) (h2 : b1.pos ≤ b'.pos) :
    consumed b b' = consumed b b1 ++ consumed b1 b' := by
  unfold consumed
  rw [hd]
  have e : b'.pos - b.pos = (b1.pos - b.pos) + (b'.pos - b1.pos) := by omega
  rw [e, List.take_add, List.drop_drop]
  have e2 : b.pos + (b1.pos - b.pos) = b1.pos := by omega
  rw [e2]

theorem Inside.step {m : M α} (h : Inside m) {b b' : Buf} (hb : b.Ok) {o : Out α} (e : m b = (o, b')) :
    b'.Ok ∧ b.pos ≤ b'.pos ∧ b'.data = b.data := by
  have h1 := h.ok hb
  have h2 := h b hb
  rw [e] at h1 h2
  exact ⟨h1, h2.2.1, h2.1⟩

theorem Holds.bind {k : Bool} {x : List Byte} {raw : α → List Byte} {raw' : β → List Byte} {m : M α} {f : α → M β}
    (hi : Inside m) (hm : Holds k x raw m) (hj : ∀ a, Inside (f a)) (hf : ∀ a, Holds k (raw a) raw' (f a)) :
    Holds k x raw' (m >>= f) := by
  intro b hb v b' e
  obtain ⟨a, b1, e1, e2⟩ := bind_ok e
  obtain ⟨k1, k2, k3⟩ := hi.step hb e1
  obtain ⟨_, k4, _⟩ := (hj a).step k1 e2
  rw [consumed_append k3 k2 k4, ← List.append_assoc]
  exact (hf a b1 k1 v b' e2).trans ((hm b hb a b1 e1).append (MadeOf.refl _))

/-- What is read first is not held. -/
theorem Holds.after {k : Bool} {x : List Byte} {raw' : β → List Byte} {m : M α} {f : α → M β} (hi : Inside m)
    (hj : ∀ a, Inside (f a)) (hf : ∀ a, Holds k x raw' (f a)) : Holds k x raw' (m >>= f) := by
  refine Holds.bind (raw := fun _ => x) hi (fun b hb v b' e => ?_) hj hf
  exact MadeOf.of_sublist (List.sublist_append_left _ _)

theorem Holds.pure {k : Bool} {x : List Byte} {raw : α → List Byte} {a : α} (h : MadeOf k (raw a) x) :
    Holds k x raw (Pure.pure a : M α) := by
  intro b hb v b' e
  cases e
  exact h.trans (MadeOf.of_sublist (List.sublist_append_left _ _))

theorem Holds.of_not_ok {k : Bool} {x : List Byte} {raw : α → List Byte} {m : M α} (h : ∀ b v b', m b ≠ (.ok v, b')) :
    Holds k x raw m := fun b _ v b' e => absurd e (h b v b')

theorem Holds.fail {k : Bool} {x : List Byte} {raw : α → List Byte} (c : ErrCode) : Holds k x raw (fail c : M α) :=
  Holds.of_not_ok fun _ _ _ h => by cases h

/-- A value that holds nothing. -/
theorem Holds.empty {k : Bool} {x : List Byte} {raw : α → List Byte} {m : M α} (h : ∀ v, raw v = []) :
    Holds k x raw m := fun _ _ v _ _ => by rw [h v]; exact MadeOf.nil _

/-- What was held before stays. -/
theorem Holds.frame {k : Bool} {raw : α → List Byte} {m : M α} (h : Holds k [] raw m) (x : List Byte) :
    Holds k x (fun v => x ++ raw v) m := fun b hb v b' e => (MadeOf.refl x).append (h b hb v b' e)

theorem Holds.map {k : Bool} {x : List Byte} {raw : α → List Byte} {raw' : β → List Byte} {m : M α} (hi : Inside m)
    (h : Holds k x raw m) (f : α → β) (hf : ∀ a, MadeOf k (raw' (f a)) (raw a)) : Holds k x raw' (do
      let a ← m
      return f a) :=
  Holds.bind hi h (fun _ => Inside.pure _) fun a => Holds.pure (hf a)

/-! ## Byte strings -/

/-- The value is a window of the bytes consumed. -/
def Cut (m : M (List Byte)) : Prop := ∀ b, b.Ok → ∀ v b', m b = (.ok v, b') → v <:+: consumed b b'

theorem Cut.holds {k : Bool} {m : M (List Byte)} (h : Cut m) : Holds k [] id m :=
  fun b hb v b' e => MadeOf.of_sublist (h b hb v b' e).sublist

theorem Cut.after {m : M α} {f : α → M (List Byte)} (hi : Inside m) (hj : ∀ a, Inside (f a)) (hf : ∀ a, Cut (f a)) :
    Cut (m >>= f) := by
  intro b hb v b' e
  obtain ⟨a, b1, e1, e2⟩ := bind_ok e
  obtain ⟨k1, k2, k3⟩ := hi.step hb e1
  obtain ⟨_, k4, _⟩ := (hj a).step k1 e2
  rw [consumed_append k3 k2 k4]
  exact (hf a b1 k1 v b' e2).trans (List.suffix_append _ _).isInfix

theorem cut_takeBytes (n : Nat) : Cut (takeBytes n) := by
  intro b hb v b' h
  rw [takeBytes_apply n b hb] at h
  split at h
  · cases h
  · cases h
    show _ <:+: (b.data.drop b.pos).take (b.pos + n - b.pos)
    rw [Nat.add_sub_cancel_left]
    exact List.infix_rfl

theorem cut_findSubsequence (x : List Byte) : Cut (findSubsequence x) := by
  intro b hb v b' h
  rw [findSubsequence_apply x b hb] at h
  split at h
  · rename_i i _
    cases h
    show _ <:+: (b.data.drop b.pos).take (b.pos + (i + x.length) - b.pos)
    rw [Nat.add_sub_cancel_left]
    exact (List.take_prefix_take_left (by omega)).isInfix
  · cases h

theorem cut_findSubsequences (xs : List (List Byte)) : Cut (findSubsequences xs) := by
  intro b hb v b' h
  rw [findSubsequences_apply xs b hb] at h
  split at h
  · rename_i s e hf
    obtain ⟨_, ⟨n, _, _, g3⟩, _⟩ := acFind_some hf
    cases h
    show _ <:+: (b.data.drop b.pos).take (b.pos + e - b.pos)
    rw [Nat.add_sub_cancel_left]
    exact (List.take_prefix_take_left (by omega)).isInfix
  · cases h

theorem cut_takePrefixed : Cut takePrefixed :=
  Cut.after tame_takeU8.inside (fun _ => (tame_takeBytes _).inside) fun _ => cut_takeBytes _

theorem cut_decBytes (ca : Option CAttr) (fa : Option FAttr) : Cut (decBytes ca fa) := by
  unfold decBytes
  split
  · exact cut_takePrefixed
  · rename_i fr
    have key : ∀ m : M (List Byte), (Inside m ∧ Cut m) → Cut (do
        skipNeedle fr.key
        skipNeedle fr.split
        m) := fun m h =>
      Cut.after (inside_skipNeedle _) (fun _ => (inside_skipNeedle _).bind fun _ => h.1) fun _ =>
        Cut.after (inside_skipNeedle _) (fun _ => h.1) fun _ => h.2
    refine key _ ?_
    split
    · exact ⟨(tame_takeBytes _).inside, cut_takeBytes _⟩
    · split
      · exact ⟨(Inside.takeUint _ _).bind fun _ => (tame_takeBytes _).inside,
          Cut.after (Inside.takeUint _ _) (fun _ => (tame_takeBytes _).inside) fun _ => cut_takeBytes _⟩
      · split
        · exact ⟨(tame_findSubsequences _).inside, cut_findSubsequences _⟩
        · split
          · exact ⟨(tame_findSubsequence _).inside, cut_findSubsequence _⟩
          · split
            · exact ⟨tame_remainingLen.inside.bind fun _ => (tame_takeBytes _).inside,
                Cut.after tame_remainingLen.inside (fun _ => (tame_takeBytes _).inside) fun _ => cut_takeBytes _⟩
            · exact ⟨(Good.takePrefixed (p := false) (t := false) (N := 0)).1, cut_takePrefixed⟩

theorem cut_decStr (ca : Option CAttr) (fa : Option FAttr) : Cut (decStr ca fa) := by
  intro b hb v b' e
  obtain ⟨s, b1, e1, e2⟩ := bind_ok e
  split at e2
  · cases e2
    exact cut_decBytes ca fa b hb _ _ e1
  · cases e2

/-! ## Numbers and addresses -/

/-- The modifiers leave a number whole. -/
def Whole (fa : Option FAttr) : Prop := fa.bind (·.bits) = none ∧ fa.bind (·.length) = none

theorem toBE_fromBytes_count (o : ByteOrder) (l : List Byte) (n : Nat) (h : l.length = n) (a : Byte) :
    (toBE n (fromBytes o l)).count a = l.count a := by
  subst h
  cases o
  · show (toBE l.length (beVal l)).count a = _
    rw [toBE_beVal]
  · show (toBE l.length (leVal l)).count a = _
    rw [← toLE_reverse, toLE_leVal, List.count_reverse]

theorem takeScalar_bytes {s : Scalar} {o : ByteOrder} {b b' : Buf} {v : Nat} (hb : b.Ok)
    (h : takeScalar s o b = (.ok v, b')) : (consumed b b').length = s.size ∧ v = fromBytes o (consumed b b') := by
  have key : ∀ n, takeFixed o n b = (.ok v, b') → (consumed b b').length = n ∧ v = fromBytes o (consumed b b') := by
    intro n h
    obtain ⟨l, b1, e1, e2⟩ := bind_ok h
    cases e2
    rw [takeBytes_apply n b hb] at e1
    split at e1
    · cases e1
    · cases e1
      unfold consumed
      dsimp only
      rw [Nat.add_sub_cancel_left]
      refine ⟨?_, rfl⟩
      rw [List.length_take, List.length_drop]
      omega
  have k8 : (do
      let x ← takeU8
      return x.toNat : M Nat) b = (.ok v, b') → (consumed b b').length = 1 ∧ v = fromBytes o (consumed b b') := by
    intro h
    obtain ⟨l, b1, e1, e2⟩ := bind_ok h
    cases e2
    rw [takeU8_apply b hb] at e1
    split at e1
    · rename_i hlt
      cases e1
      unfold consumed
      dsimp only
      rw [Nat.add_sub_cancel_left, List.drop_eq_getElem_cons hlt, List.take_succ_cons, List.take_zero]
      refine ⟨rfl, ?_⟩
      cases o
      · simp [fromBytes, beVal]
      · simp [fromBytes, leVal]
    · cases e1
  cases s <;> first | exact k8 h | exact key _ h

theorem takeUint_bytes {n : Nat} (hn : n ≤ 8) {o : ByteOrder} {b b' : Buf} {v : Nat} (hb : b.Ok)
    (h : takeUint n o b = (.ok v, b')) : (consumed b b').length = n ∧ v = fromBytes o (consumed b b') := by
  unfold takeUint at h
  rw [takeN_apply o 8 n hn b] at h
  obtain ⟨l, b1, e1, e2⟩ := bind_ok h
  cases e2
  rw [takeBytes_apply n b hb] at e1
  split at e1
  · cases e1
  · cases e1
    unfold consumed
    dsimp only
    rw [Nat.add_sub_cancel_left]
    refine ⟨?_, rfl⟩
    rw [List.length_take, List.length_drop]
    omega

theorem holds_int {k : IntKind} (hk : k.Valid) (ca : Option CAttr) {fa : Option FAttr} (hf : Whole fa) :
    Holds false [] (toBE k.size) (decInt k ca fa) := by
  intro b hb v b' e a
  unfold decInt decWord at e
  rw [hf.1, hf.2] at e
  obtain ⟨w, b1, e1, e2⟩ := bind_ok e
  cases e2
  obtain ⟨h1, h2⟩ := takeScalar_bytes hb e1
  rw [h2, toBE_fromBytes_count _ _ _ (by rw [h1, scalar_size hk])]
  exact Nat.le_refl _

theorem toBE_one (o : ByteOrder) (l : List Byte) (h : l.length = 1) : [UInt8.ofNat (fromBytes o l)] = l := by
  match l, h with
  | [x], _ =>
    cases o
    · simp [fromBytes, beVal]
    · simp [fromBytes, leVal]

theorem holds_u8 {k : Bool} (ca : Option CAttr) {fa : Option FAttr} (hf : Whole fa) :
    Holds k [] (fun v => [UInt8.ofNat v]) (decInt ⟨1, false⟩ ca fa) := by
  intro b hb v b' e
  unfold decInt decWord at e
  rw [hf.1, hf.2] at e
  obtain ⟨w, b1, e1, e2⟩ := bind_ok e
  cases e2
  obtain ⟨h1, h2⟩ := takeScalar_bytes hb e1
  rw [h2]
  dsimp only
  rw [toBE_one _ _ h1]
  exact MadeOf.refl _

theorem holds_ip (n : Nat) (s : Scalar) (hs : s.size = n) (o : ByteOrder) : Holds false [] id (do
    let v ← takeScalar s o
    return toBE n v) := by
  intro b hb v b' e a
  obtain ⟨w, b1, e1, e2⟩ := bind_ok e
  cases e2
  obtain ⟨h1, h2⟩ := takeScalar_bytes hb e1
  rw [h2]
  show (toBE n _).count a ≤ _
  rw [toBE_fromBytes_count _ _ _ (by rw [h1, hs])]
  exact Nat.le_refl _

theorem toBE_drop_two (v : Nat) : (toBE 8 v).drop 2 = toBE 6 v := rfl

theorem holds_mac (ca : Option CAttr) (fa : Option FAttr) : Holds false [] id (decMac ca fa) := by
  intro b hb v b' e a
  obtain ⟨w, b1, e1, e2⟩ := bind_ok e
  cases e2
  obtain ⟨h1, h2⟩ := takeUint_bytes (by decide) hb e1
  rw [h2]
  show (macFromBits _).count a ≤ _
  unfold macFromBits
  rw [toBE_drop_two, toBE_fromBytes_count _ _ _ h1]
  exact Nat.le_refl _

/-- The octets of an address; the number of a `NetAddress` counts for none. -/
def NetAddr.raw : NetAddr → List Byte
  | .v4 o | .v6 o | .mac o => o
  | .usize _ => []

/-- The octets of an address. -/
def IpAddr.raw : IpAddr → List Byte
  | .v4 o | .v6 o => o

theorem holds_ipAddr (ca : Option CAttr) (fa : Option FAttr) : Holds false [] IpAddr.raw (decIpAddr ca fa) := by
  unfold decIpAddr
  split
  · split
    · exact Holds.map (Good.decIpv6 (p := false) (t := false) (N := 0) ca fa).1 (holds_ip 16 .u128 rfl _) _ fun _ =>
        MadeOf.refl _
    · split
      · exact Holds.map (Good.decIpv4 (p := false) (t := false) (N := 0) ca fa).1 (holds_ip 4 .u32 rfl _) _ fun _ =>
          MadeOf.refl _
      · exact Holds.fail _
  · exact Holds.fail _

theorem holds_net (ca : Option CAttr) (fa : Option FAttr) : Holds false [] NetAddr.raw (decNet ca fa) := by
  unfold decNet
  split
  · split
    · exact Holds.fail _
    · split
      · exact Holds.map (Good.decIpv4 (p := false) (t := false) (N := 0) ca fa).1 (holds_ip 4 .u32 rfl _) _ fun _ =>
          MadeOf.refl _
      · split
        · exact Holds.map (Good.decMac (p := false) (t := false) (N := 0) ca fa).1 (holds_mac ca fa) _ fun _ =>
            MadeOf.refl _
        · split
          · exact Holds.map (Good.decIpv6 (p := false) (t := false) (N := 0) ca fa).1 (holds_ip 16 .u128 rfl _) _
              fun _ => MadeOf.refl _
          · exact Holds.map (raw := fun _ => [])
              (Good.decInt (p := false) (t := false) (N := 0) ⟨8, false⟩ ca fa fun h => nomatch h).1
              (Holds.empty fun _ => rfl) _ fun _ => MadeOf.refl _
  · exact Holds.fail _

/-! ## Collections -/

/-- The bytes of the elements, one after the other. -/
def held (raw : α → List Byte) (l : List α) : List Byte := l.flatMap raw

theorem held_cons (raw : α → List Byte) (a : α) (l : List α) : held raw (a :: l) = raw a ++ held raw l :=
  List.flatMap_cons

theorem Holds.cons {k : Bool} {raw : α → List Byte} {m : M α} {r : α → M (List α)} (hi : Inside m)
    (hm : Holds k [] raw m) (hj : ∀ a, Inside (r a)) (hr : ∀ a, Holds k [] (held raw) (r a)) :
    Holds k [] (held raw) (do
      let a ← m
      let as ← r a
      return a :: as) := by
  refine Holds.bind hi hm (fun a => (hj a).bind fun _ => Inside.pure _) fun a => ?_
  exact Holds.bind (hj a) ((hr a).frame (raw a)) (fun _ => Inside.pure _) fun as =>
    Holds.pure (by rw [held_cons]; exact MadeOf.refl _)

theorem Holds.repeatM {k : Bool} {raw : α → List Byte} {m : M α} (hi : Inside m) (h : Holds k [] raw m) (n : Nat) :
    Holds k [] (held raw) (repeatM m n) := by
  induction n with
  | zero => exact Holds.pure (MadeOf.nil _)
  | succ n ih => exact Holds.cons hi h (fun _ => hi.repeatM n) fun _ => ih

/-- The bytes of an optional value. -/
def heldOpt (raw : α → List Byte) (o : Option α) : List Byte := (o.map raw).getD []

theorem Holds.attempt {k : Bool} {raw : α → List Byte} {m : M α} (h : Holds k [] raw m) :
    Holds k [] (heldOpt raw) (M.attempt m) := by
  intro b hb v b' e
  rw [attempt_apply] at e
  rcases hm : m b with ⟨o, b1⟩
  rw [hm] at e
  cases o with
  | ok a =>
    cases e
    exact h b hb a _ hm
  | err x =>
    cases e
    exact MadeOf.nil _
  | panic => cases e
  | timeout => cases e

theorem Holds.tryRepeatM {k : Bool} {raw : α → List Byte} {m : M α} (hi : Inside m) (h : Holds k [] raw m) (n : Nat) :
    Holds k [] (held raw) (tryRepeatM m n) := by
  induction n with
  | zero => exact Holds.pure (MadeOf.nil _)
  | succ n ih =>
    refine Holds.bind hi.attempt h.attempt (fun x => ?_) fun x => ?_
    · cases x with
      | none => exact Inside.pure _
      | some a => exact (hi.tryRepeatM n).bind fun _ => Inside.pure _
    · cases x with
      | none => exact Holds.pure (MadeOf.nil _)
      | some a =>
        exact Holds.bind (hi.tryRepeatM n) (ih.frame (raw a)) (fun _ => Inside.pure _) fun as =>
          Holds.pure (by rw [held_cons]; exact MadeOf.refl _)

theorem Holds.whileStarts {k : Bool} {raw : α → List Byte} {m : M α} (p : List Byte) (hi : Inside m)
    (h : Holds k [] raw m) (n : Nat) : Holds k [] (held raw) (whileStarts p m n) := by
  induction n with
  | zero => exact Holds.of_not_ok fun _ _ _ h => by cases h
  | succ n ih =>
    refine Holds.after (tame_takeBytesStarts p).inside.attempt (fun x => ?_) fun x => ?_
    · cases x with
      | none => exact Inside.pure _
      | some _ => exact hi.bind fun _ => (hi.whileStarts p n).bind fun _ => Inside.pure _
    · cases x with
      | none => exact Holds.pure (MadeOf.nil _)
      | some _ => exact Holds.cons hi h (fun _ => hi.whileStarts p n) fun _ => ih

theorem Holds.counted {k : Bool} {raw : α → List Byte} {m : M α} (hi : Inside m) (h : Holds k [] raw m)
    (ca : Option CAttr) (fa : Option FAttr) : Holds k [] (held raw) (do
      let (n, t) ← getCount ca fa
      match t with
      | some t => JBytes.tryRepeatM m t
      | none => JBytes.repeatM m n) := by
  refine Holds.after (inside_getCount ca fa) (fun x => ?_) fun x => ?_
  · obtain ⟨n, t⟩ := x
    cases t with
    | none => exact hi.repeatM n
    | some t => exact hi.tryRepeatM t
  · obtain ⟨n, t⟩ := x
    cases t with
    | none => exact h.repeatM hi n
    | some t => exact h.tryRepeatM hi t

theorem Holds.decVec {k : Bool} {raw : α → List Byte} {d : Dec α} {ca : Option CAttr} {fa : Option FAttr} (n : Nat)
    (hi : Inside (d ca fa)) (h : Holds k [] raw (d ca fa)) : Holds k [] (held raw) (decVec n d ca fa) := by
  unfold JBytes.decVec
  split
  · exact h.whileStarts _ hi n
  · exact h.counted hi ca fa

theorem set_sublist [DecidableEq α] : ∀ (l s : List α), (l.foldl setInsert s).Sublist (s ++ l)
  | [], s => by rw [List.append_nil]; exact List.Sublist.refl _
  | a :: l, s => by
    refine (set_sublist l (setInsert s a)).trans ?_
    unfold setInsert
    split
    · exact List.Sublist.append (List.Sublist.refl _) (List.sublist_cons_self _ _)
    · rw [List.append_assoc]; exact List.Sublist.refl _

theorem held_sublist (raw : α → List Byte) {l l' : List α} (h : l.Sublist l') : (held raw l).Sublist (held raw l') := by
  unfold held
  induction h with
  | slnil => exact List.Sublist.refl _
  | cons a _ ih => rw [List.flatMap_cons]; exact ih.trans (List.sublist_append_right _ _)
  | cons_cons a _ ih => rw [List.flatMap_cons, List.flatMap_cons]; exact List.Sublist.append (List.Sublist.refl _) ih

/-- The bytes of an entry of a map. -/
def heldEntry (raw : α → List Byte) (raw' : β → List Byte) (e : α × β) : List Byte := raw e.1 ++ raw' e.2

/-- How often a byte occurs in a collection. -/
theorem held_count (raw : α → List Byte) (x : Byte) (l : List α) :
    (held raw l).count x = sizes (fun a => (raw a).count x) l := by
  induction l with
  | nil => rfl
  | cons a l ih => rw [held_cons, List.count_append, sizes_cons, ih]

theorem heldMap_count [DecidableEq α] (raw : α → List Byte) (raw' : β → List Byte) (x : Byte) (l : List (α × β)) :
    (held (heldEntry raw raw') (l.foldl mapInsert [])).count x ≤ (held (heldEntry raw raw') l).count x := by
  have e : (fun e : α × β => (heldEntry raw raw' e).count x) =
      entrySize (fun a => (raw a).count x) (fun b => (raw' b).count x) := by
    funext e
    exact List.count_append
  rw [held_count, held_count, e]
  exact Nat.le_trans (sizes_map _ _ l [] (by simp)) (by simp [sizes])

theorem Holds.decEntry {k : Bool} {raw : α → List Byte} {raw' : β → List Byte} {dk : Dec α} {dv : Dec β}
    {ca : Option CAttr} {fa : Option FAttr} (hi : Inside (dk ca (keyFattr fa)))
    (hk : Holds k [] raw (dk ca (keyFattr fa))) (hj : Inside (dv ca (valFattr fa)))
    (hv : Holds k [] raw' (dv ca (valFattr fa))) : Holds k [] (heldEntry raw raw') (decEntry dk dv ca fa) := by
  refine Holds.bind hi hk (fun a => hj.bind fun _ => Inside.pure _) fun a => ?_
  exact Holds.bind hj (hv.frame (raw a)) (fun _ => Inside.pure _) fun v => Holds.pure (MadeOf.refl _)

theorem Holds.decTuple {k : Bool} {raw : α → List Byte} {ca : Option CAttr} {fa : Option FAttr} :
    ∀ ds : List (Dec α), (∀ d ∈ ds, Inside (d ca fa) ∧ Holds k [] raw (d ca fa)) →
    Holds k [] (held raw) (decTuple ds ca fa)
  | [], _ => Holds.pure (MadeOf.nil _)
  | d :: ds, h => by
    refine Holds.cons (h d (by simp)).1 (h d (by simp)).2 (fun _ => ?_) fun _ =>
      Holds.decTuple ds fun x hx => h x (List.mem_cons_of_mem _ hx)
    exact (Good.decTuple (p := false) (t := false) (N := 0) _ fun x hx =>
      (h x (List.mem_cons_of_mem _ hx)).1.toGood).1

/-! ## Derived code -/

/-- The attributes of a field let its value hold no more than what was read for it: nothing is skipped or put back,
values that are not read hold nothing, and conversions keep to what was read. -/
structure FieldHeld (k : Bool) (raw : V → List Byte) (x : Spec V) : Prop where
  custom : x.field.attrs.withDecode = none
  offset : x.field.attrs.offset = none
  untake : x.field.attrs.untake = false
  given : ∀ fa, FaGiven x.field.attrs fa → x.fits fa
  dflt : (x.field.attrs.skip || x.field.attrs.skipDecode) = true → raw x.field.dflt = []
  noneV : x.field.attrs.ifExpr.isSome = true → raw x.field.noneV = []
  text : ∀ ps, x.field.attrs.fromStr = some ps → ∀ s v, ps.1 s = some v → MadeOf k (raw v) s
  value : ∀ g, x.field.attrs.valueDecode = some g → ∀ env v, MadeOf k (raw (g env v)) (raw v)

theorem FieldHeld.attrs {k : Bool} {raw : V → List Byte} {x : Spec V} (h : FieldHeld k raw x) (n : Nat) :
    AttrsOk still (x.at n).attrs :=
  ⟨h.custom, fun _ => h.offset, (fun h => nomatch h), (fun h => nomatch h), fun _ _ => still_ok (some _) _ rfl⟩

/-- What is known of the decoder of a field. -/
def Spec.Held (k : Bool) (raw : V → List Byte) (n : Nat) (x : Spec V) : Prop :=
  FieldHeld k raw x ∧ (∀ ca fa, Inside (x.dec n ca fa)) ∧ ∀ ca fa, x.fits fa → Holds k [] raw (x.dec n ca fa)

theorem inside_helds {k : Bool} {raw : V → List Byte} {n : Nat} {keep : Bool} {xs : List (Spec V)}
    (h : ∀ x ∈ xs, x.Held k raw n) (ca : Option CAttr) (old : Option FAttr) (env : Env V) :
    Inside (decFields keep (xs.map (·.at n)) ca old env) := by
  refine inside_decFields fun f hf => ?_
  obtain ⟨x, hx, rfl⟩ := List.mem_map.mp hf
  exact ⟨(h x hx).1.attrs n, (h x hx).2.1⟩

theorem holds_finishValue {k : Bool} {raw : V → List Byte} {a : FieldAttrs V} {env : Env V}
    (h : ∀ g, a.valueDecode = some g → ∀ env v, MadeOf k (raw (g env v)) (raw v)) (v : V) :
    Holds k (raw v) raw (finishValue a env v) := by
  have key : ∀ w, MadeOf k (raw w) (raw v) → Holds k (raw v) raw (match a.checkValue with
      | some c => if c env w then return w else fail .invalidValue
      | none => return w) := by
    intro w hw
    split
    · split
      · exact Holds.pure hw
      · exact Holds.fail _
    · exact Holds.pure hw
  unfold finishValue
  cases hv : a.valueDecode with
  | none => exact key v (MadeOf.refl _)
  | some g => exact key _ (h g hv env v)

theorem Spec.Held.decField {k : Bool} {raw : V → List Byte} {n : Nat} {x : Spec V} (h : x.Held k raw n) (env : Env V)
    (ca : Option CAttr) {fa : Option FAttr} (hfa : x.fits fa) : Holds k [] raw (decField (x.at n) env ca fa) := by
  obtain ⟨hc, hi, hd⟩ := h
  unfold JBytes.decField
  show Holds _ _ _ (do
    skipOffset x.field.attrs env
    match x.field.attrs.withDecode with
    | some g => g env ca fa
    | none =>
      if x.field.attrs.skip || x.field.attrs.skipDecode then return x.field.dflt
      else
        match x.field.attrs.fromStr with
        | some ps => do
          let s ← decStr ca fa
          match ps.1 s with
          | some v => return v
          | none => fail .fail
        | none => decPlain (x.at n) env ca fa)
  rw [skipOffset, hc.offset, hc.custom]
  show Holds _ _ _ (if x.field.attrs.skip || x.field.attrs.skipDecode then return x.field.dflt
      else
        match x.field.attrs.fromStr with
        | some ps => do
          let s ← decStr ca fa
          match ps.1 s with
          | some v => return v
          | none => fail .fail
        | none => decPlain (x.at n) env ca fa)
  split
  · rename_i hs
    exact Holds.pure (by rw [hc.dflt hs]; exact MadeOf.nil _)
  · split
    · rename_i ps hps
      refine Holds.bind (inside_decStr ca fa) (cut_decStr ca fa).holds (fun s => ?_) fun s => ?_
      · split
        · exact Inside.pure _
        · exact Inside.fail _
      · split
        · rename_i v hv
          exact Holds.pure (hc.text ps hps s v hv)
        · exact Holds.fail _
    · have hcond : Inside (decCond (x.at n) env ca fa) :=
        (Good.decCond (p := false) (t := false) (N := 0) (f := x.at n) (hi ca fa).toGood).1
      refine Holds.after (Good.getPos (p := false) (t := false) (N := 0)).1 (fun p => ?_) fun p => ?_
      · refine hcond.bind fun v => ?_
        show Inside (if x.field.attrs.untake = true then _ else _)
        rw [hc.untake]
        exact (Good.finishValue (p := false) (t := false) (N := 0) _ _ _).1
      · have hu : (x.at n).attrs.untake = false := hc.untake
        simp only [hu, Bool.false_eq_true, if_false]
        refine Holds.bind hcond (raw := raw) ?_
          (fun v => (Good.finishValue (p := false) (t := false) (N := 0) _ _ _).1)
          fun v => holds_finishValue hc.value v
        unfold decCond
        show Holds _ _ _ (match x.field.attrs.ifExpr with
          | some c => if c env then x.dec n ca fa else return x.field.noneV
          | none => x.dec n ca fa)
        cases hx : x.field.attrs.ifExpr with
        | none => exact hd ca fa hfa
        | some c =>
          dsimp only
          split
          · exact hd ca fa hfa
          · exact Holds.pure (by rw [hc.noneV (by rw [hx]; rfl)]; exact MadeOf.nil _)

theorem holds_toCode {k : Bool} {raw : α → List Byte} {a : FieldAttrs V} {env : Env V} {g : Option FAttr → M α}
    (h : ∀ fa, FaGiven a fa → Holds k [] raw (g fa)) : Holds k [] raw (a.toCode env >>= g) := by
  intro b hb v b' e
  obtain ⟨fa, b1, e1, e2⟩ := bind_ok e
  obtain ⟨rfl, hg⟩ := toCode_faGiven e1
  exact h fa hg b1 hb v b' e2

theorem Holds.decFields {k : Bool} {raw : V → List Byte} {n : Nat} {keep : Bool} : ∀ (xs : List (Spec V))
    (O : Option FAttr → Prop) (ca : Option CAttr) (old : Option FAttr) (env : Env V), O old → Chain keep O xs →
    (∀ x ∈ xs, x.Held k raw n) → Holds k [] (held raw) (decFields keep (xs.map (·.at n)) ca old env) := by
  intro xs
  induction xs with
  | nil => intro O ca old env _ _ _; exact Holds.pure (MadeOf.nil _)
  | cons x xs ih =>
    intro O ca old env hO hch h
    have hx := h x (by simp)
    have rest : ∀ fa, x.fits fa → Holds k [] (held raw) (do
        let v ← JBytes.decField (x.at n) env ca fa
        let vs ← JBytes.decFields keep (xs.map (·.at n)) (cacheVars (x.at n).attrs ca (env.push v)) fa (env.push v)
        return v :: vs) := by
      intro fa hfa
      exact Holds.cons (inside_decField (hx.1.attrs n) (hx.2.1 ca fa)) (hx.decField env ca hfa)
        (fun v => inside_helds (fun y hy => h y (List.mem_cons_of_mem _ hy)) _ _ _)
        (fun v => ih x.fits _ fa _ hfa hch.2 fun y hy => h y (List.mem_cons_of_mem _ hy))
    rw [List.map_cons]
    unfold JBytes.decFields
    split
    · rename_i hk
      rw [Bool.and_eq_true, Bool.not_eq_true'] at hk
      exact rest old (hch.1 hk.1 hk.2 old hO)
    · exact holds_toCode fun fa hg => rest fa (hx.1.given fa hg)

/-- The bytes of a variant are those of its fields. -/
def heldArm (raw : V → List Byte) (x : Nat × List V) : List Byte := held raw x.2

theorem inside_heldArm {k : Bool} {raw : V → List Byte} {n : Nat} {w : VSpec V} (hw : VCost w)
    (h : ∀ x ∈ w.specs, x.Held k raw n) (own : Option CAttr) (env : Env V) (i : Nat) :
    Inside (decVariant own env i (w.at n)) := by
  refine (JBytes.Good.decVariant (L := still) (t := false) (N := 0) rfl own env i (w.at n) ?_ fun f hf => ?_).1
  · exact ⟨hw.custom, fun _ => hw.offset, (fun h => nomatch h), (fun h => nomatch h), fun _ _ => still_ok (some _) _ rfl⟩
  · obtain ⟨x, hx, rfl⟩ := List.mem_map.mp hf
    exact ⟨(h x hx).1.attrs n, fun ca fa _ => ((h x hx).2.1 ca fa).toGood⟩

theorem holds_arm {k : Bool} {raw : V → List Byte} {n : Nat} {w : VSpec V} (hw : VCost w)
    (h : ∀ x ∈ w.specs, x.Held k raw n) (own : Option CAttr) (env : Env V) (i : Nat) :
    Holds k [] (heldArm raw) (decVariant own env i (w.at n)) := by
  unfold decVariant
  refine holds_toCode fun fa hg => ?_
  show Holds _ _ _ (skipOffset w.variant.attrs env >>= fun _ => _)
  rw [skipOffset, hw.offset]
  exact Holds.map (raw := held raw) (inside_helds h own fa env)
    (Holds.decFields w.specs w.fits own fa env (hw.given fa hg) hw.chain h) (fun vs => (i, vs)) fun _ => MadeOf.refl _

theorem holds_decArm {k : Bool} {raw : Nat × List V → List Byte} {E : EnumDef V} (h : ∀ v ∈ E.variants, ∀ own env i,
    Inside (decVariant own env i v) ∧ Holds k [] raw (decVariant own env i v)) (env : Env V) (t : Tag) :
    Inside (decArm E env t) ∧ Holds k [] raw (decArm E env t) := by
  unfold decArm
  split
  · rename_i i v hf
    obtain ⟨n, hn⟩ := findArm_mem _ _ _ _ _ hf
    exact h v (List.of_mem_zip hn).1 _ _ _
  · exact ⟨Inside.fail _, Holds.fail _⟩

theorem holds_enum {k : Bool} {raw : Nat × List V → List Byte} {E : EnumDef V} (hw : E.withDecode = none)
    (h : ∀ v ∈ E.variants, ∀ own env i, Inside (decVariant own env i v) ∧ Holds k [] raw (decVariant own env i v))
    (ca : Option CAttr) (fa : Option FAttr) : Holds k [] raw (decEnum E ca fa) := by
  unfold decEnum
  rw [hw]
  dsimp only
  split
  · rename_i u hu
    intro b hb x b' e
    rw [bind_apply, remaining_apply'] at e
    dsimp only at e
    rcases hf : findWord (b.data.drop b.pos) 0 E.variants with _ | ⟨i, v⟩
    · rw [hf] at e
      cases e
    · rw [hf] at e
      obtain ⟨hmem, hlen⟩ := findWord_mem _ _ _ _ _ hf
      obtain ⟨hi, hc⟩ := h v hmem E.container { vars := localVars E.getVars ca } i
      dsimp only at e
      split at e
      · exact hc b hb x b' e
      · rename_i hc'
        simp only [Bool.or_eq_true, not_or, Bool.not_eq_true] at hc'
        rw [hc'.2] at hlen
        simp only [Bool.false_eq_true, false_or] at hlen
        have hlen := (List.isPrefixOf_iff_prefix.mp hlen).length_le
        rw [List.length_drop] at hlen
        have h1 := hb.1
        have h2 := hb.2
        have h3 := isizeMax_lt
        rw [bind_apply, advance_apply, wadd_eq (by omega)] at e
        have hb1 : Buf.Ok ⟨b.data, b.pos + v.word.length⟩ := ⟨by show b.pos + _ ≤ b.data.length; omega, hb.2⟩
        have h4 := hc _ hb1 x b' e
        have h5 := (hi.step hb1 e).2.1
        rw [consumed_append (b := b) (b1 := ⟨b.data, b.pos + v.word.length⟩) rfl (Nat.le_add_right _ _) h5]
        exact h4.trans (MadeOf.of_sublist (List.sublist_append_right _ _))
  · exact Holds.after (tame_takeBytes _).inside (fun _ => (holds_decArm h _ _).1) fun _ => (holds_decArm h _ _).2
  · exact Holds.after (inside_decTag _ _ _) (fun _ => (holds_decArm h _ _).1) fun _ => (holds_decArm h _ _).2

end JBytes
