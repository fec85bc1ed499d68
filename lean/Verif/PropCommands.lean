import Verif.Commands
import Verif.PropSocket
import Verif.PropSeq
/-!
# C107: the messages of the introductory examples
-/

namespace JBytes
open M

/-! ## Specification -/

/-- The commands of examples/enum_example.rs. -/
inductive CommandBody where
  | stop
  | start
  | read (address length : UInt16)
  | write (address length : UInt16) (data : List Byte)
  | unknown (address : UInt16)

structure Command where
  version : Byte
  cmd : Byte
  body : CommandBody

/-- The two bytes of a number, the higher one first. -/
def wire16 (x : UInt16) : List Byte := [UInt8.ofNat (x.toNat / 256), UInt8.ofNat (x.toNat % 256)]

def CommandBody.wire : CommandBody → List Byte
  | .stop => []
  | .start => []
  | .read a l => wire16 a ++ wire16 l
  | .write a l d => wire16 a ++ (wire16 l ++ d)
  | .unknown a => wire16 a

def Command.wire (m : Command) : List Byte := m.version :: m.cmd :: m.body.wire

/-- The number in `cmd` is one of those which the comments in the example give the command, and the stated number of bytes is
the number of bytes. -/
def CommandBody.Fits (n : Nat) : CommandBody → Prop
  | .stop => n = 1
  | .start => n = 2
  | .read _ _ => n = 4 ∨ n = 5 ∨ n = 6 ∨ n = 7
  | .write _ l d => n = 8 ∧ d.length = l.toNat
  | .unknown _ => n = 0 ∨ n = 3 ∨ 9 ≤ n

def Command.Fits (m : Command) : Prop := m.body.Fits m.cmd.toNat

/-- The value of the Rust type. -/
def CommandBody.value : CommandBody → Pkt
  | .stop => .variant 0 []
  | .start => .variant 1 []
  | .read a l => .variant 2 [.num a.toNat, .num l.toNat]
  | .write a l d => .variant 3 [.num a.toNat, .num l.toNat, .bytes d]
  | .unknown a => .variant 4 [.num a.toNat]

def Command.value (m : Command) : List Pkt := [.num m.version.toNat, .num m.cmd.toNat, m.body.value]

/-! ## Fields -/

theorem u16_seg (ee ed : Env Pkt) (x : UInt16) (suf : List Byte) :
    SegRT [Pkt.u16] none none ee ed [.num x.toNat] (wire16 x) suf := seg_u16 ee ed x.toNat x.toNat_lt suf

theorem wire16_any (x : List Byte) (h : x.length = 2) : ∃ y : UInt16, x = wire16 y := by
  obtain ⟨a, z, rfl, hz⟩ := list_succ h
  obtain ⟨b, t, rfl, ht⟩ := list_succ hz
  obtain rfl := List.length_eq_zero_iff.mp ht
  have ha := a.toNat_lt
  have hb := b.toNat_lt
  refine ⟨UInt16.ofNat (256 * a.toNat + b.toNat), ?_⟩
  have e : (UInt16.ofNat (256 * a.toNat + b.toNat)).toNat = 256 * a.toNat + b.toNat := by
    rw [UInt16.toNat_ofNat']
    exact Nat.mod_eq_of_lt (by omega)
  show _ = oct2 _
  rw [e, oct2_of]

theorem u16_covers (env : Env Pkt) : Covers (decFields false [Pkt.u16] none none env) fun vs w =>
    ∃ x : UInt16, vs = [.num x.toNat] ∧ w = wire16 x := by
  have h : FieldsNeed [Pkt.u16] 2 2 := FieldsNeed.cons (int_needs ⟨2, false⟩ valid2) (by decide) .nil (by decide)
  refine Covers.fixed (h none env) fun x hx => ?_
  obtain ⟨y, rfl⟩ := wire16_any x hx
  exact ⟨_, ⟨y, rfl, rfl⟩, fun suf => (u16_seg env env y suf).reads⟩

/-- A field of type `u8`. -/
theorem u8_covers (env : Env Pkt) : Covers (decFields false [Pkt.u8] none none env) fun vs w =>
    ∃ x : Byte, vs = [.num x.toNat] ∧ w = [x] := by
  have h : FieldsNeed [Pkt.u8] 1 1 := FieldsNeed.cons (int_needs ⟨1, false⟩ valid1) (by decide) .nil (by decide)
  refine Covers.fixed (h none env) fun x hx => ?_
  obtain ⟨a, y, rfl, hy⟩ := list_succ hx
  obtain rfl := List.length_eq_zero_iff.mp hy
  exact ⟨_, ⟨a, rfl, rfl⟩, fun suf => (u8_seg env env a suf).reads⟩

/-- Fields one after the other, those behind in the scope of those in front. -/
theorem Covers.fields {fs gs : List (Field Pkt)} {env : Env Pkt} {W : List Pkt → List Byte → Prop} {W' : List Pkt → List Pkt → List Byte → Prop}
    (h : Covers (decFields false fs none none env) W)
    (hc : ∀ v w, W v w → cachedAfter fs none env v = none)
    (h' : ∀ v w, W v w → Covers (decFields false gs none none (env.extend v)) (W' v)) :
    Covers (decFields false (fs ++ gs) none none env) fun vs w => ∃ v u w1 w2, vs = v ++ u ∧ w = w1 ++ w2 ∧ W v w1 ∧ W' v u w2 := by
  refine Covers.mono (Covers.congr (h.bind fun v w hv => (?_ : Covers (decFields false gs (cachedAfter fs none env v) none (env.extend v) >>=
    fun ws => (Pure.pure (v ++ ws) : M (List Pkt))) fun x w => ∃ ws w1 w2, w = w1 ++ w2 ∧ W' v ws w1 ∧ x = v ++ ws ∧ w2 = []))
    (decFields_append fs gs none env)) ?_
  · rw [hc v w hv]
    exact (h' v w hv).bind fun ws _ _ => Covers.pure (v ++ ws)
  · rintro vs w ⟨v, w1, w2, rfl, hv, ws, w3, w4, rfl, hu, rfl, rfl⟩
    exact ⟨v, ws, w1, w3, rfl, by simp, hv, hu⟩

theorem word_pair_seg (ee ed : Env Pkt) (a l : UInt16) (suf : List Byte) :
    Segments none [Pkt.u16, Pkt.u16] none ee ed [.num a.toNat, .num l.toNat] (wire16 a ++ wire16 l) suf := by
  have := Segments.one (w1 := wire16 a) (u16_seg ee ed a) rfl
    (Segments.one (w1 := wire16 l) (w2 := []) (u16_seg _ _ l) rfl (.nil _ _ _ suf))
  rw [List.append_nil] at this
  exact this

theorem word_pair_covers (env : Env Pkt) : Covers (decFields false [Pkt.u16, Pkt.u16] none none env) fun vs w =>
    ∃ a l : UInt16, vs = [.num a.toNat, .num l.toNat] ∧ w = wire16 a ++ wire16 l := by
  refine (Covers.fields (fs := [Pkt.u16]) (gs := [Pkt.u16]) (u16_covers env) (by rintro _ _ ⟨_, rfl, _⟩; rfl) fun v _ _ => u16_covers (env.extend v)).mono ?_
  rintro vs w ⟨v, u, w1, w2, rfl, rfl, ⟨a, rfl, rfl⟩, l, rfl, rfl⟩
  exact ⟨a, l, rfl, rfl⟩

/-! ## Bytes as a list -/

theorem byte_wire (o : ByteOrder) (x : Byte) : toBytes o (⟨1, false⟩ : IntKind).size x.toNat = [x] := by
  cases o
  · exact (oct1_eq _).trans (oct1_of x)
  · simp [toBytes, toLE, toBE]

theorem byte_reads (fa : Option FAttr) (hb : fa.bind (·.bits) = none) (hl : fa.bind (·.length) = none) (x : Byte) (suf : List Byte) :
    Reads (decInt ⟨1, false⟩ none fa) x.toNat [x] suf := by
  have := int_reads ⟨1, false⟩ valid1 x.toNat none fa suf hb hl x.toNat_lt
  rw [byte_wire] at this
  exact this

theorem byte_covers (fa : Option FAttr) (hb : fa.bind (·.bits) = none) (hl : fa.bind (·.length) = none) :
    Covers (decInt ⟨1, false⟩ none fa) fun v w => ∃ x : Byte, v = x.toNat ∧ w = [x] := by
  refine Covers.fixed (decInt_needs ⟨1, false⟩ valid1 none fa hl) fun x hx => ?_
  obtain ⟨a, y, rfl, hy⟩ := list_succ hx
  obtain rfl := List.length_eq_zero_iff.mp hy
  exact ⟨_, ⟨a, rfl, rfl⟩, byte_reads fa hb hl a⟩

theorem bytes_covers (fa : Option FAttr) (hb : fa.bind (·.bits) = none) (hl : fa.bind (·.length) = none) (n : Nat) :
    Covers (repeatM (decInt ⟨1, false⟩ none fa) n) fun v w => w.length = n ∧ v = w.map UInt8.toNat := by
  induction n with
  | zero =>
    refine (Covers.pure []).mono ?_
    rintro v w ⟨rfl, rfl⟩
    exact ⟨rfl, rfl⟩
  | succ n ih =>
    refine ((byte_covers fa hb hl).bind fun v _ _ => ih.bind fun vs _ _ => Covers.pure (v :: vs)).mono ?_
    rintro v w ⟨x, w1, w2, rfl, ⟨x, rfl, rfl⟩, vs, w3, w4, rfl, ⟨rfl, rfl⟩, rfl, rfl⟩
    exact ⟨by simp, by simp⟩

theorem ofNat_map (l : List Byte) : (l.map UInt8.toNat).map UInt8.ofNat = l := by
  induction l with
  | nil => rfl
  | cons a l ih => simp [ih]

theorem flat_bytes (l : List Byte) : (l.map UInt8.toNat).flatMap (fun n => [UInt8.ofNat n]) = l := by
  induction l with
  | nil => rfl
  | cons a l ih => simp [ih]

theorem bytes_reads (fa : Option FAttr) (hb : fa.bind (·.bits) = none) (hl : fa.bind (·.length) = none) (l suf : List Byte) :
    Reads (repeatM (decInt ⟨1, false⟩ none fa) l.length) (l.map UInt8.toNat) l suf := by
  have := Reads.repeatM (m := decInt ⟨1, false⟩ none fa) (img := fun n => [UInt8.ofNat n]) (l := l.map UInt8.toNat) (fun a ha suf => by
    obtain ⟨x, _, rfl⟩ := List.mem_map.mp ha
    rw [UInt8.ofNat_toNat]
    exact byte_reads fa hb hl x suf) suf
  rw [flat_bytes, List.length_map] at this
  exact this

theorem bytes_writes (fa : Option FAttr) (hb : fa.bind (·.bits) = none) (hl : fa.bind (·.length) = none) (l : List Byte) :
    Writes (encAll (fun n => encInt ⟨1, false⟩ n none fa) (l.map UInt8.toNat)) l := by
  have := Appends.encAll (e := fun n => encInt ⟨1, false⟩ n none fa) (img := fun n => [UInt8.ofNat n]) (l := l.map UInt8.toNat)
    (fun a ha => by
      obtain ⟨x, _, rfl⟩ := List.mem_map.mp ha
      have e := ((C19_byteorder none fa _ rfl).1 ⟨1, false⟩ x.toNat hb hl).2
      rw [UInt8.ofNat_toNat, e]
      have := Appends.scalar (⟨1, false⟩ : IntKind).scalar x.toNat (effectiveOrder none fa)
      rw [scalar_size valid1, byte_wire] at this
      exact this)
  rw [flat_bytes] at this
  exact this.writes

/-- `data`. -/
theorem count_reads (n : Nat) (d suf : List Byte) (h : d.length = n) :
    Reads (commandData.dec none (some { count := some n })) (.bytes d) d suf := by
  subst h
  have := (bytes_reads (some { count := some d.length }) rfl rfl d suf).mapped fun l => Pkt.bytes (l.map UInt8.ofNat)
  rw [ofNat_map] at this
  exact this

theorem count_writes (n : Nat) (d : List Byte) : Writes (commandData.enc (.bytes d) none (some { count := some n })) d :=
  (Appends.pure0.writes.seq (bytes_writes (some { count := some n }) rfl rfl d)).congr fun _ => rfl

theorem count_covers (n : Nat) : Covers (commandData.dec none (some { count := some n })) fun v w => w.length = n ∧ v = .bytes w := by
  refine ((bytes_covers (some { count := some n }) rfl rfl n).map fun l => Pkt.bytes (l.map UInt8.ofNat)).mono ?_
  rintro v w ⟨l, rfl, h, rfl⟩
  exact ⟨h, by rw [ofNat_map]⟩

theorem write_seg (ee ed : Env Pkt) (he : ee.fields = []) (hd : ed.fields = []) (a l : UInt16) (d suf : List Byte) (h : d.length = l.toNat) :
    Segments none [Pkt.u16, Pkt.u16, commandData] none ee ed [.num a.toNat, .num l.toNat, .bytes d] (wire16 a ++ (wire16 l ++ d)) suf := by
  have := Segments.one (w1 := d) (w2 := []) (f := commandData) (fun suf => seg_own commandData ⟨rfl, rfl, rfl, rfl, rfl, rfl⟩ rfl rfl rfl rfl rfl rfl rfl
    ((ee.extend [Pkt.num a.toNat]).extend [Pkt.num l.toNat]) ((ed.extend [Pkt.num a.toNat]).extend [Pkt.num l.toNat]) (.bytes d) d suf
    (count_writes _ d) (count_reads _ d suf (by simp [Env.extend, Env.push, Env.pktNum, hd, h]))) rfl (.nil none _ _ suf)
  rw [List.append_nil] at this
  exact Segments.one (w1 := wire16 a) (u16_seg ee ed a) rfl (Segments.one (w1 := wire16 l) (w2 := d) (u16_seg _ _ l) rfl this)

/-- A last field. -/
theorem Covers.last {f : Field Pkt} {env : Env Pkt} {W : Pkt → List Byte → Prop} (hord : Ordinary f.attrs) (ho : f.attrs.byteorder = none)
    (hoff : f.attrs.offset = none) (hi : f.attrs.ifExpr = none) (hc : f.attrs.checkValue = none) (hu : f.attrs.untake = false)
    (hv : f.attrs.valueDecode = none) (h : Covers (f.dec none (ownModifiers f.attrs env)) W) :
    Covers (decFields false [f] none none env) fun vs w => ∃ v, vs = [v] ∧ W v w := by
  refine Covers.mono (Covers.congr ((h.congr (fieldStep_plain f hord ho hoff hi hc hu hv none env)).bind fun u _ _ => Covers.pure [u])
    (decFields_one _ none env)) ?_
  rintro vs w ⟨v, w1, w2, rfl, h, rfl, rfl⟩
  exact ⟨v, rfl, by rw [List.append_nil]; exact h⟩

theorem write_covers (env : Env Pkt) (he : env.fields = []) :
    Covers (decFields false [Pkt.u16, Pkt.u16, commandData] none none env) fun vs w =>
      ∃ (a l : UInt16) (d : List Byte), d.length = l.toNat ∧ vs = [.num a.toNat, .num l.toNat, .bytes d] ∧ w = wire16 a ++ (wire16 l ++ d) := by
  refine (Covers.fields (fs := [Pkt.u16, Pkt.u16]) (gs := [commandData]) (word_pair_covers env) (by rintro _ _ ⟨_, _, rfl, _⟩; rfl) fun v _ _ =>
    Covers.last ⟨rfl, rfl, rfl, rfl, rfl, rfl⟩ rfl rfl rfl rfl rfl rfl (count_covers ((env.extend v).pktNum 1))).mono ?_
  rintro vs w ⟨v, u, w1, w2, rfl, rfl, ⟨a, l, rfl, rfl⟩, x, rfl, h, rfl⟩
  refine ⟨a, l, w2, ?_, rfl, by simp⟩
  rw [h]
  simp [Env.extend, Env.pktNum, he]

/-! ## Variants -/

theorem used_arm (env : Env Pkt) (i : Nat) (v : Variant Pkt) (hv : v.attrs = {} ∨ v.attrs = { isUse := true }) (ht : v.tuple = false) (b : Buf) :
    decVariant none env i v b = mapM' (fun vs => (i, vs)) (decFields false v.fields none none env) b := by
  obtain ⟨a, n, d, bd, bb, bv, br, t, fs⟩ := v
  simp only at hv ht
  subst ht
  rcases hv with rfl | rfl <;> rfl

/-- `match value`. -/
theorem command_match (env : Env Pkt) (n : Nat) (b : Buf) : decArm commandBody env (.num n) b =
    if n = 1 then (.ok (0, []), b)
    else if n = 2 then (.ok (1, []), b)
    else if 4 ≤ n ∧ n ≤ 7 then mapM' (fun vs => (2, vs)) (decFields false [Pkt.u16, Pkt.u16] none none env) b
    else if n = 8 then mapM' (fun vs => (3, vs)) (decFields false [Pkt.u16, Pkt.u16, commandData] none none env) b
    else mapM' (fun vs => (4, vs)) (decFields false [Pkt.u16] none none env) b := by
  have e : ∀ x : Nat, (Tag.num x == Tag.num n) = decide (n = x) := fun x => by
    by_cases h : n = x
    · subst h; simp
    · simp [h, show ¬ x = n from fun k => h k.symm]
  have h : findArm (.num n) 0 (commandBody.variants.zip commandBody.numbers) =
      if n = 1 then some (0, commandBody.variants[0]) else if n = 2 then some (1, commandBody.variants[1])
      else if 4 ≤ n ∧ n ≤ 7 then some (2, commandBody.variants[2]) else if n = 8 then some (3, commandBody.variants[3])
      else some (4, commandBody.variants[4]) := by
    show (if (Tag.num 1 == Tag.num n) then some (0, commandBody.variants[0])
      else if (Tag.num 2 == Tag.num n) then some (1, commandBody.variants[1])
      else if (decide (4 ≤ n) && decide (n ≤ 7)) then some (2, commandBody.variants[2])
      else if (Tag.num 8 == Tag.num n) then some (3, commandBody.variants[3])
      else some (4, commandBody.variants[4])) = _
    simp only [e, decide_eq_true_eq, Bool.and_eq_true]
  unfold decArm
  rw [h]
  by_cases h1 : n = 1
  · simp only [if_pos h1]; rfl
  by_cases h2 : n = 2
  · simp only [if_neg h1, if_pos h2]; rfl
  by_cases h3 : 4 ≤ n ∧ n ≤ 7
  · simp only [if_neg h1, if_neg h2, if_pos h3]; exact used_arm env 2 _ (.inr rfl) rfl b
  by_cases h4 : n = 8
  · simp only [if_neg h1, if_neg h2, if_neg h3, if_pos h4]; exact used_arm env 3 _ (.inl rfl) rfl b
  · simp only [if_neg h1, if_neg h2, if_neg h3, if_neg h4]; exact used_arm env 4 _ (.inr rfl) rfl b

/-- The decoder of the body. -/
def commandDec (n : Nat) : M Pkt := mapM' (fun x => Pkt.variant x.1 x.2) (decEnum commandBody none (branchOf n))

theorem command_dec (n : Nat) (b : Buf) : decEnum commandBody none (branchOf n) b = decArm commandBody { vars := [] } (.num n) b := rfl

theorem command_reads (n : Nat) (x : CommandBody) (hx : x.Fits n) (suf : List Byte) : Reads (commandDec n) x.value x.wire suf := by
  have key : ∀ (i : Nat) (vs : List Pkt) (w : List Byte), Reads (decArm commandBody { vars := [] } (.num n)) (i, vs) w suf →
      Reads (commandDec n) (.variant i vs) w suf := fun i vs w h => (h.congr fun b _ => command_dec n b).mapped fun x => Pkt.variant x.1 x.2
  cases x with
  | stop =>
    exact key 0 [] [] ((Reads.pure (0, []) suf).congr fun b _ => by
      rw [command_match, if_pos (show n = 1 from hx)]; rfl)
  | start =>
    refine key 1 [] [] ((Reads.pure (1, []) suf).congr fun b _ => ?_)
    have hx : n = 2 := hx
    rw [command_match, if_neg (by omega), if_pos hx]
    rfl
  | read a l =>
    refine key 2 _ _ (((word_pair_seg { vars := [] } { vars := [] } a l suf).roundtrip.reads.mapped fun vs => (2, vs)).congr fun b _ => ?_)
    have hx : n = 4 ∨ n = 5 ∨ n = 6 ∨ n = 7 := hx
    rw [command_match, if_neg (by omega), if_neg (by omega), if_pos (by omega)]
  | write a l d =>
    refine key 3 _ _ (((write_seg { vars := [] } { vars := [] } rfl rfl a l d suf hx.2).roundtrip.reads.mapped fun vs => (3, vs)).congr
      fun b _ => ?_)
    have hx : n = 8 := hx.1
    rw [command_match, if_neg (by omega), if_neg (by omega), if_neg (by omega), if_pos hx]
  | unknown a =>
    refine key 4 _ _ (((u16_seg { vars := [] } { vars := [] } a suf).reads.mapped fun vs => (4, vs)).congr fun b _ => ?_)
    have hx : n = 0 ∨ n = 3 ∨ 9 ≤ n := hx
    rw [command_match, if_neg (by omega), if_neg (by omega), if_neg (by omega), if_neg (by omega)]

theorem command_covers (n : Nat) : Covers (commandDec n) fun v w => ∃ x : CommandBody, x.Fits n ∧ v = x.value ∧ w = x.wire := by
  refine Covers.mono (Covers.map (W := fun v w => ∃ x : CommandBody, x.Fits n ∧ .variant v.1 v.2 = x.value ∧ w = x.wire)
    (Covers.congr ?_ (command_dec n)) fun x => Pkt.variant x.1 x.2) ?_
  · by_cases h1 : n = 1
    · refine (covers_empty (v := (0, [])) fun b => by rw [command_match, if_pos h1]).mono ?_
      rintro v w ⟨rfl, rfl⟩
      exact ⟨.stop, h1, rfl, rfl⟩
    by_cases h2 : n = 2
    · refine (covers_empty (v := (1, [])) fun b => by rw [command_match, if_neg h1, if_pos h2]).mono ?_
      rintro v w ⟨rfl, rfl⟩
      exact ⟨.start, h2, rfl, rfl⟩
    by_cases h3 : 4 ≤ n ∧ n ≤ 7
    · refine Covers.mono (((word_pair_covers { vars := [] }).map fun vs => (2, vs)).congr fun b => by
        rw [command_match, if_neg h1, if_neg h2, if_pos h3]) ?_
      rintro v w ⟨vs, rfl, a, l, rfl, rfl⟩
      exact ⟨.read a l, (by show n = 4 ∨ n = 5 ∨ n = 6 ∨ n = 7; omega), rfl, rfl⟩
    by_cases h4 : n = 8
    · refine Covers.mono (((write_covers { vars := [] } rfl).map fun vs => (3, vs)).congr fun b => by
        rw [command_match, if_neg h1, if_neg h2, if_neg h3, if_pos h4]) ?_
      rintro v w ⟨vs, rfl, a, l, d, h, rfl, rfl⟩
      exact ⟨.write a l d, ⟨h4, h⟩, rfl, rfl⟩
    · refine Covers.mono (((u16_covers { vars := [] }).map fun vs => (4, vs)).congr fun b => by
        rw [command_match, if_neg h1, if_neg h2, if_neg h3, if_neg h4]) ?_
      rintro v w ⟨vs, rfl, a, rfl, rfl⟩
      exact ⟨.unknown a, (by show n = 0 ∨ n = 3 ∨ 9 ≤ n; omega), rfl, rfl⟩
  · rintro v w ⟨x, rfl, y, hy, h1, h2⟩
    exact ⟨y, hy, h1, h2⟩

/-! ## Writing -/

theorem u16_writes (env : Env Pkt) (x : UInt16) : Writes (fieldEnc Pkt.u16 none env (.num x.toNat)) (wire16 x) := by
  refine fieldEnc_plain Pkt.u16 ⟨rfl, rfl, rfl, rfl, rfl, rfl⟩ rfl rfl rfl rfl none env _ _ ?_
  have := int_writes ⟨2, false⟩ valid2 x.toNat none none rfl rfl
  rw [show toBytes (effectiveOrder none none) (⟨2, false⟩ : IntKind).size x.toNat = wire16 x from oct2_eq _] at this
  exact this

/-- A variant without a tag. -/
theorem used_variant_writes (E : EnumDef Pkt) (hc : E.container = none) (hm : E.mode = .uint) (hg : E.getVars = []) (num n : Nat) (v : Variant Pkt)
    (hv : v.attrs = {} ∨ v.attrs = { isUse := true }) (hn : NoLeak none v.fields) (vs : List Pkt) (w : List Byte)
    (h : Writes (encFields false v.fields none none { vars := [] } vs) w) :
    Writes (encVariant E v num vs none (branchOf n)) w := by
  refine (Appends.pure0.writes.seq h).congr fun b => ?_
  have e : encVariant E v num vs none (branchOf n) b = (encFields true v.fields none none { vars := [] } vs
      >>= fun m => (Pure.pure (0 + m) : M Nat)) b := by
    obtain ⟨a, nm, d, bd, bb, bv, br, tt, fs⟩ := v
    simp only at hv
    rcases hv with rfl | rfl <;> simp only [encVariant, encTagMode, hm, hc, hg] <;> rfl
  rw [e, bind_apply, encFields_noLeak _ _ _ _ _ _ hn, bind_apply, pure_apply]
  rfl

theorem command_writes (n : Nat) (a : FieldAttrs Pkt) (x : CommandBody) : Writes ((Pkt.enum commandBody a).enc x.value none (branchOf n)) x.wire := by
  have two : ∀ a l : UInt16, Writes (encFields false [Pkt.u16, Pkt.u16] none none { vars := [] } [.num a.toNat, .num l.toNat]) (wire16 a ++ wire16 l) := by
    intro a l
    have := encFields_cons_writes (w := wire16 a) (u16_writes { vars := [] } a) (encFields_cons_writes (w := wire16 l) (u16_writes _ l)
      (encFields_nil_writes none _))
    rw [List.append_nil] at this
    exact this
  cases x with
  | stop => exact used_variant_writes commandBody rfl rfl rfl 1 n commandBody.variants[0] (.inr rfl) ⟨.nil, .inl rfl⟩ _ _ (encFields_nil_writes none _)
  | start => exact used_variant_writes commandBody rfl rfl rfl 2 n commandBody.variants[1] (.inl rfl) ⟨.nil, .inl rfl⟩ _ _ (encFields_nil_writes none _)
  | read a l => exact used_variant_writes commandBody rfl rfl rfl 7 n commandBody.variants[2] (.inr rfl) ⟨by simp [commandBody, Pkt.u16, Pkt.int], .inl rfl⟩ _ _ (two a l)
  | write a l d =>
    refine used_variant_writes commandBody rfl rfl rfl 8 n commandBody.variants[3] (.inl rfl)
      ⟨by simp [commandBody, Pkt.u16, Pkt.int, commandData, Pkt.vec], .inl rfl⟩ _ _ ?_
    have := encFields_cons_writes (w := wire16 a) (u16_writes { vars := [] } a) (encFields_cons_writes (w := wire16 l) (u16_writes _ l)
      (encFields_cons_writes (w := d) (fieldEnc_plain commandData ⟨rfl, rfl, rfl, rfl, rfl, rfl⟩ rfl rfl rfl rfl none _ _ _ (count_writes _ d))
        (encFields_nil_writes none _)))
    rw [List.append_nil] at this
    exact this
  | unknown a =>
    refine used_variant_writes commandBody rfl rfl rfl 9 n commandBody.variants[4] (.inr rfl) ⟨by simp [commandBody, Pkt.u16, Pkt.int], .inl rfl⟩ _ _ ?_
    have := encFields_cons_writes (w := wire16 a) (u16_writes { vars := [] } a) (encFields_nil_writes none _)
    rw [List.append_nil] at this
    exact this

/-! ## Messages -/

theorem message_writes (m : Command) (ca : Option CAttr) (fa : Option FAttr) : Writes (encStruct command m.value ca fa) m.wire := by
  have := encFields_cons_writes (w := [m.version]) (u8_writes { vars := localVars [] ca } m.version)
    (encFields_cons_writes (w := [m.cmd]) (u8_writes _ m.cmd) (encFields_cons_writes (fs := []) (vs := [])
      (f := Pkt.enum commandBody { isUse := true, branch := some fun env => env.pktNum 1 })
      (fieldEnc_plain _ ⟨rfl, rfl, rfl, rfl, rfl, rfl⟩ rfl rfl rfl rfl none _ _ _ (command_writes _ _ m.body)) (encFields_nil_writes none _)))
  rw [List.append_nil] at this
  exact this

theorem command_struct_reads (m : Command) (hm : m.Fits) (ca : Option CAttr) (fa : Option FAttr) (suf : List Byte) :
    Reads (decStruct command ca fa) m.value m.wire suf := by
  refine (C43_struct_roundtrip command rfl rfl (by intro h; cases h) ca ca fa fa _ _ suf ?_).2
  have := Segments.one (w1 := [m.version]) (u8_seg { vars := localVars [] ca } { vars := localVars [] ca } m.version) rfl
    (Segments.one (w1 := [m.cmd]) (u8_seg _ _ m.cmd) rfl
    (Segments.one (f := Pkt.enum commandBody { isUse := true, branch := some fun env => env.pktNum 1 }) (fs := []) (vs := [])
      (fun suf => seg_own _ ⟨rfl, rfl, rfl, rfl, rfl, rfl⟩ rfl rfl rfl rfl rfl rfl rfl _ _ _ _ suf (command_writes _ _ m.body)
        (command_reads m.cmd.toNat m.body hm suf)) rfl (.nil none _ _ suf)))
  rw [List.append_nil] at this
  exact this

theorem command_struct_covers (ca : Option CAttr) (fa : Option FAttr) : Covers (decStruct command ca fa) fun v w =>
    ∃ m : Command, m.Fits ∧ v = m.value ∧ w = m.wire := by
  have c := (Covers.fields (fs := [Pkt.u8]) (gs := [Pkt.u8, Pkt.enum commandBody { isUse := true, branch := some fun env => env.pktNum 1 }])
    (u8_covers { vars := localVars [] ca }) (by rintro _ _ ⟨_, rfl, _⟩; rfl) fun v _ _ =>
    Covers.fields (fs := [Pkt.u8]) (gs := [Pkt.enum commandBody { isUse := true, branch := some fun env => env.pktNum 1 }])
      (u8_covers (({ vars := localVars [] ca } : Env Pkt).extend v)) (by rintro _ _ ⟨_, rfl, _⟩; rfl) fun u _ _ =>
    Covers.last ⟨rfl, rfl, rfl, rfl, rfl, rfl⟩ rfl rfl rfl rfl rfl rfl
      (command_covers (((({ vars := localVars [] ca } : Env Pkt).extend v).extend u).pktNum 1)))
  refine Covers.mono c ?_
  rintro vs w ⟨v, u, w1, w2, rfl, rfl, ⟨x, rfl, rfl⟩, v', u', w3, w4, rfl, rfl, ⟨y, rfl, rfl⟩, z, rfl, t, ht, rfl, rfl⟩
  exact ⟨⟨x, y, t⟩, ht, rfl, rfl⟩

/-- C107: the struct of examples/enum_example.rs implements the commands which its comments describe: a message whose number
is one of those of its command is written as its layout; an input that begins with one is read as it; any other is refused. -/
theorem C107_commands : Implements command Command.Fits Command.value Command.wire :=
  implements_of (fun m hm ca ca' fa fa' suf => ⟨message_writes m ca fa, command_struct_reads m hm ca' fa' suf⟩) command_struct_covers


theorem fits_unique {n : Nat} {x : CommandBody} {m : CommandBody} (h : x.value = m.value) (hx : x.Fits n) : m.Fits n := by
  have key : ∀ a b : UInt16, a.toNat = b.toNat → a = b := fun a b h => UInt16.toNat_inj.mp h
  cases x <;> cases m <;> simp only [CommandBody.value, Pkt.variant.injEq, List.cons.injEq, Pkt.num.injEq, Pkt.bytes.injEq] at h
  all_goals first | exact hx | (exfalso; omega) | skip
  obtain ⟨-, -, h2, rfl, -⟩ := h
  rw [key _ _ h2] at hx
  exact hx

/-- C107: every value is written without an error, also one whose `cmd` is not a number of its body or whose `length` is not the
number of bytes. -/
theorem C107_written (m : Command) (h : m.wire.length ≤ isizeMax) : encodeTop (encStruct command) m.value = .ok ⟨m.wire, m.wire.length⟩ := by
  obtain ⟨n, e⟩ := message_writes m none none [] (by simpa using h)
  simp only [List.nil_append, List.length_nil, Nat.zero_add] at e
  simp only [encodeTop, Buf.new]
  rw [e]

/-- C107: exactly the consistent values are read back from what was written for them. -/
theorem C107_consistent (m : Command) (h : m.wire.length ≤ isizeMax) :
    decodeTop (decStruct command) m.wire = .ok m.value ↔ m.Fits := by
  rcases (C107_commands none none).2 [] m.wire (by simpa using h) with ⟨m', suf, hm, e, k⟩ | ⟨hn, p, b', k⟩
  · simp only [List.nil_append, List.length_nil] at k
    have k' : decodeTop (decStruct command) m.wire = .ok m'.value := by simp only [decodeTop, Buf.ofBytes, k]
    rw [k']
    constructor
    · intro h
      simp only [Out.ok.injEq, Command.value, List.cons.injEq, Pkt.num.injEq] at h
      have := fits_unique h.2.2.1 hm
      rw [h.2.1] at this
      exact this
    · intro hm
      have := command_struct_reads m hm none none [] [] (by simpa using h)
      simp only [List.nil_append, List.append_nil, List.length_nil] at this
      rw [← k']
      simp only [decodeTop, Buf.ofBytes, this]
  · simp only [List.nil_append, List.length_nil] at k
    have k' : decodeTop (decStruct command) m.wire = .err ⟨p, .invalidByteLength⟩ := by simp only [decodeTop, Buf.ofBytes, k]
    rw [k']
    constructor
    · intro h; cases h
    · intro hm
      exact absurd ⟨m, [], hm, by simp⟩ hn

example : (⟨1, 8, .write 1 3 [1, 2, 3]⟩ : Command).Fits ∧ (⟨1, 8, .write 1 3 [1, 2, 3]⟩ : Command).wire = [1, 8, 0, 1, 0, 3, 1, 2, 3] :=
  ⟨⟨rfl, rfl⟩, rfl⟩

/-- C107 is violated: a read command under the number of `Start` is written without an error, and read as `Start`. -/
theorem C107_violated : encodeTop (encStruct command) [.num 1, .num 2, .variant 2 [.num 1, .num 10]] = .ok ⟨[1, 2, 0, 1, 0, 10], 6⟩ ∧
    decodeTop (decStruct command) [1, 2, 0, 1, 0, 10] = .ok [.num 1, .num 2, .variant 1 []] := by
  have hl : (⟨1, 2, .read 1 10⟩ : Command).wire.length ≤ isizeMax := Nat.le_trans (by decide) isize_small
  refine ⟨C107_written ⟨1, 2, .read 1 10⟩ hl, ?_⟩
  have := command_struct_reads ⟨1, 2, .start⟩ rfl none none [0, 1, 0, 10] [] hl
  simp only [decodeTop, Buf.ofBytes]
  exact congrArg Prod.fst this

/-! ## Strings -/

/-- Like `Covers`, with any error. -/
def Settles (m : M α) (W : α → List Byte → Prop) : Prop := ∀ pre r : List Byte, pre.length + r.length ≤ isizeMax →
  (∃ v w suf, r = w ++ suf ∧ W v w ∧ m ⟨pre ++ r, pre.length⟩ = (.ok v, ⟨pre ++ r, pre.length + w.length⟩)) ∨
  ∃ e b', m ⟨pre ++ r, pre.length⟩ = (.err e, b')

theorem Covers.settles {m : M α} {W : α → List Byte → Prop} (h : Covers m W) : Settles m W := fun pre r hp => by
  rcases h pre r hp with h | ⟨p, b', h⟩
  · exact .inl h
  · exact .inr ⟨_, b', h⟩

theorem Settles.congr {m m' : M α} {W : α → List Byte → Prop} (h : Settles m W) (he : ∀ b, m' b = m b) : Settles m' W := by
  intro pre r hp
  rw [he]
  exact h pre r hp

theorem Settles.mono {m : M α} {W W' : α → List Byte → Prop} (h : Settles m W) (hw : ∀ v w, W v w → W' v w) : Settles m W' := by
  intro pre r hp
  rcases h pre r hp with ⟨v, w, suf, h1, h2, h3⟩ | h
  · exact .inl ⟨v, w, suf, h1, hw _ _ h2, h3⟩
  · exact .inr h

theorem Settles.fails {m : M α} (h : ∀ b, ∃ e b', m b = (.err e, b')) (W : α → List Byte → Prop) : Settles m W :=
  fun _ _ _ => .inr (h _)

theorem Settles.bindWith {m : M α} {f : α → M β} {W : α → List Byte → Prop} {W' : α → List Byte → β → List Byte → Prop}
    (h : Settles m W) (hf : ∀ v w, W v w → Settles (f v) (W' v w)) :
    Settles (m >>= f) fun x w => ∃ v w1 w2, w = w1 ++ w2 ∧ W v w1 ∧ W' v w1 x w2 := by
  intro pre r hp
  rcases h pre r hp with ⟨v, w, suf, h1, h2, h3⟩ | ⟨p, b', h⟩
  · subst h1
    have hp' : (pre ++ w).length + suf.length ≤ isizeMax := by simp only [List.length_append] at hp ⊢; omega
    have e : (⟨pre ++ (w ++ suf), pre.length + w.length⟩ : Buf) = ⟨(pre ++ w) ++ suf, (pre ++ w).length⟩ := by
      simp only [List.append_assoc, List.length_append]
    rcases hf v w h2 (pre ++ w) suf hp' with ⟨x, w2, suf2, k1, k2, k3⟩ | ⟨p, b', k⟩
    · subst k1
      refine .inl ⟨x, w ++ w2, suf2, by simp only [List.append_assoc], ⟨v, w, w2, rfl, h2, k2⟩, ?_⟩
      rw [bind_apply, h3]
      simp only
      rw [e, k3]
      simp only [List.append_assoc, List.length_append, Nat.add_assoc]
    · refine .inr ⟨p, b', ?_⟩
      rw [bind_apply, h3]
      simp only
      rw [e, k]
  · exact .inr ⟨p, b', by rw [bind_apply, h]⟩

theorem Settles.map {m : M α} {W : α → List Byte → Prop} (h : Settles m W) (g : α → β) :
    Settles (mapM' g m) fun x w => ∃ v, x = g v ∧ W v w := by
  refine (h.bindWith (f := fun v => Pure.pure (g v)) fun v w _ => (Covers.pure (g v)).settles).mono ?_
  rintro x w ⟨v, w1, w2, rfl, h1, rfl, rfl⟩
  exact ⟨v, rfl, by rw [List.append_nil]; exact h1⟩

theorem Settles.fields {fs gs : List (Field Pkt)} {env : Env Pkt} {W : List Pkt → List Byte → Prop} {W' : List Pkt → List Pkt → List Byte → Prop}
    (h : Settles (decFields false fs none none env) W)
    (hc : ∀ v w, W v w → cachedAfter fs none env v = none)
    (h' : ∀ v w, W v w → Settles (decFields false gs none none (env.extend v)) (W' v)) :
    Settles (decFields false (fs ++ gs) none none env) fun vs w => ∃ v u w1 w2, vs = v ++ u ∧ w = w1 ++ w2 ∧ W v w1 ∧ W' v u w2 := by
  refine Settles.mono (Settles.congr (h.bindWith fun v w hv => (?_ : Settles (decFields false gs (cachedAfter fs none env v) none (env.extend v) >>=
    fun ws => (Pure.pure (v ++ ws) : M (List Pkt))) fun x w => ∃ ws w1 w2, w = w1 ++ w2 ∧ W' v ws w1 ∧ x = v ++ ws ∧ w2 = []))
    (decFields_append fs gs none env)) ?_
  · rw [hc v w hv]
    exact (h' v w hv).bindWith fun ws _ _ => (Covers.pure (v ++ ws)).settles
  · rintro vs w ⟨v, w1, w2, rfl, hv, ws, w3, w4, rfl, hu, rfl, rfl⟩
    exact ⟨v, ws, w1, w3, rfl, by simp, hv, hu⟩

theorem Settles.last {f : Field Pkt} {env : Env Pkt} {W : Pkt → List Byte → Prop} (hord : Ordinary f.attrs) (ho : f.attrs.byteorder = none)
    (hoff : f.attrs.offset = none) (hi : f.attrs.ifExpr = none) (hc : f.attrs.checkValue = none) (hu : f.attrs.untake = false)
    (hv : f.attrs.valueDecode = none) (h : Settles (f.dec none (ownModifiers f.attrs env)) W) :
    Settles (decFields false [f] none none env) fun vs w => ∃ v, vs = [v] ∧ W v w := by
  refine Settles.mono (Settles.congr ((h.congr (fieldStep_plain f hord ho hoff hi hc hu hv none env)).bindWith fun u _ _ => (Covers.pure [u]).settles)
    (decFields_one _ none env)) ?_
  rintro vs w ⟨v, w1, w2, rfl, h, rfl, rfl⟩
  exact ⟨v, rfl, by rw [List.append_nil]; exact h⟩

/-- A string is refused unless its bytes are UTF-8. -/
theorem string_settles {ca : Option CAttr} {fa : Option FAttr} {W : List Byte → List Byte → Prop} (h : Covers (decBytes ca fa) W)
    (a : FieldAttrs Pkt) : Settles ((Pkt.string a).dec ca fa) fun v w => ∃ s, v = .bytes s ∧ utf8Valid s = true ∧ W s w := by
  refine Settles.mono (Settles.map (W := fun v w => utf8Valid v = true ∧ W v w) ?_ Pkt.bytes) ?_
  · refine (h.settles.bindWith (W' := fun v w1 x w2 => utf8Valid v = true ∧ x = v ∧ w2 = []) fun v w _ => ?_).mono ?_
    · by_cases hu : utf8Valid v = true
      · simp only [hu, if_true]
        refine (Covers.pure v).settles.mono ?_
        rintro x w' ⟨rfl, rfl⟩
        exact ⟨trivial, rfl, rfl⟩
      · simp only [hu]
        exact Settles.fails (fun b => ⟨_, _, rfl⟩) _
    · rintro v w ⟨x, w1, w2, rfl, h1, h2, rfl, rfl⟩
      exact ⟨h2, by rw [List.append_nil]; exact h1⟩
  · rintro v w ⟨s, rfl, h1, h2⟩
    exact ⟨s, rfl, h1, h2⟩

theorem string_reads {ca : Option CAttr} {fa : Option FAttr} {s w suf : List Byte} (h : Reads (decBytes ca fa) s w suf)
    (hs : utf8Valid s = true) (a : FieldAttrs Pkt) : Reads ((Pkt.string a).dec ca fa) (.bytes s) w suf := by
  refine Reads.mapped (f := Pkt.bytes) ?_
  have h2 : Reads (if utf8Valid s then (Pure.pure s : M (List Byte)) else fail .fail) s [] suf := by
    rw [if_pos hs]; exact Reads.pure s suf
  have := Reads.bind (w2 := []) (f := fun v => if utf8Valid v then (Pure.pure v : M (List Byte)) else fail .fail) h h2
  rw [List.append_nil] at this
  exact this

/-! ## examples/simple_example.rs -/

/-- The bodies of examples/simple_example.rs and examples/simple_example2.rs. -/
inductive SimpleBody where
  | read (address : Byte)
  | write (address v1 v2 v3 : Byte)
  | unknown

def SimpleBody.wire : SimpleBody → List Byte
  | .read a => [a]
  | .write a x y z => [a, x, y, z]
  | .unknown => []

/-- The numbers that announce the body: the one written at the variant, the next one, all others. -/
def SimpleBody.Fits (n : Nat) : SimpleBody → Prop
  | .read _ => n = 1
  | .write _ _ _ _ => n = 2
  | .unknown => n ≠ 1 ∧ n ≠ 2

def SimpleBody.value : SimpleBody → Pkt
  | .read a => .variant 0 [.num a.toNat]
  | .write a x y z => .variant 1 [.num a.toNat, .bytes [x, y, z]]
  | .unknown => .variant 2 []

structure Simple where
  length : UInt16
  text : List Byte
  cmd : Byte
  body : SimpleBody

def Simple.wire (m : Simple) : List Byte := wire16 m.length ++ (m.text ++ m.cmd :: m.body.wire)

def Simple.value (m : Simple) : List Pkt := [.num m.length.toNat, .bytes m.text, .num m.cmd.toNat, m.body.value]

/-- The text is UTF-8 of the stated length, and the number is one of those of the body. -/
structure Simple.Fits (m : Simple) : Prop where
  text : utf8Valid m.text = true
  length : m.text.length = m.length.toNat
  body : m.body.Fits m.cmd.toNat


theorem array_reads (a : FieldAttrs Pkt) (x y z : Byte) (suf : List Byte) : Reads ((Pkt.array 3 a).dec none none) (.bytes [x, y, z]) [x, y, z] suf := by
  have := (bytes_reads none rfl rfl [x, y, z] suf).mapped fun l => Pkt.bytes (l.map UInt8.ofNat)
  rw [ofNat_map] at this
  exact this

theorem array_writes (a : FieldAttrs Pkt) (l : List Byte) : Writes ((Pkt.array 3 a).enc (.bytes l) none none) l := bytes_writes none rfl rfl l

theorem array_covers (a : FieldAttrs Pkt) : Covers ((Pkt.array 3 a).dec none none) fun v w => ∃ x y z : Byte, v = .bytes [x, y, z] ∧ w = [x, y, z] := by
  refine ((bytes_covers none rfl rfl 3).map fun l => Pkt.bytes (l.map UInt8.ofNat)).mono ?_
  rintro v w ⟨l, rfl, h, rfl⟩
  obtain ⟨x, w1, rfl, h1⟩ := list_succ h
  obtain ⟨y, w2, rfl, h2⟩ := list_succ h1
  obtain ⟨z, w3, rfl, h3⟩ := list_succ h2
  obtain rfl := List.length_eq_zero_iff.mp h3
  exact ⟨x, y, z, by rw [ofNat_map], rfl⟩

theorem simple_match (env : Env Pkt) (n : Nat) (b : Buf) : decArm simpleBody env (.num n) b =
    if n = 1 then mapM' (fun vs => (0, vs)) (decFields false [Pkt.u8] none none env) b
    else if n = 2 then mapM' (fun vs => (1, vs)) (decFields false [Pkt.u8, Pkt.array 3 {}] none none env) b
    else (.ok (2, []), b) := by
  have e : ∀ x : Nat, (Tag.num x == Tag.num n) = decide (n = x) := fun x => by
    by_cases h : n = x
    · subst h; simp
    · simp [h, show ¬ x = n from fun k => h k.symm]
  have h : findArm (.num n) 0 (simpleBody.variants.zip simpleBody.numbers) =
      if n = 1 then some (0, simpleBody.variants[0]) else if n = 2 then some (1, simpleBody.variants[1])
      else some (2, simpleBody.variants[2]) := by
    show (if (Tag.num 1 == Tag.num n) then some (0, simpleBody.variants[0])
      else if (Tag.num 2 == Tag.num n) then some (1, simpleBody.variants[1])
      else some (2, simpleBody.variants[2])) = _
    simp only [e, decide_eq_true_eq]
  unfold decArm
  rw [h]
  by_cases h1 : n = 1
  · simp only [if_pos h1]; exact used_arm env 0 _ (.inr rfl) rfl b
  by_cases h2 : n = 2
  · simp only [if_neg h1, if_pos h2]; exact used_arm env 1 _ (.inl rfl) rfl b
  · simp only [if_neg h1, if_neg h2]; rfl

/-- The arm for a number. -/
theorem simple_arm_reads (n : Nat) (x : SimpleBody) (hx : x.Fits n) (suf : List Byte) :
    Reads (mapM' (fun x => Pkt.variant x.1 x.2) (decArm simpleBody { vars := [] } (.num n))) x.value x.wire suf := by
  have key : ∀ (i : Nat) (vs : List Pkt) (w : List Byte), Reads (decArm simpleBody { vars := [] } (.num n)) (i, vs) w suf →
      Reads (mapM' (fun x => Pkt.variant x.1 x.2) (decArm simpleBody { vars := [] } (.num n))) (.variant i vs) w suf :=
    fun i vs w h => h.mapped fun x => Pkt.variant x.1 x.2
  cases x with
  | read a =>
    exact key 0 _ _ (((u8_seg { vars := [] } { vars := [] } a suf).reads.mapped fun vs => (0, vs)).congr fun b _ => by
      rw [simple_match, if_pos (show n = 1 from hx)])
  | write a x y z =>
    have := Segments.one (w1 := [x, y, z]) (w2 := []) (f := Pkt.array 3 {}) (fun suf => seg_codec (Pkt.array 3 {}) rfl
      (({ vars := [] } : Env Pkt).extend [Pkt.num a.toNat]) (({ vars := [] } : Env Pkt).extend [Pkt.num a.toNat]) _ _ suf (array_writes {} [x, y, z])
      (array_reads {} x y z suf)) rfl (.nil none _ _ suf)
    have s := Segments.one (w1 := [a]) (u8_seg { vars := [] } { vars := [] } a) rfl this
    refine key 1 _ _ ((s.roundtrip.reads.mapped fun vs => (1, vs)).congr fun b _ => ?_)
    have hx : n = 2 := hx
    rw [simple_match, if_neg (by omega), if_pos hx]
  | unknown =>
    exact key 2 [] [] ((Reads.pure (2, []) suf).congr fun b _ => by rw [simple_match, if_neg hx.1, if_neg hx.2]; rfl)

theorem simple_arm_covers (n : Nat) : Covers (mapM' (fun x => Pkt.variant x.1 x.2) (decArm simpleBody { vars := [] } (.num n))) fun v w =>
    ∃ x : SimpleBody, x.Fits n ∧ v = x.value ∧ w = x.wire := by
  refine Covers.mono (Covers.map (W := fun (v : Nat × List Pkt) w => ∃ x : SimpleBody, x.Fits n ∧ .variant v.1 v.2 = x.value ∧ w = x.wire)
    ?_ fun x : Nat × List Pkt => Pkt.variant x.1 x.2) ?_
  · by_cases h1 : n = 1
    · refine Covers.mono (((u8_covers { vars := [] }).map fun vs => (0, vs)).congr fun b => by rw [simple_match, if_pos h1]) ?_
      rintro v w ⟨vs, rfl, a, rfl, rfl⟩
      exact ⟨.read a, h1, rfl, rfl⟩
    by_cases h2 : n = 2
    · have c := (Covers.fields (fs := [Pkt.u8]) (gs := [Pkt.array 3 {}]) (u8_covers { vars := [] }) (by rintro _ _ ⟨_, rfl, _⟩; rfl) fun v _ _ =>
        Covers.last (env := ({ vars := [] } : Env Pkt).extend v) ⟨rfl, rfl, rfl, rfl, rfl, rfl⟩ rfl rfl rfl rfl rfl rfl (array_covers {}))
      refine Covers.mono ((c.map fun vs => (1, vs)).congr fun b => by
        rw [simple_match, if_neg h1, if_pos h2]; rfl) ?_
      rintro v w ⟨vs, rfl, v, u, w1, w2, rfl, rfl, ⟨a, rfl, rfl⟩, p, rfl, x, y, z, rfl, rfl⟩
      exact ⟨.write a x y z, h2, rfl, rfl⟩
    · refine (covers_empty (v := (2, [])) fun b => by rw [simple_match, if_neg h1, if_neg h2]).mono ?_
      rintro v w ⟨rfl, rfl⟩
      exact ⟨.unknown, ⟨h1, h2⟩, rfl, rfl⟩
  · rintro v w ⟨x, rfl, y, hy, h1, h2⟩
    exact ⟨y, hy, h1, h2⟩

theorem simple_fields_write (x : SimpleBody) : ∃ (v : Variant Pkt) (i : Nat) (vs : List Pkt) (num : Nat),
    x.value = .variant i vs ∧ (simpleBody.variants.zip simpleBody.numbers)[i]? = some (v, num) ∧
    num = (match x with | .read _ => 1 | .write _ _ _ _ => 2 | .unknown => 3) ∧
    (v.attrs = {} ∨ v.attrs = { isUse := true }) ∧ NoLeak none v.fields ∧
    Writes (encFields false v.fields none none { vars := [] } vs) x.wire := by
  cases x with
  | read a =>
    refine ⟨simpleBody.variants[0], 0, _, 1, rfl, rfl, rfl, .inr rfl, ⟨by simp [simpleBody, Pkt.u8, Pkt.int], .inl rfl⟩, ?_⟩
    exact encFields_cons_writes (w := [a]) (u8_writes { vars := [] } a) (encFields_nil_writes none _)
  | write a x y z =>
    refine ⟨simpleBody.variants[1], 1, _, 2, rfl, rfl, rfl, .inl rfl, ⟨by simp [simpleBody, Pkt.u8, Pkt.int, Pkt.array], .inl rfl⟩, ?_⟩
    exact encFields_cons_writes (w := [a]) (u8_writes { vars := [] } a) (encFields_cons_writes (w := [x, y, z])
      (fieldEnc_plain (Pkt.array 3 {}) ⟨rfl, rfl, rfl, rfl, rfl, rfl⟩ rfl rfl rfl rfl none _ _ _ (array_writes {} [x, y, z]))
      (encFields_nil_writes none _))
  | unknown => exact ⟨simpleBody.variants[2], 2, _, 3, rfl, rfl, rfl, .inr rfl, ⟨.nil, .inl rfl⟩, encFields_nil_writes none _⟩

theorem simple_body_writes (n : Nat) (a : FieldAttrs Pkt) (x : SimpleBody) : Writes ((Pkt.enum simpleBody a).enc x.value none (branchOf n)) x.wire := by
  obtain ⟨v, i, vs, num, e, h1, -, h3, h4, h5⟩ := simple_fields_write x
  rw [e]
  have := used_variant_writes simpleBody rfl rfl rfl num n v h3 h4 vs _ h5
  refine this.congr fun b => ?_
  show encEnum simpleBody (i, vs) none (branchOf n) b = _
  simp only [encEnum, h1]


/-- The text with `length="length"`. -/
theorem text_writes (n : Nat) (a : FieldAttrs Pkt) (s : List Byte) : Writes ((Pkt.string a).enc (.bytes s) none (some { length := some n })) s := by
  have := (encBytes_appends s none (some { length := some n }) (by intro k h; cases h)).writes
  rw [show bytesWire none (some { length := some n }) s = s by simp [bytesWire, heads, framingOf, Framing.wire]] at this
  exact this

theorem text_reads (a : FieldAttrs Pkt) (s suf : List Byte) (hs : utf8Valid s = true) :
    Reads ((Pkt.string a).dec none (some { length := some s.length })) (.bytes s) s suf :=
  string_reads ((Reads.bytes s suf).congr fun _ _ => rfl) hs a

theorem text_settles (n : Nat) (a : FieldAttrs Pkt) : Settles ((Pkt.string a).dec none (some { length := some n }))
    fun v w => v = .bytes w ∧ utf8Valid w = true ∧ w.length = n := by
  have h : Covers (decBytes none (some { length := some n })) fun v w => w.length = n ∧ v = w := by
    refine Covers.congr (Covers.fixed (takeBytes_needs n) fun x hx => ⟨x, ⟨hx, rfl⟩, fun suf => ?_⟩) fun b => rfl
    rw [← hx]
    exact Reads.bytes x suf
  refine (string_settles h a).mono ?_
  rintro v w ⟨s, rfl, h1, h2, rfl⟩
  exact ⟨rfl, h1, h2⟩

theorem simple_writes (m : Simple) (ca : Option CAttr) (fa : Option FAttr) : Writes (encStruct simple m.value ca fa) m.wire := by
  have := encFields_cons_writes (w := wire16 m.length) (u16_writes { vars := localVars [] ca } m.length)
    (encFields_cons_writes (w := m.text) (f := Pkt.string { isUse := true, length := some fun env => env.pktNum 0 })
      (fieldEnc_plain _ ⟨rfl, rfl, rfl, rfl, rfl, rfl⟩ rfl rfl rfl rfl none _ _ _ (text_writes _ _ m.text))
    (encFields_cons_writes (w := [m.cmd]) (u8_writes _ m.cmd) (encFields_cons_writes (fs := []) (vs := [])
      (f := Pkt.enum simpleBody { isUse := true, branch := some fun env => env.pktNum 2 })
      (fieldEnc_plain _ ⟨rfl, rfl, rfl, rfl, rfl, rfl⟩ rfl rfl rfl rfl none _ _ _ (simple_body_writes _ _ m.body)) (encFields_nil_writes none _))))
  rw [List.append_nil] at this
  exact this

theorem simple_reads (m : Simple) (hm : m.Fits) (ca : Option CAttr) (fa : Option FAttr) (suf : List Byte) :
    Reads (decStruct simple ca fa) m.value m.wire suf := by
  refine (C43_struct_roundtrip simple rfl rfl (by intro h; cases h) ca ca fa fa _ _ suf ?_).2
  have := Segments.one (w1 := wire16 m.length) (u16_seg { vars := localVars [] ca } { vars := localVars [] ca } m.length) rfl
    (Segments.one (w1 := m.text) (v := .bytes m.text) (f := Pkt.string { isUse := true, length := some fun env => env.pktNum 0 })
      (fun suf => seg_own _ ⟨rfl, rfl, rfl, rfl, rfl, rfl⟩ rfl rfl rfl rfl rfl rfl rfl _ _ _ _ suf (text_writes _ _ m.text)
        (by have := text_reads { isUse := true, length := some fun env => env.pktNum 0 } m.text suf hm.text
            rw [hm.length] at this
            exact this)) rfl
    (Segments.one (w1 := [m.cmd]) (u8_seg _ _ m.cmd) rfl
    (Segments.one (f := Pkt.enum simpleBody { isUse := true, branch := some fun env => env.pktNum 2 }) (fs := []) (vs := [])
      (fun suf => seg_own _ ⟨rfl, rfl, rfl, rfl, rfl, rfl⟩ rfl rfl rfl rfl rfl rfl rfl _ _ _ _ suf (simple_body_writes _ _ m.body)
        (simple_arm_reads m.cmd.toNat m.body hm.body suf)) rfl (.nil none _ _ suf))))
  rw [List.append_nil] at this
  exact this

theorem simple_settles (ca : Option CAttr) (fa : Option FAttr) : Settles (decStruct simple ca fa) fun v w =>
    ∃ m : Simple, m.Fits ∧ v = m.value ∧ w = m.wire := by
  have c := (Settles.fields (fs := [Pkt.u16]) (gs := simple.fields.drop 1)
    (u16_covers { vars := localVars [] ca }).settles (by rintro _ _ ⟨_, rfl, _⟩; rfl) fun v _ _ =>
    Settles.fields (fs := [Pkt.string { isUse := true, length := some fun env => env.pktNum 0 }]) (gs := simple.fields.drop 2)
      (env := ({ vars := localVars [] ca } : Env Pkt).extend v)
      (Settles.last ⟨rfl, rfl, rfl, rfl, rfl, rfl⟩ rfl rfl rfl rfl rfl rfl
        (text_settles ((({ vars := localVars [] ca } : Env Pkt).extend v).pktNum 0) _)) (by rintro _ _ ⟨_, rfl, _⟩; rfl) fun t _ _ =>
    Settles.fields (fs := [Pkt.u8]) (gs := simple.fields.drop 3)
      (u8_covers ((({ vars := localVars [] ca } : Env Pkt).extend v).extend t)).settles (by rintro _ _ ⟨_, rfl, _⟩; rfl) fun u _ _ =>
    (Covers.last (f := Pkt.enum simpleBody { isUse := true, branch := some fun env => env.pktNum 2 }) ⟨rfl, rfl, rfl, rfl, rfl, rfl⟩ rfl rfl rfl rfl rfl rfl
      (simple_arm_covers (((((({ vars := localVars [] ca } : Env Pkt).extend v).extend t).extend u).pktNum 2)))).settles)
  refine Settles.mono c ?_
  rintro vs w ⟨v, u, w1, w2, rfl, rfl, ⟨n, rfl, rfl⟩, v2, u2, w3, w4, rfl, rfl, ⟨t, rfl, rfl, h1, h2⟩, v3, u3, w5, w6, rfl, rfl, ⟨y, rfl, rfl⟩,
    z, rfl, x, hx, rfl, rfl⟩
  exact ⟨⟨n, w3, y, x⟩, ⟨h1, h2, hx⟩, rfl, rfl⟩

/-- C107: examples/simple_example.rs: a message is written as its layout; an input that begins with a consistent one is read
as it, and any other is refused. -/
theorem C107_simple (ca : Option CAttr) (fa : Option FAttr) :
    (∀ m : Simple, Writes (encStruct simple m.value ca fa) m.wire) ∧
    ∀ pre r : List Byte, pre.length + r.length ≤ isizeMax →
      (∃ (m : Simple) (suf : List Byte), m.Fits ∧ r = m.wire ++ suf ∧
        decStruct simple ca fa ⟨pre ++ r, pre.length⟩ = (.ok m.value, ⟨pre ++ r, pre.length + m.wire.length⟩)) ∨
      (¬∃ (m : Simple) (suf : List Byte), m.Fits ∧ r = m.wire ++ suf) ∧ ∃ e b', decStruct simple ca fa ⟨pre ++ r, pre.length⟩ = (.err e, b') := by
  refine ⟨fun m => simple_writes m ca fa, fun pre r hp => ?_⟩
  rcases simple_settles ca fa pre r hp with ⟨v, w, suf, k1, ⟨m, hm, rfl, rfl⟩, k3⟩ | ⟨e, b', k⟩
  · exact .inl ⟨m, suf, hm, k1, k3⟩
  · refine .inr ⟨?_, e, b', k⟩
    rintro ⟨m, suf, hm, rfl⟩
    have := simple_reads m hm ca fa suf pre (by simpa [Nat.add_assoc] using hp)
    rw [this] at k
    cases k

example : (⟨3, [49, 50, 51], 1, .read 5⟩ : Simple).Fits ∧ (⟨3, [49, 50, 51], 1, .read 5⟩ : Simple).wire = [0, 3, 49, 50, 51, 1, 5] :=
  ⟨⟨by decide, rfl, rfl⟩, rfl⟩

/-! ## examples/simple_example2.rs -/

structure Tagged where
  version : Byte
  text : List Byte
  body : SimpleBody

def Tagged.value (m : Tagged) : List Pkt := [.num m.version.toNat, .bytes m.text, m.body.value]

/-- The layout with the tag `t` and `n` as the length of the text. -/
def Tagged.wireAs (m : Tagged) (n t : Byte) : List Byte := m.version :: n :: (m.text ++ t :: m.body.wire)

/-- The tag that the encoder writes. -/
def SimpleBody.tag : SimpleBody → Byte
  | .read _ => 1
  | .write _ _ _ _ => 2
  | .unknown => 3

def Tagged.wire (m : Tagged) : List Byte := m.wireAs (UInt8.ofNat m.text.length) m.body.tag


theorem tagged_dec (b : Buf) : decEnum simpleBody none none b =
    (takeU8 >>= fun t => decArm simpleBody { vars := [] } (.num t.toNat)) b := by
  show (decTag none none none >>= fun n => decArm simpleBody { vars := localVars [] none } (.num n)) b = _
  have e : decTag none none none b = (takeU8 >>= fun x => (Pure.pure x.toNat : M Nat)) b := rfl
  rw [bind_apply, bind_apply, e, bind_apply]
  rcases takeU8 b with ⟨o, b'⟩
  cases o <;> rfl

theorem tagged_body_dec (b : Buf) : (Pkt.enum simpleBody {}).dec none none b =
    (takeU8 >>= fun t => mapM' (fun x => Pkt.variant x.1 x.2) (decArm simpleBody { vars := [] } (.num t.toNat))) b := by
  show mapM' (fun x => Pkt.variant x.1 x.2) (decEnum simpleBody none none) b = _
  rw [mapM'_apply, tagged_dec, bind_apply, bind_apply]
  rcases takeU8 b with ⟨o, b'⟩
  cases o with
  | ok t => simp only [mapM'_apply]
  | _ => rfl

theorem tagged_body_reads (t : Byte) (x : SimpleBody) (hx : x.Fits t.toNat) (suf : List Byte) :
    Reads ((Pkt.enum simpleBody {}).dec none none) x.value (t :: x.wire) suf :=
  ((Reads.u8 t (x.wire ++ suf)).bind (simple_arm_reads t.toNat x hx suf)).congr fun b _ => tagged_body_dec b

theorem tagged_body_covers : Covers ((Pkt.enum simpleBody {}).dec none none) fun v w =>
    ∃ (t : Byte) (x : SimpleBody), x.Fits t.toNat ∧ v = x.value ∧ w = t :: x.wire := by
  refine Covers.mono ((u8_take_covers.bindWith (W' := fun t _ v w => ∃ x : SimpleBody, x.Fits t.toNat ∧ v = x.value ∧ w = x.wire)
    fun t _ _ => simple_arm_covers t.toNat).congr tagged_body_dec) ?_
  rintro v w ⟨t, w1, w2, rfl, rfl, x, hx, rfl, rfl⟩
  exact ⟨t, x, hx, rfl, rfl⟩

/-- A variant behind its tag of one byte. -/
theorem tagged_variant_writes (E : EnumDef Pkt) (hc : E.container = none) (hm : E.mode = .uint) (hg : E.getVars = []) (hd : E.byteCountDisable = false)
    (t : Byte) (v : Variant Pkt) (hv : v.attrs = {} ∨ v.attrs = { isUse := true }) (hn : NoLeak none v.fields) (vs : List Pkt) (w : List Byte)
    (h : Writes (encFields false v.fields none none { vars := [] } vs) w) :
    Writes (encVariant E v t.toNat vs none none) (t :: w) := by
  refine ((Appends.pushU8 t).writes.seq h).congr fun b => ?_
  have e : encVariant E v t.toNat vs none none b = (encTag none none none false t.toNat >>= fun n =>
      encFields true v.fields none none { vars := [] } vs >>= fun m => (Pure.pure (n + m) : M Nat)) b := by
    obtain ⟨a, nm, d, bd, bb, bv, br, tt, fs⟩ := v
    simp only at hv
    rcases hv with rfl | rfl <;> simp only [encVariant, encTagMode, hm, hc, hg, hd] <;> rfl
  have e2 : encTag none none none false t.toNat = pushU8 t := by
    show pushU8 (UInt8.ofNat t.toNat) = _
    rw [UInt8.ofNat_toNat]
  rw [e, e2, bind_apply, bind_apply]
  rcases pushU8 t b with ⟨o, b'⟩
  cases o with
  | ok n =>
    simp only
    rw [bind_apply, encFields_noLeak _ _ _ _ _ _ hn, bind_apply]
  | _ => rfl

theorem tagged_body_writes (x : SimpleBody) : Writes ((Pkt.enum simpleBody {}).enc x.value none none) (x.tag :: x.wire) := by
  obtain ⟨v, i, vs, num, e, h1, hn, h3, h4, h5⟩ := simple_fields_write x
  rw [e]
  have hn : num = x.tag.toNat := by rw [hn]; cases x <;> rfl
  subst hn
  refine (tagged_variant_writes simpleBody rfl rfl rfl rfl x.tag v h3 h4 vs _ h5).congr fun b => ?_
  show encEnum simpleBody (i, vs) none none b = _
  simp only [encEnum, h1]

theorem prefixed_covers : Covers takePrefixed fun v w => v.length < 256 ∧ w = UInt8.ofNat v.length :: v := by
  refine Covers.mono (u8_take_covers.bindWith (W' := fun n _ v w => w.length = n.toNat ∧ v = w) fun n _ _ => ?_) ?_
  · refine Covers.fixed (takeBytes_needs _) fun x hx => ⟨x, ⟨hx, rfl⟩, fun suf => ?_⟩
    rw [← hx]
    exact Reads.bytes x suf
  · rintro v w ⟨n, w1, w2, rfl, rfl, h, rfl⟩
    refine ⟨by rw [h]; exact n.toNat_lt, ?_⟩
    rw [h, UInt8.ofNat_toNat]
    rfl

theorem tagged_text_writes (s : List Byte) : Writes ((Pkt.string {}).enc (.bytes s) none none) (UInt8.ofNat s.length :: s) := by
  have := (encBytes_appends s none none (by intro k h; cases h)).writes
  rw [show bytesWire none none s = UInt8.ofNat s.length :: s by simp [bytesWire, heads, framingOf, Framing.wire]] at this
  exact this

theorem tagged_writes (m : Tagged) (ca : Option CAttr) (fa : Option FAttr) : Writes (encStruct tagged m.value ca fa) m.wire := by
  have := encFields_cons_writes (w := [m.version]) (u8_writes { vars := localVars [] ca } m.version)
    (encFields_cons_writes (w := UInt8.ofNat m.text.length :: m.text) (f := Pkt.string {})
      (fieldEnc_plain _ ⟨rfl, rfl, rfl, rfl, rfl, rfl⟩ rfl rfl rfl rfl none _ _ _ (tagged_text_writes m.text))
    (encFields_cons_writes (fs := []) (vs := []) (f := Pkt.enum simpleBody {})
      (fieldEnc_plain _ ⟨rfl, rfl, rfl, rfl, rfl, rfl⟩ rfl rfl rfl rfl none _ _ _ (tagged_body_writes m.body)) (encFields_nil_writes none _)))
  rw [List.append_nil] at this
  exact this

/-- The texts and tags with which a message is read. -/
structure Tagged.Fits (m : Tagged) (t : Byte) : Prop where
  text : utf8Valid m.text = true
  length : m.text.length < 256
  body : m.body.Fits t.toNat

theorem tagged_reads (m : Tagged) (t : Byte) (hm : m.Fits t) (ca : Option CAttr) (fa : Option FAttr) (suf : List Byte) :
    Reads (decStruct tagged ca fa) m.value (m.wireAs (UInt8.ofNat m.text.length) t) suf := by
  have st : ∀ suf, Reads ((Pkt.string {}).dec none none) (.bytes m.text) (UInt8.ofNat m.text.length :: m.text) suf := fun suf => by
    refine string_reads ?_ hm.text {}
    have := decBytes_reads m.text suf none none hm.length
    rw [show bytesWire none none m.text = UInt8.ofNat m.text.length :: m.text by simp [bytesWire, heads, framingOf, Framing.wire]] at this
    exact this
  have one : ∀ (f : Field Pkt), f.attrs = {} → ∀ (env : Env Pkt) (v : Pkt) (w suf : List Byte), Reads (f.dec none none) v w suf →
      Reads (fieldStep f none env) v w suf := fun f hf env v w suf h => h.congr fun b _ => by
    rw [fieldStep_plain f (by rw [hf]; exact ⟨rfl, rfl, rfl, rfl, rfl, rfl⟩) (by rw [hf]) (by rw [hf]) (by rw [hf]) (by rw [hf]) (by rw [hf]) (by rw [hf]) none env b,
      hf]
    rfl
  have cons : ∀ (f : Field Pkt) (fs : List (Field Pkt)), f.attrs = {} → ∀ (env : Env Pkt) (v : Pkt) (vs : List Pkt) (w w' suf : List Byte),
      Reads (f.dec none none) v w (w' ++ suf) → Reads (decFields false fs none none (env.push v)) vs w' suf →
      Reads (decFields false (f :: fs) none none env) (v :: vs) (w ++ w') suf := by
    intro f fs hf env v vs w w' suf h1 h2
    have := Reads.bind (f := fun v => mapM' (v :: ·) (decFields false fs none none (env.push v))) (one f hf env v w _ h1)
      (h2.mapped fun vs => v :: vs)
    refine this.congr fun b _ => ?_
    rw [decFields_cons, bind_apply, bind_apply]
    rcases fieldStep f none env b with ⟨o, b'⟩
    cases o with
    | ok u => simp only [cacheVars, hf]; rfl
    | _ => rfl
  have c := cons Pkt.u8 [Pkt.string {}, Pkt.enum simpleBody {}] rfl { vars := localVars [] ca } (.num m.version.toNat) _ [m.version]
    _ suf ?_ (cons (Pkt.string {}) [Pkt.enum simpleBody {}] rfl _ (.bytes m.text) _ _ _ suf (st _)
      (cons (Pkt.enum simpleBody {}) [] rfl _ m.body.value [] _ [] suf (by simpa using tagged_body_reads t m.body hm.body suf) (Reads.pure [] suf)))
  · rw [List.append_nil] at c
    exact c
  · have := (byte_reads none rfl rfl m.version ((UInt8.ofNat m.text.length :: m.text ++ (t :: m.body.wire ++ [])) ++ suf)).mapped Pkt.num
    exact this

theorem tagged_settles (ca : Option CAttr) (fa : Option FAttr) : Settles (decStruct tagged ca fa) fun v w =>
    ∃ (m : Tagged) (t : Byte), m.Fits t ∧ v = m.value ∧ w = m.wireAs (UInt8.ofNat m.text.length) t := by
  have st : Settles ((Pkt.string {}).dec none none) fun v w => ∃ s, v = .bytes s ∧ utf8Valid s = true ∧ s.length < 256 ∧ w = UInt8.ofNat s.length :: s :=
    string_settles (prefixed_covers.congr fun b => rfl) {}
  have c := (Settles.fields (fs := [Pkt.u8]) (gs := tagged.fields.drop 1)
    (u8_covers { vars := localVars [] ca }).settles (by rintro _ _ ⟨_, rfl, _⟩; rfl) fun v _ _ =>
    Settles.fields (fs := [Pkt.string {}]) (gs := tagged.fields.drop 2) (env := ({ vars := localVars [] ca } : Env Pkt).extend v)
      (Settles.last ⟨rfl, rfl, rfl, rfl, rfl, rfl⟩ rfl rfl rfl rfl rfl rfl st) (by rintro _ _ ⟨_, rfl, _⟩; rfl) fun t _ _ =>
    (Covers.last (f := Pkt.enum simpleBody {}) (env := (({ vars := localVars [] ca } : Env Pkt).extend v).extend t)
      ⟨rfl, rfl, rfl, rfl, rfl, rfl⟩ rfl rfl rfl rfl rfl rfl tagged_body_covers).settles)
  refine Settles.mono c ?_
  rintro vs w ⟨v, u, w1, w2, rfl, rfl, ⟨n, rfl, rfl⟩, v2, u2, w3, w4, rfl, rfl, ⟨q, rfl, s, rfl, h1, h2, rfl⟩, z, rfl, t, x, hx, rfl, rfl⟩
  exact ⟨⟨n, s, x⟩, t, ⟨h1, h2, hx⟩, rfl, rfl⟩

/-- C107: examples/simple_example2.rs: what is written for a message, and which inputs are read as which message.  The tag of
`Unknown` may be anything but those of the others. -/
theorem C107_tagged (ca : Option CAttr) (fa : Option FAttr) :
    (∀ m : Tagged, Writes (encStruct tagged m.value ca fa) m.wire) ∧
    ∀ pre r : List Byte, pre.length + r.length ≤ isizeMax →
      (∃ (m : Tagged) (t : Byte) (suf : List Byte), m.Fits t ∧ r = m.wireAs (UInt8.ofNat m.text.length) t ++ suf ∧
        decStruct tagged ca fa ⟨pre ++ r, pre.length⟩ =
          (.ok m.value, ⟨pre ++ r, pre.length + (m.wireAs (UInt8.ofNat m.text.length) t).length⟩)) ∨
      (¬∃ (m : Tagged) (t : Byte) (suf : List Byte), m.Fits t ∧ r = m.wireAs (UInt8.ofNat m.text.length) t ++ suf) ∧
        ∃ e b', decStruct tagged ca fa ⟨pre ++ r, pre.length⟩ = (.err e, b') := by
  refine ⟨fun m => tagged_writes m ca fa, fun pre r hp => ?_⟩
  rcases tagged_settles ca fa pre r hp with ⟨v, w, suf, k1, ⟨m, t, hm, rfl, rfl⟩, k3⟩ | ⟨e, b', k⟩
  · exact .inl ⟨m, t, suf, hm, k1, k3⟩
  · refine .inr ⟨?_, e, b', k⟩
    rintro ⟨m, t, suf, hm, rfl⟩
    have := tagged_reads m t hm ca fa suf pre (by simpa [Nat.add_assoc] using hp)
    rw [this] at k
    cases k

/-- C107: examples/simple_example2.rs: a message of which the text is UTF-8 of at most 255 bytes is read back from what is
written for it. -/
theorem C107_tagged_roundtrip (m : Tagged) (h1 : utf8Valid m.text = true) (h2 : m.text.length < 256) (suf : List Byte) :
    Writes (encStruct tagged m.value none none) m.wire ∧ Reads (decStruct tagged none none) m.value m.wire suf :=
  ⟨tagged_writes m none none, tagged_reads m m.body.tag ⟨h1, h2, by obtain ⟨_, _, b⟩ := m; cases b <;> first | rfl | exact (⟨by decide, by decide⟩ : (3 : Nat) ≠ 1 ∧ (3 : Nat) ≠ 2)⟩ none none suf⟩

theorem tagged_wire_iff (m : Tagged) (t : Byte) : m.wire = m.wireAs (UInt8.ofNat m.text.length) t ↔ t = m.body.tag := by
  constructor
  · intro h
    simp only [Tagged.wire, Tagged.wireAs, List.cons.injEq, List.append_cancel_left_eq, true_and] at h
    exact h.1.symm
  · rintro rfl
    rfl

/-- C107: what was read from an input without a rest is written again as the same bytes exactly if the tag is the one of the
encoder: always for `Read` and `Write`, and for `Unknown` if it is 3. -/
theorem C107_tagged_again (m : Tagged) (t : Byte) (hm : m.Fits t) (h : (m.wireAs (UInt8.ofNat m.text.length) t).length ≤ isizeMax) :
    ∃ v, decodeTop (decStruct tagged) (m.wireAs (UInt8.ofNat m.text.length) t) = .ok v ∧
      ((∃ b, encodeTop (encStruct tagged) v = .ok b ∧ b.data = m.wireAs (UInt8.ofNat m.text.length) t) ↔ m.body.value = .variant 2 [] → t = 3) := by
  have r := tagged_reads m t hm none none [] [] (by simpa using h)
  simp only [List.nil_append, List.append_nil, List.length_nil] at r
  refine ⟨m.value, by simp only [decodeTop, Buf.ofBytes, r], ?_⟩
  have hl : m.wire.length = (m.wireAs (UInt8.ofNat m.text.length) t).length := by simp [Tagged.wire, Tagged.wireAs]
  obtain ⟨n, e⟩ := tagged_writes m none none [] (by simpa [hl] using h)
  simp only [List.nil_append, List.length_nil, Nat.zero_add] at e
  have e' : encodeTop (encStruct tagged) m.value = .ok ⟨m.wire, m.wire.length⟩ := by
    simp only [encodeTop, Buf.new]
    rw [e]
  have k : t = m.body.tag ↔ (m.body.value = .variant 2 [] → t = 3) := by
    have hb := hm.body
    have u : ∀ x : Byte, t.toNat = x.toNat → t = x := fun x h => UInt8.toNat_inj.mp h
    cases hx : m.body <;> rw [hx] at hb
    · exact ⟨fun _ h => (by simp [SimpleBody.value] at h), fun _ => u 1 hb⟩
    · exact ⟨fun _ h => (by simp [SimpleBody.value] at h), fun _ => u 2 hb⟩
    · exact ⟨fun h _ => h, fun h => h rfl⟩
  rw [← k, ← tagged_wire_iff, e']
  constructor
  · rintro ⟨b, h1, h2⟩
    cases h1
    exact h2
  · intro h
    exact ⟨_, rfl, h⟩

example : (⟨1, [49, 50, 51], .read 5⟩ : Tagged).Fits 1 ∧ (⟨1, [49, 50, 51], .read 5⟩ : Tagged).wire = [1, 3, 49, 50, 51, 1, 5] :=
  ⟨⟨by decide, by decide, rfl⟩, rfl⟩

/-- C107 is violated in examples/simple_example2.rs: an unknown tag is lost. -/
theorem C107_tagged_violated : decodeTop (decStruct tagged) [1, 0, 9] = .ok (⟨1, [], .unknown⟩ : Tagged).value ∧
    encodeTop (encStruct tagged) (⟨1, [], .unknown⟩ : Tagged).value = .ok ⟨[1, 0, 3], 3⟩ := by
  have hl : 3 ≤ isizeMax := Nat.le_trans (by decide) isize_small
  constructor
  · have := tagged_reads ⟨1, [], .unknown⟩ 9 ⟨rfl, by decide, by decide, by decide⟩ none none [] [] hl
    exact congrArg Prod.fst this
  · obtain ⟨n, e⟩ := tagged_writes ⟨1, [], .unknown⟩ none none [] hl
    simp only [List.nil_append, List.length_nil, Nat.zero_add] at e
    simp only [encodeTop, Buf.new]
    rw [e]
    rfl

end JBytes
