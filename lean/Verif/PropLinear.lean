import Verif.Size
import Verif.PropRecursive
/-!
# C96: decoded values are not larger than the input warrants

A value is measured by the number of its parts: one for every number, address, list, struct, enum or option, and one
for every byte of a byte string or text.  `Bounded Γ K P α d μ A C` says of the decoder `d` of a type, measured by `μ`,
that by the way the type is put together its values have at most `A` parts for every byte consumed, and `C` besides;
the rules count: a number is one part, a struct is one more than its fields, a list is one more than its elements,
where an element has to consume a byte for what is fixed in it.
-/

namespace JBytes
open M

variable {α β V : Type}

/-- How large the values of a type can be: `A` parts per consumed byte, and `C` besides, when decoded with modifiers in
`P`.  The types in `Γ` (those being defined, when they are recursive) have `K` parts per byte. -/
inductive Bounded (Γ : (Option FAttr → Prop) → (α : Type) → (Nat → Dec α) → (α → Nat) → Prop) (K : Nat) :
    (Option FAttr → Prop) → (α : Type) → (Nat → Dec α) → (α → Nat) → Nat → Nat → Prop where
  | var {P : Option FAttr → Prop} {α : Type} {d : Nat → Dec α} {μ : α → Nat} : Γ P α d μ → Bounded Γ K P α d μ K 0
  | int {P : Option FAttr → Prop} (k : IntKind) : Bounded Γ K P Nat (fun _ => decInt k) (fun _ => 1) 0 1
  | f32 {P : Option FAttr → Prop} : Bounded Γ K P Nat (fun _ => decF32) (fun _ => 1) 0 1
  | f64 {P : Option FAttr → Prop} : Bounded Γ K P Nat (fun _ => decF64) (fun _ => 1) 0 1
  | bool {P : Option FAttr → Prop} : Bounded Γ K P Bool (fun _ => decBool) (fun _ => 1) 0 1
  | char {P : Option FAttr → Prop} : Bounded Γ K P Nat (fun _ => decChar) (fun _ => 1) 0 1
  | bytes {P : Option FAttr → Prop} : Bounded Γ K P (List Byte) (fun _ => decBytes) (fun l => 1 + l.length) 1 1
  | str {P : Option FAttr → Prop} : Bounded Γ K P (List Byte) (fun _ => decStr) (fun l => 1 + l.length) 1 1
  | ipv4 {P : Option FAttr → Prop} : Bounded Γ K P (List Byte) (fun _ => decIpv4) (fun _ => 1) 0 1
  | ipv6 {P : Option FAttr → Prop} : Bounded Γ K P (List Byte) (fun _ => decIpv6) (fun _ => 1) 0 1
  | ip {P : Option FAttr → Prop} : Bounded Γ K P IpAddr (fun _ => decIpAddr) (fun _ => 1) 0 1
  | mac {P : Option FAttr → Prop} : Bounded Γ K P (List Byte) (fun _ => decMac) (fun _ => 1) 0 1
  | net {P : Option FAttr → Prop} : Bounded Γ K P NetAddr (fun _ => decNet) (fun _ => 1) 0 1
  | unit {P : Option FAttr → Prop} : Bounded Γ K P Unit (fun _ => decUnit) (fun _ => 1) 0 1
  /-- `Vec<T>`: there is nothing fixed in an element, or it consumes a byte that pays for it. -/
  | vec {P : Option FAttr → Prop} {α : Type} {d : Nat → Dec α} {μ : α → Nat} {A C : Nat} : Bounded Γ K P α d μ A C →
      (C = 0 ∨ ∀ n ca fa, P fa → Eats (d n ca fa)) →
      Bounded Γ K P (List α) (fun n => decVec n (d n)) (fun l => 1 + sizes μ l) (A + C) 1
  | set {P : Option FAttr → Prop} {α : Type} [DecidableEq α] {d : Nat → Dec α} {μ : α → Nat} {A C : Nat} :
      Bounded Γ K P α d μ A C → (C = 0 ∨ ∀ n ca fa, P fa → Eats (d n ca fa)) →
      Bounded Γ K P (List α) (fun n => decSet (d n)) (fun l => 1 + sizes μ l) (A + C) 1
  | map {P Pk Pv : Option FAttr → Prop} {α β : Type} [DecidableEq α] {dk : Nat → Dec α} {dv : Nat → Dec β}
      {μ : α → Nat} {ν : β → Nat} {A C D : Nat} : Bounded Γ K Pk α dk μ A C → Bounded Γ K Pv β dv ν A D →
      (∀ fa, P fa → Pk (keyFattr fa) ∧ Pv (valFattr fa)) →
      (C + D = 0 ∨ ∀ n ca fa, P fa → Eats (decEntry (dk n) (dv n) ca fa)) →
      Bounded Γ K P (List (α × β)) (fun n => decMap (dk n) (dv n)) (fun l => 1 + sizes (entrySize μ ν) l)
        (A + (C + D)) 1
  | array {P : Option FAttr → Prop} {α : Type} {d : Nat → Dec α} {μ : α → Nat} {A C : Nat} (k : Nat) :
      Bounded Γ K P α d μ A C →
      Bounded Γ K P (List α) (fun n => decArray k (d n)) (fun l => 1 + sizes μ l) A (1 + k * C)
  | tuple {P : Option FAttr → Prop} {α : Type} {μ : α → Nat} {A : Nat} (ds : List ((Nat → Dec α) × Nat)) :
      (∀ d ∈ ds, Bounded Γ K P α d.1 μ A d.2) →
      Bounded Γ K P (List α) (fun n => decTuple (ds.map (·.1 n))) (fun l => 1 + sizes μ l) A (1 + (ds.map Prod.snd).sum)
  | option {P : Option FAttr → Prop} {α : Type} {d : Nat → Dec α} {μ : α → Nat} {A C : Nat} : Bounded Γ K P α d μ A C →
      Bounded Γ K P (Option α) (fun n => decOption (d n)) (fun o => 1 + (o.map μ).getD 0) A (1 + C)
  /-- A type seen as a part of a sum type (the type of all field values of a struct). -/
  | inject {P : Option FAttr → Prop} {α β : Type} {d : Nat → Dec α} {μ : α → Nat} {ν : β → Nat} {A C : Nat} (f : α → β) :
      Bounded Γ K P α d μ A C → (∀ a, ν (f a) = μ a) →
      Bounded Γ K P β (fun n ca fa => do
        let a ← d n ca fa
        return f a) ν A C
  | weaken {P P' : Option FAttr → Prop} {α : Type} {d : Nat → Dec α} {μ : α → Nat} {A A' C C' : Nat} :
      Bounded Γ K P α d μ A C → (∀ fa, P' fa → P fa) → A ≤ A' → C ≤ C' → Bounded Γ K P' α d μ A' C'
  | struct {P : Option FAttr → Prop} {V : Type} {μ : V → Nat} {A : Nat} (S : Nat → StructDef V) (keep : Bool)
      (xs : List (Spec V)) : (∀ n, (S n).withDecode = none ∧ (S n).tuple = keep ∧ (S n).fields = xs.map (·.at n)) →
      Chain keep (· = none) xs → (∀ x ∈ xs, FieldCost μ x ∧ x.perByte ≤ A) →
      (∀ x ∈ xs, Bounded Γ K x.fits V x.dec μ x.perByte x.fixed) →
      Bounded Γ K P (List V) (fun n => decStruct (S n)) (fun vs => 1 + sizes μ vs) A (1 + (xs.map (·.fixed)).sum)
  /-- A struct one field of which consumes a byte that pays for what is fixed in it. -/
  | headed {P : Option FAttr → Prop} {V : Type} {μ : V → Nat} {A : Nat} (S : Nat → StructDef V) (keep : Bool)
      (pre : List (Spec V)) (x : Spec V) (post : List (Spec V)) :
      (∀ n, (S n).withDecode = none ∧ (S n).tuple = keep ∧ (S n).fields = (pre ++ x :: post).map (·.at n)) →
      Chain keep (· = none) (pre ++ x :: post) → (∀ y ∈ pre ++ x :: post, FieldCost μ y ∧ y.perByte ≤ A) →
      (∀ y ∈ pre ++ x :: post, Bounded Γ K y.fits V y.dec μ y.perByte y.fixed) → (∀ n, x.Eats n) →
      x.perByte + ((pre ++ x :: post).map (·.fixed)).sum + 1 ≤ A →
      Bounded Γ K P (List V) (fun n => decStruct (S n)) (fun vs => 1 + sizes μ vs) A 0
  | enum {P : Option FAttr → Prop} {V : Type} {μ : V → Nat} {A C : Nat} (E : Nat → EnumDef V) (ws : List (VSpec V)) :
      (∀ n, (E n).withDecode = none ∧ (E n).variants = ws.map (·.at n)) → (∀ w ∈ ws, VCost w) →
      (∀ w ∈ ws, ∀ x ∈ w.specs, FieldCost μ x ∧ x.perByte ≤ A) →
      (∀ w ∈ ws, ∀ x ∈ w.specs, Bounded Γ K x.fits V x.dec μ x.perByte x.fixed) →
      (∀ w ∈ ws, (w.specs.map (·.fixed)).sum ≤ C) →
      Bounded Γ K P (Nat × List V) (fun n => decEnum (E n)) (armSize μ) A (1 + C)
  /-- An enum whose tag is on the wire and pays for what is fixed in it. -/
  | tagged {P : Option FAttr → Prop} {V : Type} {μ : V → Nat} {A C : Nat} (E : Nat → EnumDef V) (ws : List (VSpec V)) :
      (∀ n, (E n).withDecode = none ∧ (E n).variants = ws.map (·.at n)) → (∀ w ∈ ws, VCost w) →
      (∀ w ∈ ws, ∀ x ∈ w.specs, FieldCost μ x ∧ x.perByte ≤ A) →
      (∀ w ∈ ws, ∀ x ∈ w.specs, Bounded Γ K x.fits V x.dec μ x.perByte x.fixed) →
      (∀ w ∈ ws, (w.specs.map (·.fixed)).sum ≤ C) → (∀ n, TagEats (E n) P) → 1 + C ≤ A →
      Bounded Γ K P (Nat × List V) (fun n => decEnum (E n)) (armSize μ) A 0

/-- What is known of the types in `Γ`. -/
def Known (Γ : (Option FAttr → Prop) → (α : Type) → (Nat → Dec α) → (α → Nat) → Prop) (K n : Nat) : Prop :=
  ∀ P β e ν, Γ P β e ν → (∀ ca fa, Inside (e n ca fa)) ∧ ∀ ca fa, P fa → Costs ν K 0 (e n ca fa)

theorem Costs.succ {μ : α → Nat} {A C : Nat} {m : M α} (h : Costs μ A C m) :
    Costs (fun v => 1 + μ v) A (1 + C) m := by
  intro b hb v b' e
  have := h b hb v b' e
  dsimp only
  omega

theorem Costs.orEat {μ : α → Nat} {A C : Nat} {m : M α} (h : Costs μ A C m) (he : C = 0 ∨ Eats m) :
    Costs μ (A + C) 0 m := by
  rcases he with rfl | he
  · exact h
  · exact h.eat he

theorem Bounded.costs {Γ : (Option FAttr → Prop) → (α : Type) → (Nat → Dec α) → (α → Nat) → Prop} {K : Nat}
    {P : Option FAttr → Prop} {d : Nat → Dec α} {μ : α → Nat} {A C : Nat} (h : Bounded Γ K P α d μ A C) (n : Nat)
    (hΓ : Known Γ K n) :
    (∀ ca fa, Inside (d n ca fa)) ∧ ∀ ca fa, P fa → Costs μ A C (d n ca fa) := by
  induction h with
  | var h => exact hΓ _ _ _ _ h
  | int k =>
    exact ⟨fun ca fa => (Good.decInt (p := false) (t := false) (N := 0) k ca fa fun h => nomatch h).1,
      fun ca fa _ => Costs.const fun _ => Nat.le_refl _⟩
  | f32 => exact ⟨fun ca fa => (tame_takeScalar _ _).inside, fun ca fa _ => Costs.const fun _ => Nat.le_refl _⟩
  | f64 => exact ⟨fun ca fa => (tame_takeScalar _ _).inside, fun ca fa _ => Costs.const fun _ => Nat.le_refl _⟩
  | bool => exact ⟨fun ca fa => tame_takeBool.inside, fun ca fa _ => Costs.const fun _ => Nat.le_refl _⟩
  | char => exact ⟨fun ca fa => tame_takeChar.inside, fun ca fa _ => Costs.const fun _ => Nat.le_refl _⟩
  | bytes => exact ⟨inside_decBytes, fun ca fa _ => (costs_decBytes ca fa).succ⟩
  | str => exact ⟨inside_decStr, fun ca fa _ => (costs_decStr ca fa).succ⟩
  | ipv4 =>
    exact ⟨fun ca fa => (Good.decIpv4 (p := false) (t := false) (N := 0) ca fa).1,
      fun ca fa _ => Costs.const fun _ => Nat.le_refl _⟩
  | ipv6 =>
    exact ⟨fun ca fa => (Good.decIpv6 (p := false) (t := false) (N := 0) ca fa).1,
      fun ca fa _ => Costs.const fun _ => Nat.le_refl _⟩
  | ip =>
    exact ⟨fun ca fa => (Good.decIpAddr (p := false) (t := false) (N := 0) ca fa).1,
      fun ca fa _ => Costs.const fun _ => Nat.le_refl _⟩
  | mac =>
    exact ⟨fun ca fa => (Good.decMac (p := false) (t := false) (N := 0) ca fa).1,
      fun ca fa _ => Costs.const fun _ => Nat.le_refl _⟩
  | net =>
    exact ⟨fun ca fa => (Good.decNet (p := false) (t := false) (N := 0) ca fa).1,
      fun ca fa _ => Costs.const fun _ => Nat.le_refl _⟩
  | unit => exact ⟨fun ca fa => Inside.pure _, fun ca fa _ => Costs.const fun _ => Nat.le_refl _⟩
  | vec _ he ih =>
    refine ⟨fun ca fa => (Good.decVec (p := false) (t := false) (N := 0) n (ih.1 ca fa).toGood
      (fun h => nomatch h) fun h => nomatch h).1, fun ca fa hfa => ?_⟩
    exact (Costs.decVec n (ih.1 ca fa) ((ih.2 ca fa hfa).orEat (he.imp id fun h => h n ca fa hfa))).succ
  | set _ he ih =>
    have hi : ∀ ca fa, Inside (decCounted _ ca fa) := fun ca fa =>
      (Good.decCounted (p := false) (t := false) (N := 0) (ih.1 ca fa).toGood fun h => nomatch h).1
    refine ⟨fun ca fa => (hi ca fa).bind fun _ => Inside.pure _, fun ca fa hfa => ?_⟩
    have := Costs.counted (ih.1 ca fa) ((ih.2 ca fa hfa).orEat (he.imp id fun h => h n ca fa hfa)) ca fa
    refine Costs.succ (C := 0) ?_
    exact Costs.map (hi ca fa) this _ fun l => Nat.le_trans (sizes_set _ l []) (by simp [sizes])
  | map hk hv hp he ihk ihv =>
    refine ⟨fun ca fa => (Good.decMap (p := false) (t := false) (N := 0) (ihk.1 ca _).toGood (ihv.1 ca _).toGood
      fun h => nomatch h).1, fun ca fa hfa => ?_⟩
    have hi := inside_decEntry (ihk.1 ca (keyFattr fa)) (ihv.1 ca (valFattr fa))
    have hc := Costs.decEntry (ihk.1 ca (keyFattr fa)) (ihk.2 ca _ (hp fa hfa).1) (ihv.1 ca (valFattr fa))
      (ihv.2 ca _ (hp fa hfa).2)
    have := Costs.counted hi (hc.orEat (he.imp id fun h => h n ca fa hfa)) ca fa
    refine Costs.succ (C := 0) ?_
    refine Costs.map ?_ this _ fun l => ?_
    · refine (inside_getCount ca fa).bind fun x => ?_
      obtain ⟨m, t⟩ := x
      cases t with
      | none => exact hi.repeatM m
      | some t => exact hi.tryRepeatM t
    · exact Nat.le_trans (sizes_map _ _ l [] (by simp)) (by simp [sizes])
  | array k _ ih => exact ⟨fun ca fa => (ih.1 ca fa).repeatM k, fun ca fa hfa => ((ih.2 ca fa hfa).repeatM (ih.1 ca fa) k).succ⟩
  | tuple ds _ ih =>
    have e : ∀ n : Nat, ds.map (·.1 n) = (ds.map fun d => (d.1 n, d.2)).map Prod.fst := fun n => by
      rw [List.map_map]; rfl
    have e' : (ds.map Prod.snd).sum = ((ds.map fun d => (d.1 n, d.2)).map Prod.snd).sum := by
      rw [List.map_map]; rfl
    refine ⟨fun ca fa => ?_, fun ca fa hfa => ?_⟩
    · refine (Good.decTuple (p := false) (t := false) (N := 0) _ fun x hx => ?_).1
      obtain ⟨d, hd, rfl⟩ := List.mem_map.mp hx
      exact ((ih d hd).1 ca fa).toGood
    · dsimp only
      rw [e', e n]
      refine (Costs.decTuple _ fun x hx => ?_).succ
      obtain ⟨d, hd, rfl⟩ := List.mem_map.mp hx
      exact ⟨(ih d hd).1 ca fa, (ih d hd).2 ca fa hfa⟩
  | option _ ih =>
    refine ⟨fun ca fa => (Good.decOption (p := false) (t := false) (N := 0) (ih.1 ca fa).toGood).1, fun ca fa hfa => ?_⟩
    show Costs _ _ _ (if _ then _ else _)
    split
    · exact Costs.pure (Nat.le_add_right _ _)
    · exact Costs.succ ((ih.2 ca fa hfa).attempt (Nat.zero_le _) fun _ => Nat.le_refl _)
  | inject f _ hf ih =>
    exact ⟨fun ca fa => (ih.1 ca fa).bind fun _ => Inside.pure _,
      fun ca fa hfa => Costs.map (ih.1 ca fa) (ih.2 ca fa hfa) f fun a => Nat.le_of_eq (hf a)⟩
  | weaken _ hP hA hC ih =>
    exact ⟨ih.1, fun ca fa hfa => (ih.2 ca fa (hP fa hfa)).mono hA hC fun _ => Nat.le_refl _⟩
  | struct S keep xs hS hch hx _ ih =>
    obtain ⟨h1, h2, h3⟩ := hS n
    have hg : ∀ x ∈ xs, x.Good _ n := fun x hxm => ⟨(hx x hxm).1, (ih x hxm).1, (ih x hxm).2⟩
    have e : ∀ ca fa, decStruct (S n) ca fa = decFields keep (xs.map (·.at n)) (S n).container none
        { vars := localVars (S n).getVars ca } := fun ca fa => by rw [decStruct, h1, h2, h3]
    refine ⟨fun ca fa => ?_, fun ca fa _ => ?_⟩
    · dsimp only
      rw [e]
      exact inside_specs hg _ _ _
    · dsimp only
      rw [e]
      exact (Costs.decFields xs (· = none) _ none _ rfl hch fun x hxm => ⟨hg x hxm, (hx x hxm).2⟩).succ
  | headed S keep pre x post hS hch hx _ he hA ih =>
    obtain ⟨h1, h2, h3⟩ := hS n
    have hg : ∀ y ∈ pre ++ x :: post, y.Good _ n := fun y hy => ⟨(hx y hy).1, (ih y hy).1, (ih y hy).2⟩
    have e : ∀ ca fa, decStruct (S n) ca fa = decFields keep ((pre ++ x :: post).map (·.at n)) (S n).container none
        { vars := localVars (S n).getVars ca } := fun ca fa => by rw [decStruct, h1, h2, h3]
    refine ⟨fun ca fa => ?_, fun ca fa _ => ?_⟩
    · dsimp only
      rw [e]
      exact inside_specs hg _ _ _
    · dsimp only
      rw [e]
      exact (Costs.headed x post pre 1 (· = none) _ none _ rfl hch (fun y hy => ⟨hg y hy, (hx y hy).2⟩) (he n)
        hA).mono (Nat.le_refl _) (Nat.le_refl _) fun v => by omega
  | @enum P V μ' A' C' E ws hE hw hx _ hC ih =>
    obtain ⟨h1, h2⟩ := hE n
    have hv : ∀ v ∈ (E n).variants, ∀ own env i, Inside (decVariant own env i v) ∧
        Costs (armSize μ') A' (1 + C') (decVariant own env i v) := by
      intro v hv own env i
      rw [h2] at hv
      obtain ⟨w, hwm, rfl⟩ := List.mem_map.mp hv
      refine ⟨inside_arm (hw w hwm) (fun x hxm => ⟨(hx w hwm x hxm).1, (ih w hwm x hxm).1, (ih w hwm x hxm).2⟩) own env i,
        (costs_arm (hw w hwm) (fun x hxm => ⟨⟨(hx w hwm x hxm).1, (ih w hwm x hxm).1, (ih w hwm x hxm).2⟩,
          (hx w hwm x hxm).2⟩) own env i).mono (Nat.le_refl _) (Nat.add_le_add_left (hC w hwm) 1) fun _ => Nat.le_refl _⟩
    exact ⟨fun ca fa => inside_enum h1 (fun v h own env i => (hv v h own env i).1) ca fa,
      fun ca fa _ => costs_enum h1 hv ca fa⟩
  | @tagged P V μ' A' C' E ws hE hw hx _ hC ht hA ih =>
    obtain ⟨h1, h2⟩ := hE n
    have hv : ∀ v ∈ (E n).variants, ∀ own env i, Inside (decVariant own env i v) ∧
        Costs (armSize μ') A' (1 + C') (decVariant own env i v) := by
      intro v hv own env i
      rw [h2] at hv
      obtain ⟨w, hwm, rfl⟩ := List.mem_map.mp hv
      refine ⟨inside_arm (hw w hwm) (fun x hxm => ⟨(hx w hwm x hxm).1, (ih w hwm x hxm).1, (ih w hwm x hxm).2⟩) own env i,
        (costs_arm (hw w hwm) (fun x hxm => ⟨⟨(hx w hwm x hxm).1, (ih w hwm x hxm).1, (ih w hwm x hxm).2⟩,
          (hx w hwm x hxm).2⟩) own env i).mono (Nat.le_refl _) (Nat.add_le_add_left (hC w hwm) 1) fun _ => Nat.le_refl _⟩
    exact ⟨fun ca fa => inside_enum h1 (fun v h own env i => (hv v h own env i).1) ca fa,
      fun ca fa hfa => costs_enum_paid h1 (ht n) hv (Nat.le_refl _) hA ca hfa⟩

/-! ## The bound -/

/-- No types are being defined. -/
def Closed : (Option FAttr → Prop) → (α : Type) → (Nat → Dec α) → (α → Nat) → Prop := fun _ _ _ _ => False

/-- C96: what is decoded has at most `A` parts for each byte consumed, and `C` besides, where `A` and `C` are counted
from the definition of the type. -/
theorem C96_decode_partial {K A C : Nat} {P : Option FAttr → Prop} (d : Nat → Dec α) (μ : α → Nat)
    (h : Bounded Closed K P α d μ A C) (fuel : Nat) (ca : Option CAttr) (fa : Option FAttr) (hfa : P fa)
    (b : Buf) (hb : b.Ok) (v : α) (b' : Buf) (hd : d fuel ca fa b = (.ok v, b')) :
    μ v ≤ A * (b'.pos - b.pos) + C ∧ b'.pos ≤ b.data.length := by
  have hc := h.costs fuel fun _ _ _ _ h => h.elim
  refine ⟨hc.2 ca fa hfa b hb v b' hd, ?_⟩
  have := (hc.1 ca fa b hb).2.2
  rwa [hd] at this

/-- C96, `jbytes::decode`: the parts of the value are bounded by the length of the input. -/
theorem C96_top_partial {K A C : Nat} {P : Option FAttr → Prop} (d : Nat → Dec α) (μ : α → Nat)
    (h : Bounded Closed K P α d μ A C) (hP : P none) (fuel : Nat) (input : List Byte) (hl : input.length ≤ isizeMax)
    (v : α) (hd : decodeTop (d fuel) input = .ok v) : μ v ≤ A * input.length + C := by
  rcases hx : d fuel none none (Buf.ofBytes input) with ⟨o, b'⟩
  unfold decodeTop at hd
  rw [hx] at hd
  dsimp only at hd
  subst hd
  obtain ⟨h1, h2⟩ := C96_decode_partial d μ h fuel none none hP (Buf.ofBytes input) ⟨Nat.zero_le _, hl⟩ v b' hx
  have h3 : b'.pos - (Buf.ofBytes input).pos ≤ input.length := Nat.le_trans (Nat.sub_le _ _) h2
  exact Nat.le_trans h1 (Nat.add_le_add_right (Nat.mul_le_mul_left _ h3) _)

/-- The types of a recursive family, with what measures them. -/
inductive AmongSized {ι : Type} {T : ι → Type} (P : ι → Option FAttr → Prop) (d : (i : ι) → Nat → Dec (T i))
    (μ : (i : ι) → T i → Nat) : (Option FAttr → Prop) → (α : Type) → (Nat → Dec α) → (α → Nat) → Prop
  | mk (i : ι) : AmongSized P d μ (P i) (T i) (d i) (μ i)

/-- C96, recursive types: when every definition of the family pays for itself with the bytes it consumes, values of
any depth have at most `K` parts for each byte. -/
theorem C96_recursive_partial {ι : Type} {T : ι → Type} (F : ((i : ι) → Nat → Dec (T i)) → (i : ι) → Nat → Dec (T i))
    (μ : (i : ι) → T i → Nat) (P : ι → Option FAttr → Prop) (K : Nat)
    (hF : ∀ d i, Bounded (AmongSized P d μ) K (P i) (T i) (F d i) (μ i) K 0) (depth fuel : Nat) (i : ι)
    (ca : Option CAttr) (fa : Option FAttr) (hfa : P i fa) (b : Buf) (hb : b.Ok) (v : T i) (b' : Buf)
    (hd : decRec F depth i fuel ca fa b = (.ok v, b')) :
    μ i v ≤ K * (b'.pos - b.pos) ∧ b'.pos ≤ b.data.length := by
  have key : ∀ k i, (∀ ca fa, Inside (decRec F k i fuel ca fa)) ∧
      ∀ ca fa, P i fa → Costs (μ i) K 0 (decRec F k i fuel ca fa) := by
    intro k
    induction k with
    | zero => exact fun i => ⟨fun ca fa => Inside.timeout, fun ca fa _ => Costs.of_not_ok fun _ _ _ h => by cases h⟩
    | succ k ih =>
      intro i
      refine (hF (decRec F k) i).costs fuel ?_
      rintro _ _ _ _ ⟨j⟩
      exact ih j
  refine ⟨(key depth i).2 ca fa hfa b hb v b' hd, ?_⟩
  have := ((key depth i).1 ca fa b hb).2.2
  rwa [hd] at this

/-! ## Types whose elements cost nothing -/

/-- A number of `k` bytes at the position, most significant first. -/
theorem takeUint_toBE {k m : Nat} (hk : k ≤ 8) (hm : m < 256 ^ k) (pre suf : List Byte)
    (hs : (pre ++ toBE k m ++ suf).length ≤ isizeMax) :
    takeUint k .be ⟨pre ++ toBE k m ++ suf, pre.length⟩ = (.ok m, ⟨pre ++ toBE k m ++ suf, pre.length + k⟩) := by
  have hb : (⟨pre ++ toBE k m ++ suf, pre.length⟩ : Buf).Ok := ⟨by simp, hs⟩
  show takeN .be 8 k _ = _
  rw [takeN_apply .be 8 k hk, mapM'_apply, takeBytes_apply k _ hb, if_neg (by simp)]
  simp only [List.append_assoc, List.drop_left, fromBytes]
  rw [show List.take k (toBE k m ++ suf) = toBE k m by
    rw [List.take_append_of_le_length (by simp)]; exact List.take_of_length_le (by simp)]
  rw [beVal_toBE, Nat.mod_eq_of_lt hm]

theorem repeatM_still {m : M α} {a : α} {b : Buf} (h : m b = (.ok a, b)) (n : Nat) :
    repeatM m n b = (.ok (List.replicate n a), b) := by
  induction n with
  | zero => rfl
  | succ n ih => rw [repeatM, bind_apply, h]; dsimp only; rw [bind_apply, ih]; rfl

/-- C96 fails for elements without a width: a list of `Mark` (or `PhantomData`) with a count of eight bytes is decoded
from eight bytes to as many elements as one likes. -/
theorem C96_mark_violated (m : Nat) (hm : m < 2 ^ 64) (fuel : Nat) :
    decVec fuel decUnit none (some { byteCountOutside := some 8 }) ⟨toBE 8 m, 0⟩ =
      (.ok (List.replicate m ()), ⟨toBE 8 m, 8⟩) := by
  have h := takeUint_toBE (k := 8) (m := m) (by omega) hm [] [] (by simp [isizeMax_def])
  simp only [List.nil_append, List.append_nil, List.length_nil, Nat.zero_add] at h
  show ((do
    let n ← takeUint 8 .be
    return (n, none)) >>= fun x => match x.2 with
      | some t => tryRepeatM (decUnit none (some { byteCountOutside := some 8 })) t
      | none => repeatM (decUnit none (some { byteCountOutside := some 8 })) x.1 : M (List Unit)) _ = _
  rw [bind_apply, bind_apply, h]
  exact repeatM_still rfl m

/-- Field values of the examples: a number, bytes, or numbers. -/
inductive BombVal where
  | num (n : Nat)
  | bytes (l : List Byte)
  | nums (l : List Nat)
  deriving DecidableEq

/-- The parts of a field value. -/
def BombVal.size : BombVal → Nat
  | .num _ => 1
  | .bytes l => 1 + l.length
  | .nums l => 1 + sizes (fun _ => 1) l

/-- `width: u8` -/
def widthField : Field BombVal := ⟨{}, fun ca fa => do
    let a ← decInt ⟨1, false⟩ ca fa
    return .num a, fun _ _ _ => M.timeout, .num 0, .num 0⟩

/-- `#[jbytes(length = "width", byte_count_outside = 4)]` -/
def sampleAttrs : FieldAttrs BombVal :=
  { isUse := true
    length := some fun env => match env.fields with | [.num n] => n | _ => 0
    byteCountOutside := some fun _ => 4 }

/-- `xs: Vec<u32>` -/
def samplesField (n : Nat) : Field BombVal := ⟨sampleAttrs, fun ca fa => do
    let a ← decVec n (decInt ⟨4, false⟩) ca fa
    return .nums a, fun _ _ _ => M.timeout, .num 0, .num 0⟩

/-- `struct Samples { width: u8, #[jbytes(length = "width", byte_count_outside = 4)] xs: Vec<u32> }` -/
def samples (n : Nat) : StructDef BombVal := { fields := [widthField, samplesField n] }

/-- C96 fails where the width of the elements comes from the input: five bytes are decoded to any number of elements
below 2^32, each of them a `u32`. -/
theorem C96_width_violated (m : Nat) (hm : m < 2 ^ 32) (fuel : Nat) :
    decStruct (samples fuel) none none ⟨0 :: toBE 4 m, 0⟩ =
        (.ok [.num 0, .nums (List.replicate m 0)], ⟨0 :: toBE 4 m, 5⟩) ∧
      1 + sizes BombVal.size [.num 0, .nums (List.replicate m 0)] = m + 3 := by
  refine ⟨?_, by simp [sizes, BombVal.size]; omega⟩
  have hs : (0 :: toBE 4 m : List Byte).length ≤ isizeMax := by simp [isizeMax_def]
  have h := takeUint_toBE (k := 4) (m := m) (by omega) hm [0] [] (by simpa using hs)
  have h0 : ∀ (fr : FAttr), fr.length = some 0 → fr.bits = none →
      decInt ⟨4, false⟩ none (some fr) ⟨0 :: toBE 4 m, 5⟩ = (.ok 0, ⟨0 :: toBE 4 m, 5⟩) := by
    intro fr h1 h2
    have ht : ∀ o, takeUint 0 o ⟨0 :: toBE 4 m, 5⟩ = (.ok 0, ⟨0 :: toBE 4 m, 5⟩) := by
      intro o
      show takeN o 8 0 _ = _
      rw [takeN_apply o 8 0 (by omega), mapM'_apply, takeBytes_apply 0 _ ⟨by simp, hs⟩, if_neg (by omega)]
      cases o <;> rfl
    unfold decInt decWord
    simp only [Option.bind_some, h1, h2, bind_apply, if_neg (show ¬ (4 : Nat) < 0 by omega), ht]
    rfl
  have h1 : decInt ⟨1, false⟩ none none ⟨0 :: toBE 4 m, 0⟩ = (.ok 0, ⟨0 :: toBE 4 m, 1⟩) := by
    have ht : takeU8 ⟨0 :: toBE 4 m, 0⟩ = (.ok 0, ⟨0 :: toBE 4 m, 1⟩) := by
      unfold takeU8
      rw [bind_apply, takeBytes_apply 1 _ ⟨by simp, hs⟩, if_neg (by simp)]
      rfl
    show ((takeU8 >>= fun x => return x.toNat) >>= fun v => return v) _ = _
    rw [bind_apply, bind_apply, ht]
    rfl
  simp only [List.singleton_append, List.append_nil, List.length_singleton] at h
  have h2 : ∀ env : Env BombVal, env.fields = [.num 0] →
      decVec fuel (decInt ⟨4, false⟩) none (some (sampleAttrs.modifiers none env))
        ⟨0 :: toBE 4 m, 1⟩ = (.ok (List.replicate m 0), ⟨0 :: toBE 4 m, 5⟩) := by
    intro env he
    show ((do
      let n ← takeUint 4 .be
      return (n, none)) >>= fun x => match x.2 with
        | some t => tryRepeatM (decInt ⟨4, false⟩ none (some _)) t
        | none => repeatM (decInt ⟨4, false⟩ none (some _)) x.1 : M (List Nat)) _ = _
    rw [bind_apply, bind_apply, h]
    refine repeatM_still (h0 _ ?_ rfl) m
    show some (match env.fields with | [.num n] => n | _ => 0) = some 0
    rw [he]
  have hf1 : ∀ env : Env BombVal, decField widthField env none none ⟨0 :: toBE 4 m, 0⟩ =
      (.ok (.num 0), ⟨0 :: toBE 4 m, 1⟩) := by
    intro env
    simp [decField, widthField, skipOffset, decPlain, decCond, finishValue, bind_apply, getPos_apply, h1, pure_apply]
  have hf2 : ∀ env : Env BombVal, env.fields = [.num 0] → decField (samplesField fuel) env none
      (some (sampleAttrs.modifiers none env)) ⟨0 :: toBE 4 m, 1⟩ =
      (.ok (.nums (List.replicate m 0)), ⟨0 :: toBE 4 m, 5⟩) := by
    intro env he
    have := h2 env he
    simp only [decField, samplesField, skipOffset, decPlain, decCond, finishValue, bind_apply, getPos_apply,
      pure_apply, this, show sampleAttrs.offset = none from rfl, show sampleAttrs.withDecode = none from rfl,
      show sampleAttrs.skip = false from rfl, show sampleAttrs.skipDecode = false from rfl,
      show sampleAttrs.fromStr = none from rfl, show sampleAttrs.ifExpr = none from rfl,
      show sampleAttrs.untake = false from rfl, show sampleAttrs.valueDecode = none from rfl,
      show sampleAttrs.checkValue = none from rfl, Bool.or_self, Bool.false_eq_true, if_false]
  show decFields false [widthField, samplesField fuel] none none {} ⟨0 :: toBE 4 m, 0⟩ = _
  simp only [decFields, Bool.false_and, Bool.false_eq_true, if_false]
  rw [bind_apply, show (widthField.attrs.toCode {} : M _) = Pure.pure none from rfl, pure_apply]
  dsimp only
  rw [bind_apply, hf1]
  dsimp only
  rw [bind_apply, bind_apply]
  rw [show ∀ env, ((samplesField fuel).attrs.toCode env : M _) = Pure.pure (some (sampleAttrs.modifiers none env))
    from fun env => rfl, pure_apply]
  dsimp only
  rw [bind_apply]
  rw [show cacheVars widthField.attrs none (Env.push {} (BombVal.num 0)) = none from rfl, hf2 _ rfl]
  rfl

/-- `#[jbytes(untake, remaining)]` -/
def peekAttrs : FieldAttrs BombVal := { isUse := true, untake := true, remaining := true }

/-- `rest: &[u8]` -/
def peekField : Field BombVal := ⟨peekAttrs, fun ca fa => do
    let a ← decBytes ca fa
    return .bytes a, fun _ _ _ => M.timeout, .num 0, .num 0⟩

/-- `struct Peek { #[jbytes(untake, remaining)] rest: &[u8], x: u8 }` -/
def peek : StructDef BombVal := { fields := [peekField, widthField] }

theorem peek_apply (D : List Byte) (p : Nat) (hp : p < D.length) (hs : D.length ≤ isizeMax) (ca : Option CAttr)
    (fa : Option FAttr) : ∃ x, decStruct peek ca fa ⟨D, p⟩ = (.ok [.bytes (D.drop p), .num x], ⟨D, p + 1⟩) := by
  have hb : (⟨D, p⟩ : Buf).Ok := ⟨Nat.le_of_lt hp, hs⟩
  have h1 : ∀ env : Env BombVal, decField peekField env none (some (peekAttrs.modifiers none env)) ⟨D, p⟩ =
      (.ok (.bytes (D.drop p)), ⟨D, p⟩) := by
    intro env
    have hd : decBytes none (some (peekAttrs.modifiers none env)) ⟨D, p⟩ = (.ok (D.drop p), ⟨D, D.length⟩) := by
      show (Pure.pure () >>= fun _ => Pure.pure () >>= fun _ => remainingLen >>= fun n => takeBytes n : M _) _ = _
      rw [bind_apply, pure_apply]
      dsimp only
      rw [bind_apply, pure_apply]
      dsimp only
      rw [bind_apply, remainingLen_apply]
      dsimp only
      rw [takeBytes_apply _ _ hb]
      dsimp only
      simp only [Nat.lt_irrefl, if_false, Nat.add_sub_cancel' (Nat.le_of_lt hp)]
      rw [List.take_of_length_le (by simp)]
    simp only [decField, peekField, skipOffset, decPlain, decCond, finishValue, bind_apply, getPos_apply, setPos_apply,
      pure_apply, hd, show peekAttrs.offset = none from rfl, show peekAttrs.withDecode = none from rfl,
      show peekAttrs.skip = false from rfl, show peekAttrs.skipDecode = false from rfl,
      show peekAttrs.fromStr = none from rfl, show peekAttrs.ifExpr = none from rfl,
      show peekAttrs.untake = true from rfl, show peekAttrs.valueDecode = none from rfl,
      show peekAttrs.checkValue = none from rfl, Bool.or_self, Bool.false_eq_true, if_false, if_true]
  have h2 : ∀ (ca : Option CAttr) (env : Env BombVal), ∃ x, decField widthField env ca none ⟨D, p⟩ = (.ok (.num x), ⟨D, p + 1⟩) := by
    intro ca env
    have hx : ∃ x, decInt ⟨1, false⟩ ca none ⟨D, p⟩ = (.ok x, ⟨D, p + 1⟩) := by
      have ht : ∃ x, takeU8 ⟨D, p⟩ = (.ok x, ⟨D, p + 1⟩) := by
        unfold takeU8
        rw [bind_apply, takeBytes_apply 1 _ hb, if_neg (by show ¬ D.length - p < 1; omega)]
        dsimp only
        cases hd : D.drop p with
        | nil => rw [List.drop_eq_nil_iff] at hd; omega
        | cons x xs => exact ⟨x, rfl⟩
      obtain ⟨x, ht⟩ := ht
      refine ⟨x.toNat, ?_⟩
      show ((takeU8 >>= fun x => return x.toNat) >>= fun v => return v) _ = _
      rw [bind_apply, bind_apply, ht]
      rfl
    obtain ⟨x, hx⟩ := hx
    refine ⟨x, ?_⟩
    simp [decField, widthField, skipOffset, decPlain, decCond, finishValue, bind_apply, getPos_apply, hx, pure_apply]
  obtain ⟨x, hx⟩ := h2 none (Env.push { vars := localVars peek.getVars ca } (BombVal.bytes (D.drop p)))
  refine ⟨x, ?_⟩
  show decFields false [peekField, widthField] none none { vars := localVars peek.getVars ca } ⟨D, p⟩ = _
  simp only [decFields, Bool.false_and, Bool.false_eq_true, if_false]
  rw [bind_apply, show ∀ env, (peekField.attrs.toCode env : M _) = Pure.pure (some (peekAttrs.modifiers none env))
    from fun env => rfl, pure_apply]
  dsimp only
  rw [bind_apply, h1]
  dsimp only
  rw [bind_apply, bind_apply, show ∀ env, (widthField.attrs.toCode env : M _) = Pure.pure none from fun _ => rfl,
    pure_apply]
  dsimp only
  rw [bind_apply]
  rw [show ∀ env, cacheVars peekField.attrs none env = none from fun _ => rfl, hx]
  rfl

theorem peeks_apply (D : List Byte) (hs : D.length ≤ isizeMax) (ca : Option CAttr) (fa : Option FAttr) : ∀ (k p : Nat),
    p + k = D.length → ∃ l, repeatM (decStruct peek ca fa) k ⟨D, p⟩ = (.ok l, ⟨D, D.length⟩) ∧
      k * k ≤ 2 * sizes (fun vs => 1 + sizes BombVal.size vs) l := by
  intro k
  induction k with
  | zero => intro p hp; exact ⟨[], by rw [← hp]; rfl, by simp⟩
  | succ k ih =>
    intro p hp
    obtain ⟨x, hx⟩ := peek_apply D p (by omega) hs ca fa
    obtain ⟨l, hl, hk⟩ := ih (p + 1) (by omega)
    refine ⟨[.bytes (D.drop p), .num x] :: l, ?_, ?_⟩
    · rw [repeatM, bind_apply, hx]
      dsimp only
      rw [bind_apply, hl]
      rfl
    · rw [sizes_cons]
      have h1 : 1 + sizes BombVal.size [.bytes (D.drop p), .num x] = 3 + (k + 1) := by
        simp [sizes, BombVal.size]
        omega
      rw [h1]
      have : (k + 1) * (k + 1) = k * k + 2 * k + 1 := by
        rw [Nat.add_mul, Nat.mul_add]
        omega
      omega

/-- C96 fails for `untake`: a list of structs that look at the rest of the input without taking it grows with the
square of the length of the input. -/
theorem C96_untake_violated (k : Nat) (hk : k + 8 ≤ isizeMax) (fuel : Nat) : ∃ l,
    decVec fuel (decStruct peek) none (some { byteCountOutside := some 8 }) ⟨toBE 8 k ++ List.replicate k 0, 0⟩ =
        (.ok l, ⟨toBE 8 k ++ List.replicate k 0, 8 + k⟩) ∧
      k * k ≤ 2 * sizes (fun vs => 1 + sizes BombVal.size vs) l := by
  have h3 := isizeMax_lt
  have hlen : (toBE 8 k ++ List.replicate k (0 : Byte)).length = 8 + k := by simp
  have h := takeUint_toBE (k := 8) (m := k) (by omega)
    (by rw [isizeMax_def] at hk; have : (256 : Nat) ^ 8 = 18446744073709551616 := by decide
        omega) [] (List.replicate k 0)
    (by simp; omega)
  simp only [List.nil_append, List.length_nil, Nat.zero_add] at h
  obtain ⟨l, h1, h2⟩ := peeks_apply (toBE 8 k ++ List.replicate k 0) (by omega) none
    (some { byteCountOutside := some 8 }) k 8 (by omega)
  refine ⟨l, ?_, h2⟩
  show ((do
    let n ← takeUint 8 .be
    return (n, none)) >>= fun x => match x.2 with
      | some t => tryRepeatM (decStruct peek none (some { byteCountOutside := some 8 })) t
      | none => repeatM (decStruct peek none (some { byteCountOutside := some 8 })) x.1 : M (List (List BombVal))) _ = _
  rw [bind_apply, bind_apply, h]
  rw [hlen] at h1
  exact h1

/-! ## Examples -/

/-- The parts of a field value of `message`. -/
def Part.size : Part → Nat
  | .num _ => 1
  | .bytes l => 1 + l.length
  | .choices l => 1 + sizes (armSize fun _ => 1) l

/-- A field without attributes. -/
theorem plainCost {μ : V → Nat} {f : Field V} (h : f.attrs = {}) (d : Nat → Dec V) (a c : Nat) :
    FieldCost μ ⟨f, d, fun _ => True, a, c⟩ := by
  constructor <;> simp [h]

/-- `Kind`, a list of which has two parts for each byte of a tag. -/
theorem kind_bounded {P : Option FAttr → Prop} {K : Nat}
    (hP : ∀ fr, P (some fr) → fr.branch = none ∧ fr.byteCount ≠ some 0) :
    Bounded Closed K P (Nat × List Val) (fun _ => decEnum kindEnum) (armSize fun _ => 1) 2 0 := by
  refine Bounded.tagged (C := 1) (fun _ => kindEnum)
    [⟨{ name := [97], tuple := true }, [⟨u8Field {}, fun _ => numDec ⟨1, false⟩, fun _ => True, 0, 1⟩], fun _ => True⟩,
      ⟨{ name := [98], branchValue := some (.num 7) },
        [⟨u16Field { isUse := true, length := some fun _ => 1 }, fun _ => numDec ⟨2, false⟩, fun _ => True, 0, 1⟩],
        fun _ => True⟩] (fun n => ⟨rfl, rfl⟩) ?_ ?_ ?_ ?_ ?_ (Nat.le_refl _)
  · intro w hw
    simp only [List.mem_cons, List.not_mem_nil, or_false] at hw
    rcases hw with rfl | rfl <;> constructor <;> simp [Chain]
  · intro w hw x hx
    simp only [List.mem_cons, List.not_mem_nil, or_false] at hw
    rcases hw with rfl | rfl <;> simp only [List.mem_cons, List.not_mem_nil, or_false] at hx <;> subst hx <;>
      refine ⟨?_, by decide⟩ <;> constructor <;> simp [u8Field, u16Field]
  · intro w hw x hx
    simp only [List.mem_cons, List.not_mem_nil, or_false] at hw
    rcases hw with rfl | rfl <;> simp only [List.mem_cons, List.not_mem_nil, or_false] at hx <;> subst hx <;>
      exact .inject Val.num (.int _) fun _ => rfl
  · intro w hw
    simp only [List.mem_cons, List.not_mem_nil, or_false] at hw
    rcases hw with rfl | rfl <;> decide
  · intro n
    exact ⟨by decide, hP⟩

/-- `message`: two parts for each byte, and four besides (the struct, the length, the bytes and the list). -/
theorem message_bounded {P : Option FAttr → Prop} {K : Nat} :
    Bounded Closed K P (List Part) (fun n => decStruct (message n)) (fun vs => 1 + sizes Part.size vs) 2 4 := by
  refine Bounded.struct message false
    [⟨lenField, fun _ => lenField.dec, fun _ => True, 0, 1⟩, ⟨bodyField, fun _ => bodyField.dec, fun _ => True, 1, 1⟩,
      ⟨kindsField 0, fun n => (kindsField n).dec, FaGiven (kindsField 0).attrs, 2, 1⟩]
    (fun n => ⟨rfl, rfl, rfl⟩) ?_ ?_ ?_
  · simp [Chain]
  · intro x hx
    simp only [List.mem_cons, List.not_mem_nil, or_false] at hx
    rcases hx with rfl | rfl | rfl
    · exact ⟨plainCost rfl _ _ _, by decide⟩
    · refine ⟨?_, by decide⟩
      constructor <;> simp [bodyField]
    · refine ⟨?_, by decide⟩
      constructor <;> simp [kindsField]
  · intro x hx
    simp only [List.mem_cons, List.not_mem_nil, or_false] at hx
    rcases hx with rfl | rfl | rfl
    · exact .inject Part.num (.int _) fun _ => rfl
    · exact .inject Part.bytes .bytes fun _ => rfl
    · refine .inject Part.choices (.vec (C := 0) (kind_bounded fun fr hfr => ?_) (.inl rfl)) fun _ => rfl
      rcases hfr with ⟨_, h⟩ | ⟨_, o, env, h⟩
      · cases h
      · cases h
        exact ⟨rfl, by simp [FieldAttrs.modifiers, kindsField]⟩

/-- C96: a `Vec<u32>` has at most one part for each byte, and one for itself. -/
example (fuel : Nat) (b : Buf) (hb : b.Ok) (v : List Nat) (b' : Buf)
    (h : decVec fuel (decInt ⟨4, false⟩) none none b = (.ok v, b')) : 1 + v.length ≤ (b'.pos - b.pos) + 1 := by
  have := (C96_decode_partial (K := 0) (P := (· = none)) (fun n => decVec n (decInt ⟨4, false⟩)) _
    (.vec (.int _) (.inr fun n ca fa hfa => eats_decInt (.mk 4 false (by simp)) ca fun fr hfr => by
      rw [hfa] at hfr; cases hfr)) fuel none none rfl b hb v b' h).1
  have e : ∀ l : List Nat, sizes (fun _ => 1) l = l.length := fun l => by
    induction l with
    | nil => rfl
    | cons a l ih => rw [sizes_cons, ih, List.length_cons]; omega
  rw [e] at this
  omega

/-- C96: a message decoded from an input of 1000 bytes has at most 2004 parts. -/
example (input : List Byte) (hl : input.length = 1000) (v : List Part)
    (h : decodeTop (decStruct (message 2000)) input = .ok v) : 1 + sizes Part.size v ≤ 2004 := by
  have := C96_top_partial (fun n => decStruct (message n)) (fun vs => 1 + sizes Part.size vs)
    (message_bounded (K := 0) (P := fun _ => True)) trivial 2000 input (by rw [hl, isizeMax_def]; decide) v h
  omega

mutual
/-- The parts of a field value of a tree. -/
def TreeVal.size : TreeVal → Nat
  | .num _ => 1
  | .kids l => 1 + kidsSize l
/-- The parts of a list of trees. -/
def kidsSize : List (List TreeVal) → Nat
  | [] => 0
  | t :: ts => nodeSize t + kidsSize ts
/-- The parts of a tree. -/
def nodeSize : List TreeVal → Nat
  | [] => 1
  | v :: vs => v.size + nodeSize vs
end

theorem nodeSize_eq : ∀ vs : List TreeVal, nodeSize vs = 1 + sizes TreeVal.size vs
  | [] => by simp [nodeSize, sizes]
  | v :: vs => by rw [nodeSize, nodeSize_eq vs, sizes_cons]; omega

theorem kidsSize_eq : ∀ l : List (List TreeVal), kidsSize l = sizes nodeSize l
  | [] => by simp [kidsSize, sizes]
  | t :: ts => by rw [kidsSize, kidsSize_eq ts, sizes_cons]

/-- A tree has at most three parts for each byte: the node, its value and its list of children. -/
theorem tree_bounded (d : Unit → Nat → Dec (List TreeVal)) (i : Unit) :
    Bounded (AmongSized (fun _ => (· = none)) d fun _ => nodeSize) 3 (· = none) (List TreeVal) (treeF d i) nodeSize 3 0 := by
  have e : nodeSize = fun vs => 1 + sizes TreeVal.size vs := funext nodeSize_eq
  have h : Bounded (AmongSized (fun _ => (· = none)) d fun _ => nodeSize) 3 (· = none) (List TreeVal) (treeF d i)
      (fun vs => 1 + sizes TreeVal.size vs) 3 0 := by
    refine Bounded.headed (fun n => treeStruct n (d () n) noEnc) false []
      ⟨valueField, fun _ => valueField.dec, (· = none), 0, 1⟩
      [⟨kidsField {} 0 (d () 0) noEnc, fun n => (kidsField {} n (d () n) noEnc).dec, (· = none), 3, 1⟩]
      (fun n => ⟨rfl, rfl, rfl⟩) ?_ ?_ ?_ ?_ (by simp)
    · simp [Chain]
    · intro x hx
      simp only [List.nil_append, List.mem_cons, List.not_mem_nil, or_false] at hx
      rcases hx with rfl | rfl <;> refine ⟨?_, by simp⟩ <;> constructor <;> simp [valueField, kidsField, FaGiven]
    · intro x hx
      simp only [List.nil_append, List.mem_cons, List.not_mem_nil, or_false] at hx
      rcases hx with rfl | rfl
      · exact .inject TreeVal.num (.int _) fun _ => by rw [TreeVal.size]
      · exact .inject TreeVal.kids (.vec (C := 0) (.var (.mk ())) (.inl rfl)) fun l => by
          rw [TreeVal.size, kidsSize_eq]
    · intro n
      refine ⟨⟨rfl, rfl, rfl, rfl⟩, fun ca fa hfa => ?_⟩
      exact (eats_decInt (.mk 1 false (.inl rfl)) ca fun fr hfr => by rw [hfa] at hfr; cases hfr).map
        (Good.decInt (p := false) (t := false) (N := 0) _ ca fa fun h => nomatch h).1
  rw [← e] at h
  exact h

/-- C96: whatever the depth, a tree decoded from 1000 bytes has at most 3000 parts. -/
example (depth : Nat) (input : List Byte) (hl : input.length = 1000) (v : List TreeVal) (b' : Buf)
    (h : decRec treeF depth () 9 none none ⟨input, 0⟩ = (.ok v, b')) : nodeSize v ≤ 3000 := by
  obtain ⟨h1, h2⟩ := C96_recursive_partial (T := fun _ : Unit => List TreeVal) treeF (fun _ => nodeSize)
    (fun _ => (· = none)) 3 tree_bounded depth 9 () none none rfl ⟨input, 0⟩
    ⟨Nat.zero_le _, by show input.length ≤ _; rw [hl, isizeMax_def]; decide⟩ v b' h
  dsimp only at h1 h2
  omega

end JBytes
