import Verif.PropEncode
/-!
# Helper lemmas: overwriting a field of an encoded struct
-/

namespace JBytes
open M

variable {α β V : Type}

/-- The scope with another value for field `i`. -/
def Env.put (env : Env V) (i : Nat) (y : V) : Env V := { env with fields := env.fields.set i y }

/-- No modifier expression looks at field `i`. -/
structure Unaware (i : Nat) (a : FieldAttrs V) : Prop where
  byteorder : ∀ e, a.byteorder = some (.expr e) → ∀ env y, e (env.put i y) = e env
  length : ∀ e, a.length = some e → ∀ env y, e (env.put i y) = e env
  offset : ∀ e, a.offset = some e → ∀ env y, e (env.put i y) = e env
  count : ∀ e, a.count = some e → ∀ env y, e (env.put i y) = e env
  tryCount : ∀ e, a.tryCount = some e → ∀ env y, e (env.put i y) = e env
  bits : ∀ e, a.bits = some e → ∀ env y, e (env.put i y) = e env
  byteCount : ∀ e, a.byteCount = some e → ∀ env y, e (env.put i y) = e env
  byteCountOutside : ∀ e, a.byteCountOutside = some e → ∀ env y, e (env.put i y) = e env
  branch : ∀ e, a.branch = some e → ∀ env y, e (env.put i y) = e env
  valueEncode : ∀ g, a.valueEncode = some g → ∀ env y, g (env.put i y) = g env
  withEncode : ∀ g, a.withEncode = some g → ∀ env y, g (env.put i y) = g env

theorem Option.map_same {o : Option (Env V → α)} {env env' : Env V} (h : ∀ e, o = some e → e env' = e env) :
    o.map (· env') = o.map (· env) := by
  cases o with
  | none => rfl
  | some e => simp only [Option.map_some, h e rfl]

theorem Unaware.toCode {i : Nat} {a : FieldAttrs V} (h : Unaware i a) (env : Env V) (y : V) :
    a.toCode (env.put i y) = a.toCode env := by
  have ho : orderCode a.byteorder (env.put i y) = orderCode a.byteorder env := by
    cases hb : a.byteorder with
    | none => rfl
    | some o =>
      cases o with
      | lit o => rfl
      | expr e => simp only [orderCode, h.byteorder e hb env y]
  have hm : ∀ o, a.modifiers o (env.put i y) = a.modifiers o env := by
    intro o
    simp only [FieldAttrs.modifiers, Option.map_same fun e he => h.branch e he env y,
      Option.map_same fun e he => h.length e he env y, Option.map_same fun e he => h.count e he env y,
      Option.map_same fun e he => h.tryCount e he env y, Option.map_same fun e he => h.bits e he env y,
      Option.map_same fun e he => h.byteCount e he env y, Option.map_same fun e he => h.byteCountOutside e he env y]
  simp only [FieldAttrs.toCode, ho, hm]

theorem Unaware.encField {i : Nat} {f : Field V} (h : Unaware i f.attrs) (env : Env V) (y : V) :
    encField f (env.put i y) = JBytes.encField f env := by
  have hp : padOffset f.attrs (env.put i y) = padOffset f.attrs env := by
    unfold padOffset
    cases ho : f.attrs.offset with
    | none => rfl
    | some e => simp only [h.offset e ho env y]
  have he : ∀ v ca fa, encPlain f (env.put i y) v ca fa = encPlain f env v ca fa := by
    intro v ca fa
    unfold encPlain
    rw [hp]
    cases hv : f.attrs.valueEncode with
    | none => rfl
    | some g => simp only [h.valueEncode g hv env y]
  funext v ca fa
  unfold JBytes.encField
  simp only [he]
  cases hw : f.attrs.withEncode with
  | none => rfl
  | some g => simp only [h.withEncode g hw env y]

theorem Unaware.fieldEnc {i : Nat} {f : Field V} (h : Unaware i f.attrs) (ca : Option CAttr) (env : Env V) (y v : V) :
    fieldEnc f ca (env.put i y) v = JBytes.fieldEnc f ca env v := by
  unfold JBytes.fieldEnc
  rw [h.toCode, h.encField]

theorem Env.put_push (env : Env V) (i : Nat) (y u : V) (h : i < env.fields.length) :
    (env.put i y).push u = (env.push u).put i y := by
  unfold Env.put Env.push
  simp only [List.set_append, if_pos h]

/-- Fields that do not look at field `i` are encoded in the same way whatever is in it. -/
theorem encFields_put {i : Nat} (y : V) : ∀ (gs : List (Field V)) (ca : Option CAttr) (env : Env V) (us : List V),
    (∀ g ∈ gs, Unaware i g.attrs) → i < env.fields.length →
    ∀ b, encFields false gs ca none (env.put i y) us b = encFields false gs ca none env us b := by
  intro gs
  induction gs with
  | nil => intro ca env us _ _ b; simp [encFields]
  | cons g gs ih =>
    intro ca env us hg hi b
    cases us with
    | nil => simp [encFields]
    | cons u us =>
      rw [encFields_cons, encFields_cons, (hg g (by simp)).fieldEnc]
      rw [bind_apply, bind_apply]
      rcases JBytes.fieldEnc g ca env u b with ⟨o, b1⟩
      cases o with
      | ok n =>
        simp only [bind_apply]
        rw [Env.put_push _ _ _ _ hi, ih ca (env.push u) us (fun g h => hg g (by simp [h])) (by
          simp only [Env.push, List.length_append]; omega)]
      | _ => rfl

theorem fieldEnc_placed {c : Bool} {f : Field V} (ha : EncOk c f.attrs) (he : Encodable c V f.enc) (ca : Option CAttr)
    (env : Env V) (v : V) : Placed Any (fieldEnc f ca env v) :=
  Placed.bind (Placed.logic.toCode ha env) fun fa hfa => Placed.logic.encField ha fun v => he.placed v ca fa hfa

theorem encFields_placed {c : Bool} (fs : List (Field V)) (h : ∀ f ∈ fs, EncOk c f.attrs ∧ Encodable c V f.enc)
    (ca : Option CAttr) (env : Env V) (vs : List V) : Placed Any (encFields false fs ca none env vs) :=
  Placed.logic.encFields false fs ca none env vs StartsWord.none fun f hf =>
    ⟨(h f hf).1, fun v ca fa hfa => (h f hf).2.placed v ca fa hfa⟩

/-- A successful run of a placed encoder, and what it does elsewhere. -/
theorem Placed.ran {m : M Nat} (h : Placed Any m) {b b' : Buf} {n : Nat} (hb : b.Ok) (he : m b = (.ok n, b')) :
    ∃ w, b' = window b w ∧ b.pos + w.length ≤ isizeMax ∧
      ∀ b2 : Buf, b2.Ok → b2.pos + w.length ≤ isizeMax → m b2 = (.ok n, window b2 w) := by
  rcases h with ⟨a, w, _, hw⟩ | hn
  · have hr : b.pos + w.length ≤ isizeMax := Nat.le_of_not_lt fun hr => (hw b hb).2 hr n b' he
    have h1 := (hw b hb).1 hr
    rw [he] at h1
    cases h1
    exact ⟨w, rfl, hr, fun b2 hb2 hr2 => (hw b2 hb2).1 hr2⟩
  · exact absurd he (hn b hb n b')

/-- Writing `w'` over the middle part of what was written. -/
theorem window_middle (b : Buf) (hb : b.Ok) (w1 w2 w3 w' : List Byte) (hl : w'.length = w2.length) :
    window ⟨(window b (w1 ++ (w2 ++ w3))).data, b.pos + w1.length⟩ w' =
      ⟨(window b (w1 ++ (w' ++ w3))).data, b.pos + w1.length + w'.length⟩ := by
  have h1 := hb.1
  have hp : (b.data.take b.pos).length = b.pos := by rw [List.length_take]; omega
  simp only [window, List.length_append, hl]
  congr 1
  generalize b.data.drop (b.pos + (w1.length + (w2.length + w3.length))) = t
  have e1 : (b.data.take b.pos ++ (w1 ++ (w2 ++ w3)) ++ t).take (b.pos + w1.length) = b.data.take b.pos ++ w1 := by
    rw [show b.data.take b.pos ++ (w1 ++ (w2 ++ w3)) ++ t = (b.data.take b.pos ++ w1) ++ (w2 ++ w3 ++ t) by
      simp only [List.append_assoc]]
    exact List.take_left' (by rw [List.length_append, hp])
  have e2 : (b.data.take b.pos ++ (w1 ++ (w2 ++ w3)) ++ t).drop (b.pos + w1.length + w2.length) = w3 ++ t := by
    rw [show b.data.take b.pos ++ (w1 ++ (w2 ++ w3)) ++ t = (b.data.take b.pos ++ w1 ++ w2) ++ (w3 ++ t) by
      simp only [List.append_assoc]]
    exact List.drop_left' (by rw [List.length_append, List.length_append, hp])
  rw [e1, e2]
  simp only [List.append_assoc]

/-- Three writes one after the other: the middle one can be overwritten. -/
theorem patch_middle {A R : M Nat} {F W : α → M Nat} (g : Nat → Nat → Nat → Nat) (hA : Placed Any A)
    (hF : ∀ x, Placed Any (F x)) (hR : Placed Any R)
    (hW : ∀ x b, W x b = (A >>= fun i => F x >>= fun j => R >>= fun k => (Pure.pure (g i j k) : M Nat)) b)
    {b b' : Buf} {n : Nat} (hb : b.Ok) (v : α) (he : W v b = (.ok n, b')) :
    b'.Ok ∧ ∃ p q, b.pos ≤ p ∧ p ≤ q ∧ q ≤ b'.pos ∧ (∃ k d, A b = (.ok k, ⟨d, p⟩)) ∧
      (∃ k, F v ⟨b'.data, p⟩ = (.ok k, ⟨b'.data, q⟩)) ∧
      ∀ x k b2, F x ⟨b'.data, p⟩ = (.ok k, b2) → b2.pos = q → ∃ m, W x b = (.ok m, ⟨b2.data, b'.pos⟩) := by
  rw [hW] at he
  obtain ⟨k1, b1, e1, e2⟩ := bind_ok he
  obtain ⟨k2, b2, e3, e4⟩ := bind_ok e2
  obtain ⟨k3, b3, e5, e6⟩ := bind_ok e4
  rw [pure_apply, Prod.mk.injEq, Out.ok.injEq] at e6
  obtain ⟨_, rfl⟩ := e6
  obtain ⟨w1, rfl, r1, a1⟩ := hA.ran hb e1
  have ok1 := window_ok hb w1 r1
  obtain ⟨w2, rfl, r2, a2⟩ := (hF v).ran ok1 e3
  have ok2 := window_ok ok1 w2 r2
  obtain ⟨w3, rfl, r3, a3⟩ := hR.ran ok2 e5
  have r3' : b.pos + w1.length + w2.length + w3.length ≤ isizeMax := r3
  have hall : window (window (window b w1) w2) w3 = window b (w1 ++ (w2 ++ w3)) := by
    rw [window_window ok1, window_window hb]
  have okall : (window b (w1 ++ (w2 ++ w3))).Ok := window_ok hb _ (by simp only [List.length_append]; omega)
  have okp : (⟨(window b (w1 ++ (w2 ++ w3))).data, b.pos + w1.length⟩ : Buf).Ok := by
    refine ⟨?_, okall.2⟩
    have h1 := okall.1
    simp only [window, List.length_append] at h1 ⊢
    omega
  rw [hall]
  refine ⟨okall, b.pos + w1.length, b.pos + w1.length + w2.length, by omega, by omega,
    by simp only [window, List.length_append]; omega, ⟨k1, (window b w1).data, e1⟩, ⟨k2, ?_⟩, fun x k bx hx hq => ?_⟩
  · rw [a2 _ okp (by simp only; omega), window_middle b hb w1 w2 w3 w2 rfl]
  · obtain ⟨w', rfl, r', a'⟩ := (hF x).ran okp hx
    have hlw : w'.length = w2.length := by
      simp only [window] at hq
      omega
    rw [window_middle b hb w1 w2 w3 w' hlw]
    refine ⟨g k1 k k3, ?_⟩
    have ok2' : (window (window b w1) w').Ok := window_ok ok1 w' (by simp only [window]; omega)
    rw [hW, bind_apply, e1]
    simp only
    rw [bind_apply, a' _ ok1 (by simp only [window]; omega)]
    simp only
    rw [bind_apply, a3 _ ok2' (by simp only [window]; omega)]
    simp only [pure_apply]
    rw [window_window ok1, window_window hb]
    simp [window, hlw]

theorem encAll_append (e : α → M Nat) (l r : List α) (b : Buf) :
    encAll e (l ++ r) b = (encAll e l >>= fun n => encAll e r >>= fun m => (Pure.pure (n + m) : M Nat)) b := by
  induction l generalizing b with
  | nil =>
    simp only [List.nil_append, encAll, bind_apply, pure_apply]
    rcases encAll e r b with ⟨o, b1⟩
    cases o <;> simp
  | cons a l ih =>
    simp only [List.cons_append, encAll, bind_apply]
    rcases e a b with ⟨o, b1⟩
    cases o with
    | ok n =>
      simp only [ih, bind_apply]
      rcases encAll e l b1 with ⟨o2, b2⟩
      cases o2 with
      | ok m =>
        simp only [pure_apply]
        rcases encAll e r b2 with ⟨o3, b3⟩
        cases o3 <;> simp [Nat.add_assoc]
      | _ => rfl
    | _ => rfl

end JBytes
