import Verif.PropEnum
import Verif.PropMap
import Verif.PropAddr
import Verif.PropFromStr
import Verif.Recursive
/-!
# The wire format

A specification of the bytes that stand for a value, for every type: `WireRel α` relates a value to its image and to what
follows it.  `Format α d e R` says that `d` and `e` are the decoder and the encoder of a type built from the codecs of
the crate and derived structs and enums, nested without bound, and `R` is its format.  The relations are written without
the codecs (but for the functions a user writes for a field).  (`HashSet` can only be decoded.)
-/

namespace JBytes
open M

variable {α β V : Type}

/-- `R ce cd fa v w suf`: under container modifiers `ce` (`cd` when decoding; they differ in the variables only) and
field modifiers `fa` the value `v` is written as `w` when `suf` follows. -/
abbrev WireRel (α : Type) := Option CAttr → Option CAttr → Option FAttr → α → List Byte → List Byte → Prop

/-- An `n`-byte number. -/
def NumWire (o : ByteOrder) (n v : Nat) (w : List Byte) : Prop := w.length = n ∧ IsValueOf o w v

/-- Integers: their own width, or `length` bytes (a negative number only in full width). -/
def intRel (k : IntKind) : WireRel Nat := fun ce _ fa v w _ =>
  fa.bind (·.bits) = none ∧
  match fa.bind (·.length) with
  | none => NumWire (effectiveOrder ce fa) k.size v w
  | some n => n ≤ k.size ∧ n ≤ 8 ∧ (0 ≤ k.toInt v ∨ n = k.size) ∧ NumWire (effectiveOrder ce fa) n v w

/-- Floats, by their bit pattern. -/
def floatRel (n : Nat) : WireRel Nat := fun ce _ fa v w _ => NumWire (effectiveOrder ce fa) n v w

def boolRel : WireRel Bool := fun _ _ _ v w _ => w = [if v then 1 else 0]

/-- A `char` below 256, as one byte. -/
def charRel : WireRel Nat := fun _ _ _ v w _ => w.map UInt8.toNat = [v]

/-- Byte strings in their framing. -/
def bytesRel : WireRel (List Byte) := fun ce _ fa v w suf => (framingOf fa).Fits v suf ∧ w = bytesWire ce fa v

/-- Texts. -/
def strRel : WireRel (List Byte) := fun ce cd fa v w suf => (∃ text, v = utf8Of text) ∧ bytesRel ce cd fa v w suf

/-- `n` octets. -/
def octetsRel (n : Nat) : WireRel (List Byte) := fun ce _ fa v w _ => v.length = n ∧ w = ordered (effectiveOrder ce fa) v

/-- The length says which kind of address follows. -/
def ipRel : WireRel IpAddr := fun ce _ fa a w _ =>
  a.Valid ∧ fa.bind (·.length) = some a.octets.length ∧ w = ordered (effectiveOrder ce fa) a.octets

def netRel : WireRel NetAddr := fun ce _ fa a w _ =>
  fa.bind (·.bits) = none ∧ ∃ n, fa.bind (·.length) = some n ∧ a.Image (effectiveOrder ce fa) n w

def unitRel : WireRel Unit := fun _ _ _ _ w _ => w = []

/-- One image after the other. -/
inductive Images (R : α → List Byte → List Byte → Prop) : List α → List Byte → List Byte → Prop
  | nil (suf : List Byte) : Images R [] [] suf
  | cons {a : α} {l : List α} {w1 w2 suf : List Byte} : R a w1 (w2 ++ suf) → Images R l w2 suf →
      Images R (a :: l) (w1 ++ w2) suf

/-- The count and the elements. -/
def countedRel (R : WireRel α) : WireRel (List α) := fun ce cd fa l w suf =>
  CountFits fa l.length ∧ ∃ body, Images (R ce cd fa) l body suf ∧ w = countWire ce fa l.length ++ body

/-- Lists: counted, or with `p` before every element and not after the last. -/
def vecRel (fuel : Nat) (R : WireRel α) : WireRel (List α) := fun ce cd fa l w suf =>
  match fa.bind (·.loopSkipStarts) with
  | none => countedRel R ce cd fa l w suf
  | some p => ¬ p <+: suf ∧ l.length < fuel ∧ Images (fun a w s => ∃ u, w = p ++ u ∧ R ce cd fa a u s) l w suf

def arrayRel (n : Nat) (R : WireRel α) : WireRel (List α) := fun ce cd fa l w suf =>
  l.length = n ∧ Images (R ce cd fa) l w suf

/-- One image after the other, each of its own type. -/
inductive TupleImages (ce cd : Option CAttr) (fa : Option FAttr) : List (WireRel α) → List α → List Byte → List Byte → Prop
  | nil (suf : List Byte) : TupleImages ce cd fa [] [] [] suf
  | cons {R : WireRel α} {Rs : List (WireRel α)} {a : α} {l : List α} {w1 w2 suf : List Byte} :
      R ce cd fa a w1 (w2 ++ suf) → TupleImages ce cd fa Rs l w2 suf → TupleImages ce cd fa (R :: Rs) (a :: l) (w1 ++ w2) suf

def tupleRel (Rs : List (WireRel α)) : WireRel (List α) := fun ce cd fa l w suf => TupleImages ce cd fa Rs l w suf

/-- A value, or nothing: under `length = 0`, or (for types that need at least one byte) at the end of the data. -/
def optionRel (hungry : Bool) (R : WireRel α) : WireRel (Option α) := fun ce cd fa o w suf =>
  match o with
  | some a => fa.bind (·.length) ≠ some 0 ∧ R ce cd fa a w suf
  | none => w = [] ∧ (fa.bind (·.length) = some 0 ∨ (hungry = true ∧ suf = []))

/-- A key and its value; with `split` and line ends these end the key and the value. -/
def entryRel (Rk : WireRel α) (Rv : WireRel β) : WireRel (α × β) := fun ce cd fa x w suf =>
  ∃ wk wv, w = wk ++ wv ∧ Rk ce cd (keyFattr fa) x.1 wk (wv ++ suf) ∧ Rv ce cd (valFattr fa) x.2 wv suf

/-- Maps: the entries in the order of insertion. -/
def mapRel (Rk : WireRel α) (Rv : WireRel β) : WireRel (List (α × β)) := fun ce cd fa l w suf =>
  (l.map Prod.fst).Nodup ∧ countedRel (entryRel Rk Rv) ce cd fa l w suf

/-- A type as a part of a sum type. -/
def injectRel (f : α → β) (R : WireRel α) : WireRel β := fun ce cd fa v w suf => ∃ a, v = f a ∧ R ce cd fa a w suf

/-- The word of a bit-field group: every member at its mask, and nothing else. -/
def GroupWord (ms : List BitMember) (word : Nat) : Prop :=
  (∀ x ∈ ms, word &&& x.mask = x.v * 2 ^ x.t) ∧ ∀ other, (∀ x ∈ ms, other &&& x.mask = 0) → word &&& other = 0

/-- What the two scopes in which the modifiers of a field are evaluated must agree on. -/
structure Agree (a : FieldAttrs V) (ee ed : Env V) : Prop where
  order : OrderOk a ee
  order' : OrderOk a ed
  own : ownModifiers a ed = ownModifiers a ee
  gap : JBytes.gap a ed = JBytes.gap a ee

/-- The image of the fields of a struct or variant, each given with the format of its type. -/
inductive FieldsWire (ce : Option CAttr) :
    List (Field V × WireRel V) → Option CAttr → Env V → Env V → List V → List Byte → List Byte → Prop
  | nil (cd : Option CAttr) (ee ed : Env V) (suf : List Byte) : FieldsWire ce [] cd ee ed [] [] suf
  /-- A field that is present: filler bytes, then the value (or what `value_encode` makes of it). -/
  | plain {f : Field V} {R : WireRel V} {fs : List (Field V × WireRel V)} {cd : Option CAttr} {ee ed : Env V} {v : V}
      {vs : List V} {w1 w2 suf : List Byte} : Ordinary f.attrs → f.attrs.untake = false → Agree f.attrs ee ed →
      (∀ c, f.attrs.ifExpr = some c → c ed = true) →
      R ce cd (ownModifiers f.attrs ee) (sentValue f.attrs ee v) w1 (w2 ++ suf) →
      finalValue f ed (sentValue f.attrs ee v) = v → Checked f ed v →
      FieldsWire ce fs (cachedAfter [f] cd ed [v]) (ee.extend [v]) (ed.extend [v]) vs w2 suf →
      FieldsWire ce ((f, R) :: fs) cd ee ed (v :: vs)
        ((List.replicate (gap f.attrs ee) f.attrs.full ++ w1) ++ w2) suf
  /-- A field that is `None` because its condition is false: filler bytes only. -/
  | absent {f : Field V} {R : WireRel V} {fs : List (Field V × WireRel V)} {cd : Option CAttr} {ee ed : Env V} {v : V}
      {vs : List V} {w2 suf : List Byte} {c : Env V → Bool} : Ordinary f.attrs → f.attrs.untake = false →
      Agree f.attrs ee ed → f.attrs.ifExpr = some c → c ed = false → sentValue f.attrs ee v = f.noneV →
      finalValue f ed f.noneV = v → Checked f ed v →
      FieldsWire ce fs (cachedAfter [f] cd ed [v]) (ee.extend [v]) (ed.extend [v]) vs w2 suf →
      FieldsWire ce ((f, R) :: fs) cd ee ed (v :: vs) (List.replicate (gap f.attrs ee) f.attrs.full ++ w2) suf
  /-- A skipped field has its default value and no image. -/
  | skip {f : Field V} {R : WireRel V} {fs : List (Field V × WireRel V)} {cd : Option CAttr} {ee ed : Env V} {vs : List V}
      {w2 suf : List Byte} : Agree f.attrs ee ed → f.attrs.withDecode = none → f.attrs.withEncode = none →
      f.attrs.skip = true → f.attrs.offset = none →
      FieldsWire ce fs (cachedAfter [f] cd ed [f.dflt]) (ee.extend [f.dflt]) (ed.extend [f.dflt]) vs w2 suf →
      FieldsWire ce ((f, R) :: fs) cd ee ed (f.dflt :: vs) w2 suf
  /-- A peeked field has no image of its own: its image is the beginning of what follows. -/
  | peek {f : Field V} {R : WireRel V} {fs : List (Field V × WireRel V)} {cd : Option CAttr} {ee ed : Env V} {v x : V}
      {vs : List V} {u r w2 suf : List Byte} : Ordinary f.attrs → f.attrs.untake = true → f.attrs.bits = none →
      f.attrs.offset = none → f.attrs.ifExpr = none → Agree f.attrs ee ed → w2 ++ suf = u ++ r →
      R ce cd (ownModifiers f.attrs ee) x u r → finalValue f ed x = v → Checked f ed v →
      FieldsWire ce fs (cachedAfter [f] cd ed [v]) (ee.extend [v]) (ed.extend [v]) vs w2 suf →
      FieldsWire ce ((f, R) :: fs) cd ee ed (v :: vs) w2 suf
  /-- A field with functions of its own: their image. -/
  | custom {f : Field V} {R : WireRel V} {fs : List (Field V × WireRel V)} {cd : Option CAttr} {ee ed : Env V} {v : V}
      {vs : List V} {w1 w2 suf : List Byte} {de : Env V → Dec V} {en : Env V → Enc V} : Agree f.attrs ee ed →
      f.attrs.offset = none → f.attrs.withDecode = some de → f.attrs.withEncode = some en →
      Writes (en ee v ce (ownModifiers f.attrs ee)) w1 → Reads (de ed cd (ownModifiers f.attrs ee)) v w1 (w2 ++ suf) →
      FieldsWire ce fs (cachedAfter [f] cd ed [v]) (ee.extend [v]) (ed.extend [v]) vs w2 suf →
      FieldsWire ce ((f, R) :: fs) cd ee ed (v :: vs) (w1 ++ w2) suf
  /-- A field written as text (only with `untake` is it not written a second time). -/
  | text {f : Field V} {R : WireRel V} {fs : List (Field V × WireRel V)} {cd : Option CAttr} {ee ed : Env V} {v : V}
      {vs : List V} {w1 w2 suf : List Byte} {parse : List Byte → Option V} {print : V → List Byte} {t : List Char} :
      Agree f.attrs ee ed → IsText f.attrs parse print → f.attrs.untake = true → f.attrs.bits = none →
      f.attrs.offset = none → print v = utf8Of t → parse (utf8Of t) = some v →
      strRel ce cd (ownModifiers f.attrs ee) (utf8Of t) w1 (w2 ++ suf) →
      FieldsWire ce fs (cachedAfter [f] cd ed [v]) (ee.extend [v]) (ed.extend [v]) vs w2 suf →
      FieldsWire ce ((f, R) :: fs) cd ee ed (v :: vs) (w1 ++ w2) suf
  /-- The members of a bit-field group share a word. -/
  | group {fs gs : List (Field V × WireRel V)} {cd : Option CAttr} {ee ed : Env V} {xs us : List V} {w1 w2 suf : List Byte}
      (inj : Nat → V) (k : IntKind) (o : ByteOrder) (m : BitMember) (ms : List BitMember) (word : Nat) :
      k.Valid → k.size ≤ 8 → k.signed = false → IsGroup inj k ee (fs.map Prod.fst) (m :: ms) xs →
      IsGroup inj k ed (fs.map Prod.fst) (m :: ms) xs →
      (∀ x ∈ m :: ms, x.Good k ce o ∧ x.Good k cd o) → (∀ x ∈ m :: ms, x.Fits) → m.fr.bitsStart = true →
      (∀ x ∈ ms, x.fr.bitsStart = false) → (m :: ms).Pairwise (fun a b => a.mask &&& b.mask = 0) →
      GroupWord (m :: ms) word → NumWire o k.size word w1 →
      FieldsWire ce gs (cachedAfter (fs.map Prod.fst) cd ed xs) (ee.extend xs) (ed.extend xs) us w2 suf →
      FieldsWire ce (fs ++ gs) cd ee ed (xs ++ us) (w1 ++ w2) suf

/-- Structs: the images of the fields, under the modifiers of the struct itself. -/
def structRel (S : StructDef V) (fs : List (Field V × WireRel V)) : WireRel (List V) := fun ce cd _ vs w suf =>
  FieldsWire S.container fs S.container { vars := localVars S.getVars ce } { vars := localVars S.getVars cd } vs w suf

/-- The fields of a variant, after its filler bytes; nothing leaks into them. -/
structure BodyWire (E : EnumDef V) (v : Variant V) (fs : List (Field V × WireRel V)) (ce cd : Option CAttr) (vs : List V)
    (w suf : List Byte) : Prop where
  agree : Agree v.attrs ({ vars := localVars E.getVars ce } : Env V) { vars := localVars E.getVars cd }
  noLeak : NoLeak (ownModifiers v.attrs { vars := localVars E.getVars ce }) v.fields
  image : ∃ u, w = List.replicate (gap v.attrs { vars := localVars E.getVars ce }) v.attrs.full ++ u ∧
    FieldsWire E.container fs E.container { vars := localVars E.getVars ce } { vars := localVars E.getVars cd } vs u suf

/-- Enums: the tag of the variant and its fields (`fs i` those of variant `i`); the variant is the first to accept the
tag, or the first whose word begins the image. -/
def enumRel (E : EnumDef V) (fs : Nat → List (Field V × WireRel V)) : WireRel (Nat × List V) := fun ce cd fa x w suf =>
  ∃ (v : Variant V) (num : Nat) (tw u : List Byte), E.IsVariant x.1 v num ∧ w = tw ++ u ∧
    BodyWire E v (fs x.1) ce cd x.2 u suf ∧
    match E.mode with
    | .startsWith untake => tw = (if untake then [] else tagWord v) ∧ (untake = true ∨ v.branchDefault = false) ∧
        E.SelectsWord (tw ++ u ++ suf) x.1 v
    | _ => ∃ t, TagWire E v num ce fa t tw ∧ E.Selects t x.1 v

/-- Fails where the data ends, without moving. -/
def Hungry (d : Dec α) : Prop := ∀ ca fa (pre : List Byte), pre.length ≤ isizeMax →
  ∃ x, d ca fa ⟨pre, pre.length⟩ = (.err x, ⟨pre, pre.length⟩)

/-- The types and their formats. -/
inductive Format : (α : Type) → Dec α → Enc α → WireRel α → Prop where
  /-- No stack left (see `decRec`): no value has an image. -/
  | stop {α : Type} : Format α (fun _ _ => timeout) (fun _ _ _ => timeout) (fun _ _ _ _ _ _ => False)
  | int (k : IntKind) : k.Valid → Format Nat (decInt k) (encInt k) (intRel k)
  | f32 : Format Nat decF32 encF32 (floatRel 4)
  | f64 : Format Nat decF64 encF64 (floatRel 8)
  | bool : Format Bool decBool encBool boolRel
  | char : Format Nat decChar encChar charRel
  | bytes : Format (List Byte) decBytes encBytes bytesRel
  | str : Format (List Byte) decStr encBytes strRel
  | ipv4 : Format (List Byte) decIpv4 encIp (octetsRel 4)
  | ipv6 : Format (List Byte) decIpv6 encIp (octetsRel 16)
  | mac : Format (List Byte) decMac encMac (octetsRel 6)
  | ip : Format IpAddr decIpAddr encIpAddr ipRel
  | net : Format NetAddr decNet encNet netRel
  | unit : Format Unit decUnit encUnit unitRel
  | vec {α : Type} {d : Dec α} {e : Enc α} {R : WireRel α} (fuel : Nat) : Format α d e R →
      Format (List α) (decVec fuel d) (encVec e) (vecRel fuel R)
  | array {α : Type} {d : Dec α} {e : Enc α} {R : WireRel α} (n : Nat) : Format α d e R →
      Format (List α) (decArray n d) (encArray e) (arrayRel n R)
  | tuple {α : Type} (cs : List (Dec α × Enc α × WireRel α)) : (∀ c ∈ cs, Format α c.1 c.2.1 c.2.2) →
      Format (List α) (decTuple (cs.map (·.1))) (encTuple (cs.map (·.2.1))) (tupleRel (cs.map (·.2.2)))
  | option {α : Type} {d : Dec α} {e : Enc α} {R : WireRel α} (hungry : Bool) : (hungry = true → Hungry d) →
      Format α d e R → Format (Option α) (decOption d) (encOption e) (optionRel hungry R)
  | map {α β : Type} [DecidableEq α] {dk : Dec α} {ek : Enc α} {Rk : WireRel α} {dv : Dec β} {ev : Enc β} {Rv : WireRel β} :
      Format α dk ek Rk → Format β dv ev Rv → Format (List (α × β)) (decMap dk dv) (encMap ek ev) (mapRel Rk Rv)
  /-- A type seen as a part of a sum type. -/
  | inject {α β : Type} {d : Dec α} {e : Enc α} {R : WireRel α} (f : α → β) (g : β → Option α) :
      (∀ a, g (f a) = some a) → Format α d e R →
      Format β (fun ca fa => do
        let a ← d ca fa
        return f a) (fun v ca fa => encOption e (g v) ca fa) (injectRel f R)
  | struct {V : Type} (S : StructDef V) (fs : List (Field V × WireRel V)) : S.fields = fs.map Prod.fst →
      S.withDecode = none → S.withEncode = none → (S.tuple = true → ∀ f ∈ S.fields, f.attrs.isUse = true) →
      (∀ x ∈ fs, x.1.attrs.ifExpr ≠ none → ∀ ca fa, Writes (x.1.enc x.1.noneV ca fa) []) →
      (∀ x ∈ fs, Format V x.1.dec x.1.enc x.2) → Format (List V) (decStruct S) (encStruct S) (structRel S fs)
  | enum {V : Type} (E : EnumDef V) (fs : Nat → List (Field V × WireRel V)) :
      (∀ i v, E.variants[i]? = some v → v.fields = (fs i).map Prod.fst) → E.withDecode = none →
      (∀ i, ∀ x ∈ fs i, x.1.attrs.ifExpr ≠ none → ∀ ca fa, Writes (x.1.enc x.1.noneV ca fa) []) →
      (∀ i, ∀ x ∈ fs i, Format V x.1.dec x.1.enc x.2) → Format (Nat × List V) (decEnum E) (encEnum E) (enumRel E fs)

end JBytes
