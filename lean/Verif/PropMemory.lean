import Verif.Memory
import Verif.CodecBytes
import Verif.PropMutRead
/-!
# C78, C79: the `unsafe` code
-/

namespace JBytes
open M

variable {α : Type}

/-! ## Specification -/

/-- `n` runs of an element decoder one after the other, stopping at the first that does not succeed: the elements it
handed over, how the last run ended, and where. -/
inductive Run (m : M α) : Nat → Buf → List α → Out Unit → Buf → Prop
  | done (b : Buf) : Run m 0 b [] (.ok ()) b
  | next {n b a b' l o b''} : m b = (.ok a, b') → Run m n b' l o b'' → Run m (n + 1) b (a :: l) o b''
  | err {n b e b'} : m b = (.err e, b') → Run m (n + 1) b [] (.err e) b'
  | panic {n b b'} : m b = (.panic, b') → Run m (n + 1) b [] .panic b'
  | timeout {n b b'} : m b = (.timeout, b') → Run m (n + 1) b [] .timeout b'

/-- What it means to handle the elements properly.  Nothing undefined happens; if all `n` elements are there they are
returned in order and none is dropped; otherwise the failure is passed on and, for a type with a destructor, the
destructor has run exactly once on each element that had been decoded. -/
def Careful (glue : Bool) (m : M α) (n : Nat) (b : Buf) (d : Def (Left α)) : Prop :=
  ∀ l o b', Run m n b l o b' → ∃ L, d = .defined L ∧ L.buf = b' ∧
    match o with
    | .ok _ => L.out = .ok l ∧ (glue = true → L.dropped = [] ∧ L.leaked = [])
    | .err e => L.out = .err e ∧ (glue = true → L.dropped.Perm l ∧ L.leaked = [])
    | .panic => L.out = .panic ∧ (glue = true → L.dropped.Perm l ∧ L.leaked = [])
    | .timeout => L.out = .timeout ∧ (glue = true → L.dropped.Perm l ∧ L.leaked = [])

/-! ## Auxiliary lemmas -/

theorem run_total (m : M α) (n : Nat) (b : Buf) : ∃ l o b', Run m n b l o b' := by
  induction n generalizing b with
  | zero => exact ⟨_, _, _, .done b⟩
  | succ n ih =>
    cases h : m b with
    | mk r b' =>
      cases r with
      | ok a => obtain ⟨l, o, b'', hr⟩ := ih b'; exact ⟨_, _, _, .next h hr⟩
      | err e => exact ⟨_, _, _, .err h⟩
      | panic => exact ⟨_, _, _, .panic h⟩
      | timeout => exact ⟨_, _, _, .timeout h⟩

theorem run_length {m : M α} {n : Nat} {b b' : Buf} {l : List α} (h : Run m n b l (.ok ()) b') :
    l.length = n := by
  generalize ho : Out.ok () = o at h
  induction h with
  | done => rfl
  | next _ _ ih => simp [ih ho]
  | err => cases ho
  | panic => cases ho
  | timeout => cases ho

theorem run_length_le {m : M α} {n : Nat} {b b' : Buf} {l : List α} {o : Out Unit} (h : Run m n b l o b') :
    l.length ≤ n := by
  induction h with
  | next _ _ ih => simp; omega
  | _ => simp

/-- The result that goes with the end of the last run. -/
def wholeOf (l : List α) : Out Unit → Out (List α)
  | .ok _ => .ok l
  | .err e => .err e
  | .panic => .panic
  | .timeout => .timeout

/-- The runs and `repeatM`. -/
theorem run_repeatM {m : M α} {n : Nat} {b b' : Buf} {l : List α} {o : Out Unit} (h : Run m n b l o b') :
    repeatM m n b = (wholeOf l o, b') := by
  induction h with
  | done b => rfl
  | @next n b a b' l o b'' h _ ih =>
    have e : repeatM m (n + 1) b = M.bind m (fun a => M.bind (repeatM m n) fun as => M.pure (a :: as)) b := rfl
    rw [e]
    simp only [M.bind, h, ih]
    cases o <;> rfl
  | @err n b _ _ h =>
    have e : repeatM m (n + 1) b = M.bind m (fun a => M.bind (repeatM m n) fun as => M.pure (a :: as)) b := rfl
    rw [e]; simp [M.bind, h, wholeOf]
  | @panic n b _ h =>
    have e : repeatM m (n + 1) b = M.bind m (fun a => M.bind (repeatM m n) fun as => M.pure (a :: as)) b := rfl
    rw [e]; simp [M.bind, h, wholeOf]
  | @timeout n b _ h =>
    have e : repeatM m (n + 1) b = M.bind m (fun a => M.bind (repeatM m n) fun as => M.pure (a :: as)) b := rfl
    rw [e]; simp [M.bind, h, wholeOf]

/-- Nothing remains to be dropped when all elements were returned. -/
def restOf (l : List α) : Out Unit → List α
  | .ok _ => []
  | _ => l

theorem vecMem_run {m : M α} {n : Nat} {b b' : Buf} {l : List α} {o : Out Unit} (h : Run m n b l o b')
    (acc : List α) :
    vecMem m n acc b = .defined ⟨wholeOf (acc ++ l) o, restOf (acc ++ l) o, [], b'⟩ := by
  induction h generalizing acc with
  | done b => simp [vecMem, wholeOf, restOf]
  | next h _ ih => simp [vecMem, h, ih]
  | err h => simp [vecMem, h, wholeOf, restOf]
  | panic h => simp [vecMem, h, wholeOf, restOf]
  | timeout h => simp [vecMem, h, wholeOf, restOf]

theorem fillSlots_run {m : M α} {n : Nat} {b b' : Buf} {l : List α} {o : Out Unit} (h : Run m n b l o b')
    (pre : List (Option α)) (i : Nat) (hi : i = pre.length) (dr : List α) :
    fillSlots false m n i ⟨pre ++ List.replicate n none, dr⟩ b =
      .defined (o, ⟨pre ++ l.map some ++ List.replicate (n - l.length) none, dr⟩, b') := by
  induction h generalizing pre i with
  | done b => simp [fillSlots]
  | @next n b a b' l o b'' h _ ih =>
    subst hi
    have e : (pre ++ List.replicate (n + 1) (none : Option α)).set pre.length (some a) =
        (pre ++ [some a]) ++ List.replicate n none := by
      simp [List.replicate_succ]
    simp only [fillSlots, h, Store.assign, e]
    rw [ih (pre ++ [some a]) (pre.length + 1) (by simp)]
    simp
  | err h => simp [fillSlots, h]
  | panic h => simp [fillSlots, h]
  | timeout h => simp [fillSlots, h]

theorem arrayMem_run {m : M α} {n : Nat} {b b' : Buf} {l : List α} {o : Out Unit} (h : Run m n b l o b') :
    arrayMem false n m b = .defined ⟨wholeOf l o, [], restOf l o, b'⟩ := by
  have hf := fillSlots_run h [] 0 rfl []
  have hv : ∀ k, Store.values ⟨l.map some ++ List.replicate k none, ([] : List α)⟩ = l := by
    intro k; simp [Store.values, List.filterMap_append, List.filterMap_map]
  simp only [List.nil_append] at hf
  unfold arrayMem
  rw [hf]
  cases o with
  | ok u =>
    cases u
    have hl := run_length h
    have := hv 0
    simp_all [wholeOf, restOf]
  | err e => simp [hv, wholeOf, restOf]
  | panic => simp [hv, wholeOf, restOf]
  | timeout => simp [hv, wholeOf, restOf]

/-! ## C78 -/

/-- C78, `Vec`: for every element decoder, count and input the elements are handled properly. -/
theorem C78_vec (glue : Bool) (m : M α) (n : Nat) (b : Buf) : Careful glue m n b (vecMem m n [] b) := by
  intro l o b' h
  rw [vecMem_run h []]
  cases o <;> simp [wholeOf, restOf]

/-- C78, arrays, exactly when the code is well defined: unless the type of the elements has a destructor, there is at
least one element, and the first one decodes.  Then the very first assignment drops memory that was never
initialised. -/
theorem C78_undefined_iff (glue : Bool) (m : M α) (n : Nat) (b : Buf) :
    arrayMem glue n m b = .undefined ↔ glue = true ∧ n ≠ 0 ∧ ∃ a b', m b = (.ok a, b') := by
  cases glue with
  | false =>
    obtain ⟨l, o, b', h⟩ := run_total m n b
    simp [arrayMem_run h]
  | true =>
    cases n with
    | zero => simp [arrayMem, fillSlots]
    | succ n =>
      cases h : m b with
      | mk r b' =>
        cases r <;> simp [arrayMem, fillSlots, h, Store.assign, List.replicate_succ]

/-- C78, arrays: they are handled properly exactly when nothing undefined happens. -/
theorem C78_iff (glue : Bool) (m : M α) (n : Nat) (b : Buf) :
    Careful glue m n b (arrayMem glue n m b) ↔ ¬ (glue = true ∧ n ≠ 0 ∧ ∃ a b', m b = (.ok a, b')) := by
  rw [← C78_undefined_iff]
  constructor
  · intro hc hu
    obtain ⟨l, o, b', h⟩ := run_total m n b
    obtain ⟨L, hL, _⟩ := hc l o b' h
    rw [hu] at hL
    cases hL
  · intro hn l o b' h
    cases glue with
    | false => rw [arrayMem_run h]; cases o <;> simp [wholeOf]
    | true =>
      rw [C78_undefined_iff] at hn
      cases n with
      | zero => cases h; simp [arrayMem, fillSlots, Store.values]
      | succ n =>
        cases h with
        | next h _ => exact absurd ⟨rfl, by simp, _, _, h⟩ hn
        | err h => simp [arrayMem, fillSlots, h, Store.values]
        | panic h => simp [arrayMem, fillSlots, h, Store.values]
        | timeout h => simp [arrayMem, fillSlots, h, Store.values]

/-- C78 for arrays of a type without destructor.  Missing: types with a destructor, for which it is false
(`C78_violated`). -/
theorem C78_array_partial (m : M α) (n : Nat) (b : Buf) : Careful false m n b (arrayMem false n m b) :=
  (C78_iff false m n b).mpr (by simp)

/-- Where it is defined the code on memory returns what `decArray` says: the other theorems about arrays are about
this code. -/
theorem C78_result (glue : Bool) (d : Dec α) (n : Nat) (ca : Option CAttr) (fa : Option FAttr) (b : Buf) (L : Left α)
    (h : arrayMem glue n (d ca fa) b = .defined L) : decArray n d ca fa b = (L.out, L.buf) := by
  have hc := (C78_iff glue (d ca fa) n b).mpr fun hu => by
    rw [← C78_undefined_iff, h] at hu; cases hu
  obtain ⟨l, o, b', hr⟩ := run_total (d ca fa) n b
  obtain ⟨L', hL, hb, ho⟩ := hc l o b' hr
  rw [h] at hL
  cases hL
  unfold decArray
  rw [run_repeatM hr]
  cases o <;> simp_all [wholeOf]

/-- The same for vectors with a count. -/
theorem C78_vec_result (m : M α) (n : Nat) (b : Buf) :
    ∃ L, vecMem m n [] b = .defined L ∧ repeatM m n b = (L.out, L.buf) := by
  obtain ⟨l, o, b', hr⟩ := run_total m n b
  exact ⟨_, vecMem_run hr [], run_repeatM hr⟩

unseal usizeMod in
/-- C78 is false for arrays of strings: `[String; 1]` read from the encoding of `["A"]`. -/
theorem C78_violated : ∃ (glue : Bool) (m : M (List Byte)) (n : Nat) (b : Buf),
    ¬ Careful glue m n b (arrayMem glue n m b) :=
  ⟨true, decStr none none, 1, ⟨[1, 65], 0⟩, fun h => (C78_iff _ _ _ _).mp h ⟨rfl, by decide, [65], ⟨[1, 65], 2⟩, by
    decide +kernel⟩⟩

unseal usizeMod in
/-- Two strings from a buffer: all well with a `Vec`, undefined with an array. -/
example : vecMem (decStr none none) 2 [] ⟨[1, 65, 1, 66], 0⟩ = .defined ⟨.ok [[65], [66]], [], [], ⟨[1, 65, 1, 66], 4⟩⟩ ∧
    vecMem (decStr none none) 2 [] ⟨[1, 65, 9, 66], 0⟩ =
      .defined ⟨.err ⟨3, .invalidByteLength⟩, [[65]], [], ⟨[1, 65, 9, 66], 3⟩⟩ ∧
    arrayMem true 2 (decStr none none) ⟨[1, 65, 1, 66], 0⟩ = .undefined := by
  decide +kernel

unseal usizeMod in
/-- Three bytes into an array: the second time there are only two. -/
example : arrayMem false 3 takeU8 ⟨[1, 2, 3], 0⟩ = .defined ⟨.ok [1, 2, 3], [], [], ⟨[1, 2, 3], 3⟩⟩ ∧
    arrayMem false 3 takeU8 ⟨[1, 2], 0⟩ = .defined ⟨.err ⟨2, .invalidByteLength⟩, [], [1, 2], ⟨[1, 2], 2⟩⟩ := by
  decide +kernel

/-! ## C79 -/

/-- The code on memory `m` is always well defined, and does what `m'` does. -/
def SoundRead {σ : Type} (m : σ → Out (Def Nat) × σ) (m' : σ → Out Nat × σ) (s : σ) : Prop :=
  match m' s with
  | (.ok v, s') => m s = (.ok (.defined v), s')
  | (.err e, s') => m s = (.err e, s')
  | (.panic, s') => m s = (.panic, s')
  | (.timeout, s') => m s = (.timeout, s')

theorem readNumber_eq (o : ByteOrder) {n : Nat} {v : List Byte} (h : v.length = n) :
    readNumber o n v = .defined (fromBytes o v) := by
  subst h
  simp [readNumber, readArray]

theorem soundRead_M {o : ByteOrder} {n : Nat} {m : M (List Byte)} {b : Buf}
    (h : ∀ v b', m b = (.ok v, b') → v.length = n) :
    SoundRead (M.bind m fun v => M.pure (readNumber o n v)) (M.bind m fun v => M.pure (fromBytes o v)) b := by
  unfold SoundRead M.bind
  cases hm : m b with
  | mk r b' =>
    cases r with
    | ok v => simp [M.pure, readNumber_eq o (h v b' hm)]
    | _ => simp

theorem soundRead_MS {σ : Type} {o : ByteOrder} {n : Nat} {m : MS σ (List Byte)} {s : σ}
    (h : ∀ v s', m s = (.ok v, s') → v.length = n) :
    SoundRead (do let v ← m; return readNumber o n v : MS σ (Def Nat))
      (do let v ← m; return fromBytes o v : MS σ Nat) s := by
  have e : ∀ {β : Type} (f : List Byte → β) (s : σ), (do let v ← m; return f v : MS σ β) s = (match m s with
      | (.ok a, s') => (.ok (f a), s')
      | (.err e, s') => (.err e, s')
      | (.panic, s') => (.panic, s')
      | (.timeout, s') => (.timeout, s') : Out β × σ) := fun f s => by
    rw [ms_bind_apply]
    cases hm : m s with
    | mk r s' => cases r <;> rfl
  unfold SoundRead
  rw [e, e]
  cases hm : m s with
  | mk r s' =>
    cases r with
    | ok v => simp [readNumber_eq o (h v s' hm)]
    | _ => simp

theorem wsub_window {p n : Nat} (hn : n < usizeMod) (h : wsub p n ≤ p) : p - wsub p n = n := by
  unfold wsub at *
  split at h <;> rename_i hc
  · rw [if_pos hc]; omega
  · omega

theorem wadd_window {p n : Nat} (hn : n < usizeMod) (hp : p < usizeMod) (h : p ≤ wadd p n) : wadd p n - p = n := by
  unfold wadd at *
  rcases Nat.lt_or_ge (p + n) usizeMod with hc | hc
  · rw [Nat.mod_eq_of_lt hc]; omega
  · rw [Nat.mod_eq_sub_mod hc, Nat.mod_eq_of_lt (by omega)] at h; omega

theorem slice_window {a c : Nat} {b b' : Buf} {v : List Byte} (h : M.slice a c b = (.ok v, b')) :
    a ≤ c ∧ v.length = c - a := by
  unfold M.slice at h
  split at h
  · rename_i hc
    cases h
    exact ⟨hc.1, by simp only [List.length_take, List.length_drop]; omega⟩
  · cases h

/-- `take_bytes(n)` of `Bytes` and `Buffer` gives `n` bytes if it gives any, in every state. -/
theorem takeBytes_window {n : Nat} {b b' : Buf} {v : List Byte} (hn : n < usizeMod)
    (h : takeBytes n b = (.ok v, b')) : v.length = n := by
  have e : takeBytes n b = M.bind remaining (fun r => (if r.length < n then fail .invalidByteLength
      else M.bind (advance n) fun _ => M.bind getPos fun p => M.slice (wsub p n) p)) b := by
    rfl
  rw [e] at h
  simp only [M.bind, remaining] at h
  generalize (if b.pos ≤ b.data.length then b.data.drop b.pos else []) = r at h
  by_cases hc : r.length < n
  · rw [if_pos hc] at h; cases h
  · rw [if_neg hc] at h
    simp only [M.bind, advance, getPos] at h
    obtain ⟨h1, h2⟩ := slice_window h
    rw [h2, wsub_window hn h1]

theorem untakeBytes_window {n : Nat} {b b' : Buf} {v : List Byte} (hn : n < usizeMod) (hp : b.pos < usizeMod)
    (h : untakeBytes n b = (.ok v, b')) : v.length = n := by
  have e : untakeBytes n b = M.bind remaining (fun r => (if r.length < n then fail .invalidByteLength
      else M.bind getPos fun p => M.slice p (wadd p n))) b := by
    rfl
  rw [e] at h
  simp only [M.bind, remaining] at h
  generalize (if b.pos ≤ b.data.length then b.data.drop b.pos else []) = r at h
  by_cases hc : r.length < n
  · rw [if_pos hc] at h; cases h
  · rw [if_neg hc] at h
    simp only [M.bind, getPos] at h
    obtain ⟨h1, h2⟩ := slice_window h
    rw [h2, wadd_window hn hp h1]

theorem scalar_size_lt (s : Scalar) : s.size < usizeMod := by
  rw [usizeMod_def]; cases s <;> decide

/-- C79 for `Bytes` and `Buffer`: in every state the reads of all scalar types stay inside the slice and give the
number that `takeFixed`/`untakeFixed` give. -/
theorem C79_bufread (s : Scalar) (o : ByteOrder) (b : Buf) (hp : b.pos < usizeMod) :
    SoundRead (takeFixedMem o s.size) (takeFixed o s.size) b ∧
    SoundRead (untakeFixedMem o s.size) (untakeFixed o s.size) b :=
  ⟨soundRead_M fun _ _ h => takeBytes_window (scalar_size_lt s) h,
   soundRead_M fun _ _ h => untakeBytes_window (scalar_size_lt s) hp h⟩

theorem untakeBytes_mut_window {σ : Type} {I : MutImpl σ} {n : Nat} {s s' : σ} {v : List Byte} (hn : n < usizeMod)
    (hp : I.pos s < usizeMod) (h : I.untakeBytes n s = (.ok v, s')) : v.length = n := by
  unfold MutImpl.untakeBytes at h
  split at h
  · cases h
  · unfold MutImpl.slice at h
    split at h
    · rename_i hc
      cases h
      simp only [List.length_take, List.length_drop]
      have := wadd_window hn hp hc.1
      omega
    · cases h

/-- C79 for every implementation of `BufReadMut` that keeps the provided `take_bytes`, whatever its other methods do.
`Cursor` is one of them. -/
theorem C79_provided {σ : Type} (I : MutImpl σ)
    (hI : I.takeBytes = MutImpl.defaultTakeBytes I.pos I.data I.advance I.remaining)
    (s : Scalar) (o : ByteOrder) (st : σ) (hp : I.pos st < usizeMod) :
    SoundRead (I.takeFixedMem o s.size) (I.takeFixed o s.size) st ∧
    SoundRead (I.untakeFixedMem o s.size) (do let v ← I.untakeBytes s.size; return fromBytes o v : MS σ Nat) st := by
  refine ⟨soundRead_MS fun v s' h => ?_, soundRead_MS fun v s' h => untakeBytes_mut_window (scalar_size_lt s) hp h⟩
  rw [hI] at h
  unfold MutImpl.defaultTakeBytes at h
  split at h
  · cases h
  · split at h
    · dsimp only at h
      split at h
      · rename_i hc
        cases h
        simp only [List.length_take, List.length_drop]
        have := wsub_window (scalar_size_lt s) hc.1
        omega
      · cases h
    all_goals cases h

/-- C79 for `&[u8]`, which has its own `take_bytes`. -/
theorem C79_slice (s : Scalar) (o : ByteOrder) (l : List Byte) :
    SoundRead (sliceImpl.takeFixedMem o s.size) (sliceImpl.takeFixed o s.size) l ∧
    SoundRead (sliceImpl.untakeFixedMem o s.size)
      (do let v ← sliceImpl.untakeBytes s.size; return fromBytes o v : MS (List Byte) Nat) l := by
  refine ⟨soundRead_MS fun v s' h => ?_, soundRead_MS fun v s' h => untakeBytes_mut_window (scalar_size_lt s)
    (show 0 < usizeMod by rw [usizeMod_def]; decide) h⟩
  simp only [sliceImpl] at h
  split at h
  · cases h; simp only [List.length_take]; omega
  · cases h

/-- What C79 rests on: with any other `take_bytes` the read is well defined exactly if the slice is long enough.
`BufReadMut` is not an `unsafe` trait, so nothing obliges an implementation outside the crate to meet this. -/
theorem C79_needs {σ : Type} (I : MutImpl σ) (o : ByteOrder) (n : Nat) (s s' : σ) (v : List Byte)
    (h : I.takeBytes n s = (.ok v, s')) :
    I.takeFixedMem o n s = (.ok .undefined, s') ↔ v.length < n := by
  have e : I.takeFixedMem o n s = (.ok (readNumber o n v), s') := by
    unfold MutImpl.takeFixedMem
    rw [ms_bind_apply, h]
    rfl
  rw [e]
  unfold readNumber readArray
  by_cases hv : n ≤ v.length
  · simp [hv]
  · simp [hv]; omega

unseal usizeMod in
/-- A `u32` from a buffer with the position inside, at the end, and past the end; from a slice; and from a reader that
gives too little. -/
example : takeFixedMem .be 4 ⟨[0, 1, 2, 3, 4], 1⟩ = (.ok (.defined 16909060), ⟨[0, 1, 2, 3, 4], 5⟩) ∧
    takeFixedMem .be 4 ⟨[0, 1, 2, 3, 4], 2⟩ = (.err ⟨2, .invalidByteLength⟩, ⟨[0, 1, 2, 3, 4], 2⟩) ∧
    untakeFixedMem .le 2 ⟨[0, 1, 2], 1⟩ = (.ok (.defined 513), ⟨[0, 1, 2], 1⟩) ∧
    sliceImpl.takeFixedMem .le 2 [1, 2, 3] = (.ok (.defined 513), [3]) ∧
    ({ sliceImpl with takeBytes := fun _ l => (.ok [], l) } : MutImpl (List Byte)).takeFixedMem .le 2 [1, 2, 3] =
      (.ok .undefined, [1, 2, 3]) := by
  decide +kernel

/-- `Cursor` keeps the provided `take_bytes`. -/
example (s : Scalar) (o : ByteOrder) (b : Buf) (hp : b.pos < usizeMod) :
    SoundRead (cursorImpl.takeFixedMem o s.size) (cursorImpl.takeFixed o s.size) b :=
  (C79_provided cursorImpl rfl s o b hp).1

end JBytes
