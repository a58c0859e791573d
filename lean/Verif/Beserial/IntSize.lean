import Verif.Beserial.Props
/-!
# C144: what Size returns when the encoding does not fit into an `int`

`Size` adds in Go's `int`, which has 32 or 64 bits and wraps around silently. The model of `Size` so far (`Size`) adds natural
numbers. Here every `+=` and every `*` of size.go is done in an `int` of `w` bits.
-/
namespace Nimiq.Beserial
open Spec

/-- Go's `int` of `w` bits: the number that differs from `n` by a multiple of 2^w and lies in -2^(w-1) .. 2^(w-1)-1 -/
def wrap (w : Nat) (n : Int) : Int := n.bmod (2 ^ w)

mutual
/-- size.go:21-96 `valueSize`, in an `int` of `w` bits. The lengths of values (`v.Len()`, `typ.Len()`) are Go ints as well: what
the model allows beyond that, no program can have. What the walk over a type with custom methods returns is taken from the type. -/
def valueSizeAt (w : Nat) : (t : Ty) → t.Val → Tags → Out Int
  | .custom c, v, _ =>
    match c.gsize v with
    | .ok n => .ok (wrap w n)
    | .err e => .err e
    | .panic => .panic
  | .ptr t, v, ts =>
    match v with
    | none => if ts.optional then .ok (wrap w 1) else .err .nonOptionalNil
    | some x => do
      let elem ← valueSizeAt w t x ts
      return wrap w ((if ts.optional then wrap w 1 else 0) + elem)
  | .byteArr n, _, _ => .ok (wrap w (n * 1))
  | .arr n t, v, _ =>
    match t.numSize with
    | some s => .ok (wrap w (n * s))
    | none => v.val.foldlM (fun total x => do return wrap w (total + (← valueSizeAt w t x {}))) 0
  | .str, v, ts =>
    match ts.lenTag with
    | none => .err .noLenTag
    | some k => .ok (wrap w (k.size + v.length))
  | .byteSlice, v, ts =>
    match ts.lenTag with
    | none => .err .noLenTag
    | some k => .ok (wrap w (k.size + wrap w (v.length * 1)))
  | .slice t, v, ts =>
    match ts.lenTag with
    | none => .err .noLenTag
    | some k =>
      match t.numSize with
      | some s => .ok (wrap w (k.size + wrap w (v.length * s)))
      | none => v.foldlM (fun total x => do return wrap w (total + (← valueSizeAt w t x {}))) (wrap w k.size)
  | .struct fs, v, _ => fieldsSizeAt w fs v 0
  | .bool, _, _ => .err .cannotMarshal
  | .num k, _, _ => .ok (wrap w k.size)
  | .unsupported _ _, _, _ => .err .cannotMarshal
/-- size.go:73-87: the struct case of `valueSize`, in an `int` of `w` bits -/
def fieldsSizeAt (w : Nat) : (fs : Fields) → fs.Val → Int → Out Int
  | .nil, _, total => .ok total
  | .cons tag t fs, v, total =>
    match fieldTags tag with
    | none => .panic
    | some ts =>
      match valueSizeAt w t v.1 ts with
      | .ok n => fieldsSizeAt w fs v.2 (wrap w (total + n))
      | .err e => .err e
      | .panic => .panic
end

/-- size.go:11-19 `Size` of a pointer to `v`, on a platform whose `int` has `w` bits -/
def SizeAt (w : Nat) (t : Ty) (v : t.Val) : Out Int := valueSizeAt w t v {}

/-- The same outcome, but the number wrapped around. -/
def wrapped (w : Nat) : Out Nat → Out Int
  | .ok n => .ok (wrap w n)
  | .err e => .err e
  | .panic => .panic

theorem wrap_add_right (w : Nat) (a b : Int) : wrap w (a + wrap w b) = wrap w (a + b) := by
  unfold wrap; exact Int.add_bmod_bmod

theorem wrap_add_left (w : Nat) (a b : Int) : wrap w (wrap w a + b) = wrap w (a + b) := by
  unfold wrap; exact Int.bmod_add_bmod

theorem wrap_wrap (w : Nat) (a : Int) : wrap w (wrap w a) = wrap w a := by
  unfold wrap; exact Int.bmod_bmod

theorem wrap_zero (w : Nat) : wrap w 0 = 0 := by
  unfold wrap; exact Int.zero_bmod

theorem wrap_of_lt {w n : Nat} (hw : 0 < w) (h : n < 2 ^ (w - 1)) : wrap w n = n := by
  unfold wrap
  have e : 2 ^ w = 2 * 2 ^ (w - 1) := by
    rw [← Nat.pow_succ']; congr 1; omega
  rw [e]
  apply Int.bmod_eq_of_le <;> omega

theorem wrap_range {w : Nat} (hw : 0 < w) (a : Int) : -(2 ^ (w - 1) : Nat) ≤ wrap w a ∧ wrap w a < (2 ^ (w - 1) : Nat) := by
  unfold wrap
  have e : 2 ^ w = 2 * 2 ^ (w - 1) := by
    rw [← Nat.pow_succ']; congr 1; omega
  have hp : 0 < 2 ^ (w - 1) := Nat.pow_pos (by omega)
  rw [e]
  have h1 := Int.le_bmod (x := a) (m := 2 * 2 ^ (w - 1)) (by omega)
  have h2 := Int.bmod_lt (x := a) (m := 2 * 2 ^ (w - 1)) (by omega)
  omega

theorem foldlM_wrap {α} (w : Nat) (f : α → Out Int) (g : α → Out Nat) (h : ∀ x, f x = wrapped w (g x)) :
    ∀ (l : List α) (n : Nat), l.foldlM (fun total x => do return wrap w (total + (← f x))) (wrap w n) =
      wrapped w (l.foldlM (fun total x => do return total + (← g x)) n)
  | [], n => rfl
  | x :: l, n => by
    rw [List.foldlM_cons, List.foldlM_cons, h x]
    cases hg : g x with
    | ok k =>
      have ih := foldlM_wrap w f g h l (n + k)
      show l.foldlM _ (wrap w (wrap w n + wrap w k)) = wrapped w (l.foldlM _ (n + k))
      rw [wrap_add_left, wrap_add_right, ← ih]
      rfl
    | err e => rfl
    | panic => rfl

mutual
theorem valueSizeAt_eq (w : Nat) : ∀ (t : Ty) (v : t.Val) (ts : Tags), valueSizeAt w t v ts = wrapped w (valueSize t v ts)
  | .custom c, v, _ => by simp only [valueSizeAt, valueSize]; cases c.gsize v <;> rfl
  | .ptr t, none, ts => by
    simp only [valueSizeAt, valueSize]
    split <;> rfl
  | .ptr t, some x, ts => by
    simp only [valueSizeAt, valueSize, valueSizeAt_eq w t x ts]
    cases valueSize t x ts with
    | ok n =>
      show Out.ok (wrap w ((if ts.optional then wrap w 1 else 0) + wrap w n)) = .ok (wrap w (((if ts.optional then 1 else 0) + n : Nat) : Int))
      rw [wrap_add_right]
      split
      · rw [wrap_add_left]; simp
      · simp
    | err e => rfl
    | panic => rfl
  | .byteArr n, _, _ => by simp only [valueSizeAt, valueSize, wrapped]; simp
  | .arr n t, v, _ => by
    simp only [valueSizeAt, valueSize]
    cases t.numSize with
    | some s => simp [wrapped]
    | none =>
      have := foldlM_wrap w _ _ (fun x => valueSizeAt_eq w t x {}) v.val 0
      simp only [Int.ofNat_zero, wrap_zero, Int.natCast_zero] at this
      exact this
  | .str, v, ts => by
    simp only [valueSizeAt, valueSize]
    cases ts.lenTag <;> simp [wrapped]
  | .byteSlice, v, ts => by
    simp only [valueSizeAt, valueSize]
    cases ts.lenTag <;> simp [wrapped, wrap_add_right]
  | .slice t, v, ts => by
    simp only [valueSizeAt, valueSize]
    cases ts.lenTag with
    | none => rfl
    | some k =>
      cases t.numSize with
      | some s => simp [wrapped, wrap_add_right]
      | none => exact foldlM_wrap w _ _ (fun x => valueSizeAt_eq w t x {}) v k.size
  | .struct fs, v, _ => by
    simp only [valueSizeAt, valueSize]
    have := fieldsSizeAt_eq w fs v 0
    simp only [Int.natCast_zero, wrap_zero] at this
    exact this
  | .bool, _, _ => rfl
  | .num k, _, _ => rfl
  | .unsupported _ _, _, _ => rfl
theorem fieldsSizeAt_eq (w : Nat) : ∀ (fs : Fields) (v : fs.Val) (total : Nat),
    fieldsSizeAt w fs v (wrap w total) = wrapped w (fieldsSize fs v total)
  | .nil, v, total => rfl
  | .cons tag t fs, v, total => by
    simp only [fieldsSizeAt, fieldsSize]
    cases fieldTags tag with
    | none => rfl
    | some ts =>
      simp only [valueSizeAt_eq w t v.1 ts]
      cases valueSize t v.1 ts with
      | ok n =>
        show fieldsSizeAt w fs v.2 (wrap w (wrap w total + wrap w n)) = _
        rw [wrap_add_left, wrap_add_right, ← Int.natCast_add]
        exact fieldsSizeAt_eq w fs v.2 (total + n)
      | err e => rfl
      | panic => rfl
end

/-- C144, all types and values. Whenever Marshal's result is one that a Go program can have (a slice has at most 2^(w-1)-1 bytes),
Size returns its exact length or an error, never another number. -/
theorem C144_exact_partial (w : Nat) (hw : 0 < w) (t : Ty) (ht : SizeOk t) (v : t.Val) (bs : Bytes) (h : Marshal [] t v = .ok bs)
    (hb : bs.length < 2 ^ (w - 1)) (n : Int) (hn : SizeAt w t v = .ok n) : n = bs.length := by
  unfold SizeAt at hn
  rw [valueSizeAt_eq] at hn
  cases hs : valueSize t v {} with
  | ok m =>
    rw [hs] at hn
    obtain ⟨bs', h1, h2⟩ := C32_size_sound t ht v m hs
    rw [h] at h1
    cases h1
    cases hn
    rw [← h2, wrap_of_lt hw hb]
  | err e => rw [hs] at hn; cases hn
  | panic => rw [hs] at hn; cases hn

/-- C144, all types and values: what Size returns in general. If it returns a number, the bytes that Marshal writes are some `bs`,
and the number is their length up to a multiple of 2^w; it is right exactly if the length fits. Size fails or panics on one
platform if and only if it does so on every other, with the same error. -/
theorem C144_wraps (w : Nat) (hw : 0 < w) (t : Ty) (ht : SizeOk t) (v : t.Val) :
    (∀ n, SizeAt w t v = .ok n → ∃ bs : Bytes, Marshal [] t v = .ok bs ∧ (2 ^ w : Int) ∣ bs.length - n ∧
      -(2 ^ (w - 1)) ≤ n ∧ n < 2 ^ (w - 1) ∧ (n = bs.length ↔ bs.length < 2 ^ (w - 1))) ∧
    (∀ e w', SizeAt w t v = .err e → SizeAt w' t v = .err e) ∧
    (∀ w', SizeAt w t v = .panic → SizeAt w' t v = .panic) := by
  unfold SizeAt
  simp only [valueSizeAt_eq]
  cases hs : valueSize t v {} with
  | ok m =>
    refine ⟨fun n hn => ?_, fun _ _ h => (by cases h), fun _ h => (by cases h)⟩
    cases hn
    obtain ⟨bs, h1, h2⟩ := C32_size_sound t ht v m hs
    have hr := wrap_range hw (m : Int)
    push_cast at hr
    refine ⟨bs, h1, ?_, hr.1, hr.2, fun e => ?_, fun hb => ?_⟩
    · rw [h2]
      have := Int.dvd_self_sub_bmod (x := (m : Int)) (m := 2 ^ w)
      unfold wrap
      push_cast at this
      exact this
    · rw [e] at hr
      exact_mod_cast hr.2
    · rw [← h2]; exact wrap_of_lt hw hb
  | err e => exact ⟨fun _ h => (by cases h), fun _ _ h => h, fun _ h => (by cases h)⟩
  | panic => exact ⟨fun _ h => (by cases h), fun _ _ h => (by cases h), fun _ h => h⟩

/-! ## Values whose encoding does not fit -/

/-- `struct { Data []byte "len_tag=uint32" }` -/
def blobTy : Ty := .struct (.cons (some (lenTagText .u32)) .byteSlice .nil)

/-- `struct { Blobs []struct { Data []byte "len_tag=uint32" } "len_tag=uint32" }` -/
def blobsTy : Ty := .struct (.cons (some (lenTagText .u32)) (.slice blobTy) .nil)

/-- `n` times the same `Data` of `m` zero bytes. In Go all elements can share one backing array: `n + m` words of memory. -/
def blobList (n m : Nat) : (Ty.slice blobTy).Val := List.replicate n (List.replicate m 0, ())

/-- `blobList` in its struct -/
def blobs (n m : Nat) : blobsTy.Val := (blobList n m, ())

theorem blobTy_size (m : Nat) : valueSize blobTy (List.replicate m 0, ()) {} = .ok (4 + m) := by
  have h := parseTag_lenTag .u32
  simp only [blobTy, valueSize, fieldsSize, fieldTags, h, List.length_replicate, LenKind.size]
  rw [Nat.mul_one, Nat.zero_add]

theorem sum_replicate {α} (f : α → Out Nat) (x : α) (k : Nat) (h : f x = .ok k) : ∀ (n t : Nat),
    (List.replicate n x).foldlM (fun total x => do return total + (← f x)) t = .ok (t + n * k)
  | 0, t => by simp [pure]
  | n + 1, t => by
    rw [List.replicate_succ, List.foldlM_cons, h]
    show List.foldlM _ (t + k) _ = _
    rw [sum_replicate f x k h n (t + k)]
    congr 1
    rw [Nat.succ_mul]; omega

theorem blobs_size (n m : Nat) : Size blobsTy (blobs n m) = .ok (4 + n * (4 + m)) := by
  have h := parseTag_lenTag .u32
  have hs : valueSize (.slice blobTy) (blobList n m) { lenTag := some .u32 } = .ok (4 + n * (4 + m)) := by
    have := sum_replicate (fun x => valueSize blobTy x {}) _ _ (blobTy_size m) n 4
    simp only [valueSize]
    exact this
  have hf : fieldTags (some (lenTagText .u32)) = some { lenTag := some .u32 } := h
  have key : ∀ v : (Fields.cons (some (lenTagText .u32)) (.slice blobTy) .nil).Val, v.1 = blobList n m →
      fieldsSize (.cons (some (lenTagText .u32)) (.slice blobTy) .nil) v 0 = .ok (4 + n * (4 + m)) := by
    intro v hv
    simp only [fieldsSize, hf, hv, hs]
    rw [Nat.zero_add]
  have := key (blobs n m) rfl
  simp only [Size, blobsTy, valueSize]
  exact this

theorem blobs_ok : SizeOk blobsTy := ⟨⟨trivial, trivial⟩, trivial⟩

/-- C144 is violated for values that do not fit. On a 32-bit platform, 32768 slices that share 64 KiB have -2147352572 bytes
according to Size, and 65536 slices that share 65532 bytes have four; the bytes that Marshal is to write are
2147614724 and 4294967300. -/
theorem C144_any_value_violated :
    SizeAt 32 blobsTy (blobs 32768 65536) = .ok (-2147352572) ∧
    SizeAt 32 blobsTy (blobs 65536 65532) = .ok 4 ∧
    (∃ bs, Marshal [] blobsTy (blobs 32768 65536) = .ok bs ∧ bs.length = 2147614724) ∧
    ∃ bs, Marshal [] blobsTy (blobs 65536 65532) = .ok bs ∧ bs.length = 4294967300 := by
  refine ⟨?_, ?_, C32_size_sound _ blobs_ok _ _ (blobs_size _ _), C32_size_sound _ blobs_ok _ _ (blobs_size _ _)⟩
  · unfold SizeAt
    rw [valueSizeAt_eq]
    have := blobs_size 32768 65536
    unfold Size at this
    rw [this]
    rfl
  · unfold SizeAt
    rw [valueSizeAt_eq]
    have := blobs_size 65536 65532
    unfold Size at this
    rw [this]
    rfl

/-- C144_exact_partial is about real values: two slices of three bytes, on a 32-bit platform. -/
example : SizeAt 32 blobsTy (blobs 2 3) = .ok 18 ∧ ∃ bs, Marshal [] blobsTy (blobs 2 3) = .ok bs ∧ bs.length < 2 ^ (32 - 1) := by
  refine ⟨?_, ?_⟩
  · unfold SizeAt
    rw [valueSizeAt_eq]
    have := blobs_size 2 3
    unfold Size at this
    rw [this]
    rfl
  · obtain ⟨bs, h1, h2⟩ := C32_size_sound _ blobs_ok _ _ (blobs_size 2 3)
    exact ⟨bs, h1, by rw [h2]; decide⟩

end Nimiq.Beserial
