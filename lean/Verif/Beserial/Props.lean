import Verif.Beserial.Defined
/-!
# Properties of the codec (C29-C38, C71)

`Spec.enc t {} v` is the wire format of doc.go; `Good t` says custom types are lawful and slice elements have a size.
-/
namespace Nimiq.Beserial
open Spec

/-! A type for the examples:
`struct { A int16; B []uint32 "len_tag=uint8"; C *struct{ D bool; E string "len_tag=uint16" } "optional"; F [2]byte }` -/

def exInner : Ty := .struct (.cons none .bool (.cons (some (lenTagText .u16)) .str .nil))
def exTy : Ty := .struct
  (.cons none (.num .i16) (.cons (some (lenTagText .u8)) (.slice (.num .u32))
    (.cons (some (optionals 0)) (.ptr exInner) (.cons none (.byteArr 2) .nil))))
def exVal : exTy.Val := ((-2 : Int16), [(7 : UInt32), 0x01020304], some (true, [104, 105], ()), ⟨[8, 9], rfl⟩, ())
def exBytes : Bytes := [0xff, 0xfe, 2, 0, 0, 0, 7, 1, 2, 3, 4, 1, 1, 0, 2, 104, 105, 8, 9]

theorem exTy_good : Good exTy := by simp [exTy, exInner, Good, GoodFields, minSize, NumKind.size, isCustom]
theorem exTy_wf : Wf exTy := by
  simp only [exTy, exInner, Wf, WfFields, isCustom, fieldTags, parseTag_lenTag, parseTag_optionals]; decide
theorem exVal_enc : enc exTy {} exVal = some exBytes := by
  have h8 := parseTag_lenTag .u8
  have h16 := parseTag_lenTag .u16
  have ho := parseTag_optionals 0
  simp only [exTy, exInner, exVal, enc, encFields, fieldTags, h8, h16, ho]
  decide +kernel

/-- C29. Unmarshal inverts Marshal: for every type of the universe with lawful custom types, every value that has an
encoding, every variable to decode into and all trailing data. -/
theorem C29_round_trip (t : Ty) (ht : Good t) (v : t.Val) (bs : Bytes) (h : enc t {} v = some bs) :
    Marshal [] t v = .ok bs ∧ (∀ b, Marshal b t v = .ok (b ++ bs)) ∧
    ∀ prev rest, Unmarshal t prev (bs ++ rest) = .ok v rest ∧
      bytesRead (bs ++ rest) (Unmarshal t prev (bs ++ rest)) = bs.length := by
  refine ⟨by simpa [Marshal] using marshal_spec t {} v bs [] ht h, fun b => marshal_spec t {} v bs b ht h, fun prev rest => ?_⟩
  have := decode_spec noLimit (fun _ => rfl) t {} v prev bs rest ht h
  refine ⟨this, ?_⟩
  rw [Unmarshal, this]; simp [bytesRead]

/-- C29. "every value whose slice lengths fit their length tags": exactly the values that can be encoded at all and whose
slices and strings fit have an encoding. -/
theorem C29_encodable_values (t : Ty) (ht : Wf t) (v : t.Val) :
    (∃ bs, enc t {} v = some bs) ↔ Encodable t {} v ∧ Fits t {} v := by
  rw [← enc_isSome t {} v ht, Option.isSome_iff_exists]

example : Good exTy ∧ Wf exTy ∧ enc exTy {} exVal = some exBytes := ⟨exTy_good, exTy_wf, exVal_enc⟩

/-- C30. Whatever Unmarshal accepts is byte for byte what Marshal writes for the result. -/
theorem C30_canonical (t : Ty) (ht : Good t) (prev v : t.Val) (data rest : Bytes)
    (h : Unmarshal t prev data = .ok v rest) :
    ∃ bs, data = bs ++ rest ∧ Marshal [] t v = .ok bs ∧ bytesRead data (Unmarshal t prev data) = bs.length := by
  obtain ⟨bs, hbs, rfl⟩ := decode_canon noLimit t {} v prev data rest ht h
  refine ⟨bs, rfl, by simpa [Marshal] using marshal_spec t {} v bs [] ht hbs, ?_⟩
  rw [h]; simp [bytesRead]

/-- C30. No two encodings decode to the same value. -/
theorem C30_no_two_encodings (t : Ty) (ht : Good t) (p1 p2 v : t.Val) (d1 d2 r1 r2 : Bytes)
    (h1 : Unmarshal t p1 d1 = .ok v r1) (h2 : Unmarshal t p2 d2 = .ok v r2) :
    ∃ bs, d1 = bs ++ r1 ∧ d2 = bs ++ r2 := by
  obtain ⟨b1, e1, m1, _⟩ := C30_canonical t ht p1 v d1 r1 h1
  obtain ⟨b2, e2, m2, _⟩ := C30_canonical t ht p2 v d2 r2 h2
  rw [m1] at m2
  cases m2
  exact ⟨b1, e1, e2⟩

example : Unmarshal exTy exTy.zero exBytes = .ok exVal [] := by
  have := ((C29_round_trip exTy exTy_good exVal exBytes exVal_enc).2.2 exTy.zero []).1
  rwa [List.append_nil] at this

/-- C31. For every type whatsoever (any custom decoder) the unread data is the end of the input, whether decoding succeeds
or fails: `0 ≤ n ≤ len(data)` and exactly the first `n` bytes are gone. -/
theorem C31_byte_count (t : Ty) (prev : t.Val) (data : Bytes) (r : Bytes)
    (h : (∃ v, Unmarshal t prev data = .ok v r) ∨ ∃ e, Unmarshal t prev data = .err e r) :
    bytesRead data (Unmarshal t prev data) ≤ data.length ∧
    r = data.drop (bytesRead data (Unmarshal t prev data)) := by
  have hr : (Unmarshal t prev data).rest = some r := by
    rcases h with ⟨v, h⟩ | ⟨e, h⟩ <;> rw [h] <;> rfl
  obtain ⟨p, hp⟩ := decode_suffix noLimit t {} prev data r hr
  have hb : bytesRead data (Unmarshal t prev data) = data.length - r.length := by
    rcases h with ⟨v, h⟩ | ⟨e, h⟩ <;> rw [h] <;> rfl
  rw [hb]
  subst hp
  refine ⟨Nat.sub_le _ _, ?_⟩
  rw [List.length_append, Nat.add_sub_cancel]
  simp

example : bytesRead exBytes (Unmarshal exTy exTy.zero exBytes) ≤ exBytes.length := by
  refine (C31_byte_count exTy exTy.zero exBytes [] (.inl ⟨exVal, ?_⟩)).1
  have := ((C29_round_trip exTy exTy_good exVal exBytes exVal_enc).2.2 exTy.zero []).1
  rwa [List.append_nil] at this

/-- C31. On success the result depends only on the first `n` bytes and not on the variable's old contents. -/
theorem C31_depends_on_prefix (t : Ty) (ht : Good t) (prev v : t.Val) (data rest : Bytes)
    (h : Unmarshal t prev data = .ok v rest) (prev' : t.Val) (other : Bytes) :
    Unmarshal t prev' (data.take (bytesRead data (Unmarshal t prev data)) ++ other) = .ok v other := by
  obtain ⟨bs, rfl, hm, hn⟩ := C30_canonical t ht prev v data rest h
  rw [hn]
  obtain ⟨bs', hbs, e⟩ := decode_canon noLimit t {} v prev _ rest ht h
  rw [List.append_cancel_right_eq] at e
  subst e
  rw [List.take_left]
  exact ((C29_round_trip t ht v bs hbs).2.2 prev' other).1

example (other : Bytes) : Unmarshal exTy exTy.zero
    (exBytes.take (bytesRead exBytes (Unmarshal exTy exTy.zero exBytes)) ++ other) = .ok exVal other := by
  refine C31_depends_on_prefix exTy exTy_good exTy.zero exVal exBytes [] ?_ _ other
  have := ((C29_round_trip exTy exTy_good exVal exBytes exVal_enc).2.2 exTy.zero []).1
  rwa [List.append_nil] at this

/-- `[]struct{}` in a struct, with length tag uint8 -/
def emptyElems : Ty := .struct (.cons (some (lenTagText .u8)) (.slice (.struct .nil)) .nil)

/-- C31. Slices of zero-size elements are the exception (outside `Good`): their length is checked against the bytes that
follow, which are not read. -/
theorem C31_zero_size_elements_exception :
    (∃ v, Unmarshal emptyElems emptyElems.zero [1, 0] = .ok v [0]) ∧
    Unmarshal emptyElems emptyElems.zero [1] = .err .tooLargeAlloc [] := by
  have h8 := parseTag_lenTag .u8
  simp only [Unmarshal, emptyElems, decode, decodeFields, fieldTags, h8]
  refine ⟨⟨([()], ()), ?_⟩, ?_⟩ <;> rfl

/-- C32, first half. If Size succeeds then Marshal succeeds with exactly that many bytes. -/
theorem C32_size_sound (t : Ty) (ht : SizeOk t) (v : t.Val) (n : Nat) (h : Size t v = .ok n) :
    ∃ bs, Marshal [] t v = .ok bs ∧ bs.length = n := by
  obtain ⟨bs, h1, h2⟩ := valueSize_sound t {} v n [] ht h
  exact ⟨bs, by simpa [Marshal] using h2, h1⟩

/-- C32, second half, for types without bools and custom types. -/
theorem C32_size_complete_partial (t : Ty) (ht : Plain t) (v : t.Val) (bs : Bytes) (h : enc t {} v = some bs) :
    Size t v = .ok bs.length := valueSize_complete t {} v bs ht h

/-- C32, second half, is false: Size rejects every bool, Marshal accepts them. -/
theorem C32_size_complete_violated (v : Bool) :
    (∃ bs, Marshal [] .bool v = .ok bs) ∧ Size .bool v = .err .cannotMarshal :=
  ⟨⟨_, rfl⟩, rfl⟩

/-- a type for the examples: `struct { A uint64; B []uint16 "len_tag=uint32"; C *int8 "optional" }` -/
def exPlain : Ty := .struct (.cons none (.num .u64) (.cons (some (lenTagText .u32)) (.slice (.num .u16))
  (.cons (some (optionals 0)) (.ptr (.num .i8)) .nil)))

example : SizeOk exPlain ∧ Plain exPlain ∧
    Size exPlain ((1 : UInt64), [(2 : UInt16), 3], some (-1 : Int8), ()) = .ok (8 + (4 + 2 * 2) + (1 + 1)) := by
  refine ⟨by simp [exPlain, SizeOk, SizeOkFields, isCustom], by simp [exPlain, Plain, PlainFields], ?_⟩
  have h32 := parseTag_lenTag .u32
  have ho := parseTag_optionals 0
  simp only [Size, exPlain, valueSize, fieldsSize, fieldTags, h32, ho]
  decide

/-- C33, for values whose pointer targets can be encoded: Marshal appends to its argument. -/
theorem C33_append_partial (t : Ty) (ht : Wf t) (v : t.Val) (hv : TargetsOk t {} v) (b r : Bytes)
    (h : Marshal b t v = .ok r) : ∃ bs, Marshal [] t v = .ok bs ∧ r = b ++ bs := by
  have key := marshal_encodable t {} v ht hv
  by_cases he : Encodable t {} v
  · obtain ⟨bs, hbs⟩ := key.1 he
    rw [Marshal, hbs b] at h
    cases h
    exact ⟨bs, by simpa [Marshal] using hbs [], rfl⟩
  · obtain ⟨e, he'⟩ := key.2 he b
    rw [Marshal, he'] at h; cases h

/-- C33, for all values of types without pointers. -/
theorem C33_append_pointer_free (t : Ty) (ht : Wf t) (hp : PtrFree t) (v : t.Val) (b r : Bytes)
    (h : Marshal b t v = .ok r) : ∃ bs, Marshal [] t v = .ok bs ∧ r = b ++ bs :=
  C33_append_partial t ht v (targetsOk_of_ptrFree t {} v hp) b r h

example : ∃ bs, Marshal [] (.struct (.cons none (.num .u16) (.cons none .bool .nil))) ((258 : UInt16), true, ()) = .ok bs ∧
    ([9, 1, 2, 1] : Bytes) = [9] ++ bs :=
  C33_append_pointer_free _ (by simp [Wf, WfFields, fieldTags]) (by simp [PtrFree, PtrFreeFields]) _ [9] _ rfl

/-- `struct { A uint8; P *string }`: the string has no length tag, so no non-nil value can be encoded -/
def badPtr : Ty := .struct (.cons none (.num .u8) (.cons none (.ptr .str) .nil))

/-- C33 is false: the bytes given to Marshal and everything written so far are lost, with no error. -/
theorem C33_append_violated (b : Bytes) (a : UInt8) (s : Bytes) :
    Wf badPtr ∧ Marshal b badPtr (a, some s, ()) = .ok [] := by
  refine ⟨by simp [badPtr, Wf, WfFields, fieldTags, isCustom], ?_⟩
  simp [Marshal, badPtr, marshal, marshalFields, fieldTags, Ty.customEnc]

/-- C34, for values whose pointer targets can be encoded: Marshal succeeds exactly on encodable values. -/
theorem C34_reports_partial (t : Ty) (ht : Wf t) (v : t.Val) (hv : TargetsOk t {} v) (b : Bytes) :
    ((∃ r, Marshal b t v = .ok r) ↔ Encodable t {} v) ∧ ((∃ e, Marshal b t v = .err e) ↔ ¬ Encodable t {} v) := by
  have key := marshal_encodable t {} v ht hv
  by_cases he : Encodable t {} v
  · obtain ⟨bs, hbs⟩ := key.1 he
    have := hbs b
    simp [Marshal, this, he]
  · obtain ⟨e, he'⟩ := key.2 he b
    simp [Marshal, he', he]

/-- C34, for all values of types without pointers. -/
theorem C34_reports_pointer_free (t : Ty) (ht : Wf t) (hp : PtrFree t) (v : t.Val) (b : Bytes) :
    ((∃ r, Marshal b t v = .ok r) ↔ Encodable t {} v) ∧ ((∃ e, Marshal b t v = .err e) ↔ ¬ Encodable t {} v) :=
  C34_reports_partial t ht v (targetsOk_of_ptrFree t {} v hp) b

/-- C34 is false: an error below a pointer is reported as success with no bytes, and whatever is written afterwards makes
a plausible message: here a value that cannot be encoded "encodes" to the three bytes of its last field. -/
theorem C34_reports_violated (b : Bytes) (a : UInt8) (s : Bytes) (c : BArr 3) :
    let t : Ty := .struct (.cons none (.num .u8) (.cons none (.ptr .str) (.cons none (.byteArr 3) .nil)))
    ¬ Encodable t {} (a, some s, c, ()) ∧ Marshal b t (a, some s, c, ()) = .ok c.val := by
  refine ⟨by simp [Encodable, EncodableFields, fieldTags], ?_⟩
  simp [Marshal, marshal, marshalFields, fieldTags, Ty.customEnc]

example : Wf exTy ∧ TargetsOk exTy {} exVal ∧ Encodable exTy {} exVal := by
  have h := (C29_encodable_values exTy exTy_wf exVal).mp ⟨_, exVal_enc⟩
  refine ⟨exTy_wf, ?_, h.1⟩
  have h8 := parseTag_lenTag .u8
  have h16 := parseTag_lenTag .u16
  have ho := parseTag_optionals 0
  simp [exTy, exInner, exVal, TargetsOk, TargetsOkFields, fieldTags, h16, Encodable, EncodableFields]

/-- C35. For every type with valid struct tags and well-behaved custom decoders and every input, Unmarshal returns a
value or an error - even if no slice of more elements than there are input bytes can be allocated (`lim`). -/
theorem C35_no_panic (t : Ty) (ht : Safe t) (prev : t.Val) (data : Bytes) (lim : Nat → Bool)
    (hlim : ∀ n, n ≤ data.length → lim n = true) : decode lim t prev {} data ≠ .panic ∧ Unmarshal t prev data ≠ .panic :=
  ⟨decode_ne_panic lim data.length hlim t {} prev data ht (Nat.le_refl _),
    decode_ne_panic noLimit data.length (fun _ _ => rfl) t {} prev data ht (Nat.le_refl _)⟩

/-- C35. The allocation limit is not vacuous: with no memory at all a non-empty slice cannot be decoded. -/
theorem C35_limit_matters : decode (fun _ => false) (.struct (.cons (some (lenTagText .u8)) .byteSlice .nil))
    ([], ()) {} [1, 5] = .panic := by
  have h8 := parseTag_lenTag .u8
  simp only [decode, decodeFields, fieldTags, h8]
  rfl

example : Safe exTy := by
  have h8 := parseTag_lenTag .u8
  have h16 := parseTag_lenTag .u16
  have ho := parseTag_optionals 0
  simp [exTy, exInner, Safe, SafeFields, fieldTags, h8, h16, ho, isCustom]

/-- `struct { S []byte "len_tag=..." }` -/
def bytesTy (k : LenKind) : Ty := .struct (.cons (some (lenTagText k)) .byteSlice .nil)

/-- C36 is false for every over-long byte slice: Marshal succeeds, and the result decodes to a different (shorter) slice
with the rest of the data left over. -/
theorem C36_overlong_violated (k : LenKind) (s : Bytes) (hk : k ≠ .u64) (h : maxLen k < s.length)
    (prev : (bytesTy k).Val) : ∃ bs, Marshal [] (bytesTy k) (s, ()) = .ok bs ∧
      Unmarshal (bytesTy k) prev bs =
        .ok (s.take (s.length % 2 ^ (8 * lenBytes k)), ()) (s.drop (s.length % 2 ^ (8 * lenBytes k))) ∧
      s.take (s.length % 2 ^ (8 * lenBytes k)) ≠ s := by
  have hp := parseTag_lenTag k
  simp only [lenBytes_eq]
  have hpow : 2 ^ (8 * k.size) = 256 ^ k.size := by rw [Nat.pow_mul]
  have hm : maxLen k + 1 = 256 ^ k.size := by cases k <;> first | rfl | exact absurd rfl hk
  have hlt : s.length % 256 ^ k.size < 256 ^ k.size := Nat.mod_lt _ (Nat.pow_pos (by decide))
  have hle : s.length % 256 ^ k.size ≤ s.length := Nat.mod_le _ _
  have hmi := (maxLen_lt k).2
  refine ⟨putLen k s.length ++ s, ?_, ?_, ?_⟩
  · simp [Marshal, bytesTy, marshal, marshalFields, fieldTags, hp]
  · simp only [Unmarshal, bytesTy, decode, decodeFields, fieldTags, hp, readLen, pop_append (putLen_length k s.length)]
    have hb : getBE (putLen k s.length) = s.length % 256 ^ k.size := getBE_putBE _ _
    simp only [hb]
    rw [if_neg (by omega)]
    simp only [pop]
    rw [if_neg (by omega)]
    simp only [noLimit, if_true, Res.map, hpow]
  · intro e
    have := congrArg List.length e
    rw [List.length_take, hpow] at this
    omega

/-- C36, the true part: slices that fit are never corrupted. -/
theorem C36_fitting_partial (k : LenKind) (s : Bytes) (h : s.length ≤ maxLen k) (prev : (bytesTy k).Val) :
    ∃ bs, Marshal [] (bytesTy k) (s, ()) = .ok bs ∧ Unmarshal (bytesTy k) prev bs = .ok (s, ()) [] := by
  have hp := parseTag_lenTag k
  have he : enc (bytesTy k) {} (s, ()) = some (putLen k s.length ++ s) := by
    simp [bytesTy, enc, encFields, fieldTags, hp, len, h, putLen, putBE_eq_digits]
  have hg : Good (bytesTy k) := by simp [bytesTy, Good, GoodFields]
  obtain ⟨h1, _, h2⟩ := C29_round_trip (bytesTy k) hg (s, ()) _ he
  exact ⟨_, h1, by simpa using (h2 prev []).1⟩

example : LenKind.u8 ≠ .u64 ∧ maxLen .u8 < (List.replicate 256 (1 : UInt8)).length := by
  refine ⟨by decide, ?_⟩; rw [List.length_replicate]; decide

/-- C37. UnmarshalFull succeeds exactly if Unmarshal succeeds and has read everything. -/
theorem C37_full_iff (t : Ty) (prev v : t.Val) (data : Bytes) :
    UnmarshalFull t prev data = .ok v ↔
      ∃ r, Unmarshal t prev data = .ok v r ∧ bytesRead data (Unmarshal t prev data) = data.length := by
  unfold UnmarshalFull
  cases h : Unmarshal t prev data with
  | panic => simp
  | err e r => simp
  | ok v' r =>
    simp only [Res.ok.injEq, bytesRead]
    constructor
    · intro e
      split at e
      · cases e
      · cases e; exact ⟨r, ⟨rfl, rfl⟩, by omega⟩
    · rintro ⟨r', ⟨rfl, rfl⟩, e⟩
      rw [if_neg (by omega)]

/-- C37. It accepts exactly the whole encodings. -/
theorem C37_full_canonical (t : Ty) (ht : Good t) (prev v : t.Val) (data : Bytes) :
    UnmarshalFull t prev data = .ok v ↔ enc t {} v = some data := by
  rw [C37_full_iff]
  constructor
  · rintro ⟨r, h, hn⟩
    obtain ⟨bs, hbs, rfl⟩ := decode_canon noLimit t {} v prev data r ht h
    rw [h] at hn
    simp only [bytesRead, List.length_append] at hn
    have : r = [] := List.eq_nil_of_length_eq_zero (by omega)
    rw [hbs, this, List.append_nil]
  · intro h
    have := (C29_round_trip t ht v data h).2.2 prev []
    rw [List.append_nil] at this
    exact ⟨[], this.1, this.2⟩

example (prev : exTy.Val) : UnmarshalFull exTy prev exBytes = .ok exVal :=
  (C37_full_canonical exTy exTy_good prev exVal exBytes).mpr exVal_enc

/-- C38. The accepted tags. -/
theorem C38_tags (tag : List Char) (ts : Tags) : parseTag tag = some ts ↔
    (∃ n, tag = optionals n ∧ ts = { optional := true }) ∨ ∃ k, tag = lenTagText k ∧ ts = { lenTag := some k } :=
  parseTag_iff tag ts

/-- C38. A length tag cannot be combined with `optional`, in either order: Marshal, Unmarshal and Size of a struct with
such a field panic for every value and input. -/
theorem C38_no_combination (k : LenKind) (n : Nat) (t : Ty) (fs : Fields) (tag : List Char)
    (h : tag = lenTagText k ++ ',' :: optionals n ∨ tag = optionals n ++ ',' :: lenTagText k)
    (v : (Ty.struct (.cons (some tag) t fs)).Val) (d : Bytes) :
    parseTag tag = none ∧ Marshal d (.struct (.cons (some tag) t fs)) v = .panic ∧
    Unmarshal (.struct (.cons (some tag) t fs)) v d = .panic ∧ Size (.struct (.cons (some tag) t fs)) v = .panic := by
  have hnone : parseTag tag = none := by
    cases hp : parseTag tag with
    | none => rfl
    | some ts =>
      exfalso
      have hmem : ∀ n, 'l' ∈ optionals n ∧ '=' ∉ optionals n := by
        intro n
        induction n with
        | zero => decide
        | succ n ih =>
          rw [optionals]
          simp only [List.mem_append, ih, or_true, or_false, true_and]
          decide
      rcases (parseTag_iff tag ts).mp hp with ⟨m, e, _⟩ | ⟨k', e, _⟩
      · have : '=' ∈ tag := by
          rcases h with h | h <;> rw [h, List.mem_append]
          · exact Or.inl (by cases k <;> decide)
          · exact Or.inr (List.mem_cons_of_mem _ (by cases k <;> decide))
        rw [e] at this
        exact (hmem m).2 this
      · have : ',' ∈ tag := by
          rcases h with h | h <;> rw [h, List.mem_append] <;> exact Or.inr List.mem_cons_self
        rw [e] at this
        revert this
        cases k' <;> decide
  refine ⟨hnone, ?_, ?_, ?_⟩
  · simp [Marshal, marshal, marshalFields, fieldTags, hnone]
  · simp [Unmarshal, decode, decodeFields, fieldTags, hnone]
  · simp [Size, valueSize, fieldsSize, fieldTags, hnone]

example : parseTag (lenTagText .u8 ++ ',' :: optionals 0) = none :=
  (C38_no_combination .u8 0 .byteSlice .nil _ (.inl rfl) (([] : Bytes), ()) []).1

/-- C71. What the entry points do with arguments that are not pointers to values: everything that has no `IsNil` (structs,
numbers, strings, arrays) panics, nil pointers are an error for Marshal but decode from anything, reading nothing. -/
theorem C71_arguments (b : Bytes) :
    marshalArg b .plain = .panic ∧ unmarshalArg b .plain = .panic ∧ sizeArg .plain = .panic ∧
    (∀ t, marshalArg b (.pointer t none) = .err .invalidUnmarshal ∧ unmarshalArg b (.pointer t none) = .ok () b ∧
      sizeArg (.pointer t none) = .ok 0) ∧
    (∀ n, marshalArg b (.nilable n) = .err .invalidUnmarshal) ∧
    unmarshalArg b (.nilable false) = .err .invalidUnmarshal b ∧ unmarshalArg b (.nilable true) = .ok () b ∧
    sizeArg (.nilable false) = .err .invalidUnmarshal ∧ sizeArg (.nilable true) = .ok 0 ∧
    (∀ t v, marshalArg b (.pointer t (some v)) = Marshal b t v ∧ sizeArg (.pointer t (some v)) = Size t v ∧
      unmarshalArg b (.pointer t (some v)) = (Unmarshal t v b).map fun _ => ()) := by
  refine ⟨rfl, rfl, rfl, fun t => ⟨rfl, rfl, rfl⟩, fun n => rfl, rfl, rfl, rfl, rfl, fun t v => ⟨rfl, rfl, rfl⟩⟩

end Nimiq.Beserial
