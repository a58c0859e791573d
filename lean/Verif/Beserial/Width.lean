import Verif.Beserial.Props
/-!
# C142: 32-bit platforms

Go's `int` has 32 or 64 bits; `const maxInt = (^uint(0)) >> 1` in decode.go follows it, and so does what `Unmarshal` says to a
length that is too large. Here the largest `int` is a parameter.
-/
namespace Nimiq.Beserial

/-- decode.go:122-140: reading a slice length, on a platform whose largest `int` is `max` -/
def readLenAt (max : Nat) (ts : Tags) (d : Bytes) : Res Nat :=
  match ts.lenTag with
  | none => .err .noLenTag d
  | some k =>
    match pop k.size d with
    | none => .err .eof d
    | some (b, d) => if getBE b > max then .err .badLen d else .ok (getBE b) d

mutual
/-- decode.go:60-214 `value`, on a platform whose largest `int` is `max`. Custom decoders are those of the type. -/
def decodeAt (max : Nat) : (t : Ty) → t.Val → Tags → Bytes → Res t.Val
  | .custom c, prev, _, d => runCustom c.dec prev d
  | .ptr t, prev, ts, d =>
    match t.customDec with
    | some f =>
      match prev with
      | none => .panic
      | some p => (runCustom f p d).map some
    | none =>
      if ts.optional then
        match pop 1 d with
        | none => .err .eof d
        | some (flag, d) =>
          if flag = [0x00] then .ok none d
          else if flag = [0x01] then (decodeAt max t t.zero ts d).map some
          else .err .badOptional d
      else (decodeAt max t t.zero ts d).map some
  | .byteArr n, _, _, d =>
    match pop n d with
    | none => .err .eof d
    | some (b, d) => .ok (BArr.copy n b) d
  | .arr n t, prev, _, d =>
    match decLoop (fun p d => decodeAt max t p {} d) prev.val d with
    | .ok l d => .ok ⟨l.val, by rw [l.property, prev.property]⟩ d
    | .err e d => .err e d
    | .panic => .panic
  | .str, _, ts, d =>
    match readLenAt max ts d with
    | .ok u d =>
      match pop u d with
      | none => .err .eof d
      | some (b, d) => .ok b d
    | .err e d => .err e d
    | .panic => .panic
  | .byteSlice, _, ts, d =>
    match readLenAt max ts d with
    | .ok u d =>
      match pop u d with
      | none => .err .eof d
      | some (b, d) => .ok b d
    | .err e d => .err e d
    | .panic => .panic
  | .slice t, _, ts, d =>
    match readLenAt max ts d with
    | .ok u d =>
      if u > d.length then .err .tooLargeAlloc d
      else (decLoop (fun p d => decodeAt max t p {} d) (List.replicate u t.zero) d).map (·.val)
    | .err e d => .err e d
    | .panic => .panic
  | .struct fs, prev, _, d => decodeFieldsAt max fs prev d
  | .bool, _, _, d =>
    match pop 1 d with
    | none => .err .eof d
    | some (b, d) =>
      if b = [0] then .ok false d
      else if b = [1] then .ok true d
      else .err .badBool d
  | .num k, _, _, d =>
    match pop k.size d with
    | none => .err .eof d
    | some (b, d) => .ok (getNum k b) d
  | .unsupported _ _, _, _, d => .err .cannotMarshal d
/-- decode.go:170-185: the struct case of `value` -/
def decodeFieldsAt (max : Nat) : (fs : Fields) → fs.Val → Bytes → Res fs.Val
  | .nil, _, d => .ok () d
  | .cons tag t fs, prev, d =>
    match fieldTags tag with
    | none => .panic
    | some ts =>
      match decodeAt max t prev.1 ts d with
      | .ok v d => (decodeFieldsAt max fs prev.2 d).map fun vs => (v, vs)
      | .err e d => .err e d
      | .panic => .panic
end

/-- decode.go:15-20 `Unmarshal`, on a platform whose largest `int` is `max` -/
def UnmarshalAt (max : Nat) (t : Ty) (prev : t.Val) (data : Bytes) : Res t.Val := decodeAt max t prev {} data

/-- The same value and the same bytes read, or both an error (perhaps not the same) at the same place, or both a panic. -/
inductive Agree {α : Type} : Res α → Res α → Prop
  | ok (v : α) (rest : Bytes) : Agree (.ok v rest) (.ok v rest)
  | err (e e' : Err) (rest : Bytes) : Agree (.err e rest) (.err e' rest)
  | panic : Agree .panic .panic

theorem Agree.rfl {α} (r : Res α) : Agree r r := by
  cases r
  · exact .ok _ _
  · exact .err _ _ _
  · exact .panic

theorem Agree.map {α β} {r r' : Res α} (h : Agree r r') (f : α → β) : Agree (r.map f) (r'.map f) := by
  cases h
  · exact .ok _ _
  · exact .err _ _ _
  · exact .panic

theorem pop_eq_none {n : Nat} {d : Bytes} (h : d.length < n) : pop n d = none := by
  unfold pop; rw [if_pos h]

/-- The two platforms read the same length, or one says that it is too large and for the other it is more than is there. -/
theorem readLen_cases {max : Nat} (ts : Tags) {d : Bytes} (h : d.length ≤ max) (h' : d.length ≤ maxInt) :
    readLenAt max ts d = readLen ts d ∨ ∃ u d', d'.length < u ∧
      ((readLenAt max ts d = .err .badLen d' ∧ readLen ts d = .ok u d') ∨
        (readLenAt max ts d = .ok u d' ∧ readLen ts d = .err .badLen d')) := by
  unfold readLenAt readLen
  cases ts.lenTag with
  | none => exact .inl rfl
  | some k =>
    simp only []
    cases hp : pop k.size d with
    | none => exact .inl rfl
    | some r =>
      obtain ⟨b, d'⟩ := r
      have hl := (pop_suffix hp).length_le
      simp only []
      by_cases h1 : getBE b > max <;> by_cases h2 : getBE b > maxInt
      · rw [if_pos h1, if_pos h2]; exact .inl rfl
      · rw [if_pos h1, if_neg h2]; exact .inr ⟨_, d', by omega, .inl ⟨rfl, rfl⟩⟩
      · rw [if_neg h1, if_pos h2]; exact .inr ⟨_, d', by omega, .inr ⟨rfl, rfl⟩⟩
      · rw [if_neg h1, if_neg h2]; exact .inl rfl

theorem decLoop_agree {α} {f g : α → Bytes → Res α} {N : Nat} (hg : ∀ p d r, (g p d).rest = some r → r <:+ d)
    (hf : ∀ p d, d.length ≤ N → Agree (f p d) (g p d)) : ∀ (prev : List α) (d : Bytes), d.length ≤ N →
    Agree (decLoop f prev d) (decLoop g prev d)
  | [], d, h => .ok _ _
  | p :: prev, d, h => by
    have h1 := hf p d h
    have h2 := hg p d
    simp only [decLoop]
    revert h1 h2
    generalize f p d = x
    generalize g p d = y
    intro h1 h2
    cases h1 with
    | ok v r =>
      have h3 := decLoop_agree hg hf prev r (Nat.le_trans (h2 r rfl).length_le h)
      simp only []
      revert h3
      generalize decLoop f prev r = x
      generalize decLoop g prev r = y
      intro h3
      cases h3
      · exact .ok _ _
      · exact .err _ _ _
      · exact .panic
    | err e e' r => exact .err _ _ _
    | panic => exact .panic

mutual
theorem decode_agree {max : Nat} : ∀ (t : Ty) (prev : t.Val) (ts : Tags) (d : Bytes), d.length ≤ max → d.length ≤ maxInt →
    Agree (decodeAt max t prev ts d) (decode noLimit t prev ts d)
  | .custom c, prev, _, d, h, h' => by simp only [decodeAt, decode]; exact .rfl _
  | .ptr t, prev, ts, d, h, h' => by
    simp only [decodeAt, decode]
    cases t.customDec with
    | some f => cases prev <;> exact .rfl _
    | none =>
      simp only []
      split
      · cases hp : pop 1 d with
        | none => exact .rfl _
        | some r =>
          obtain ⟨b, d'⟩ := r
          have hl := (pop_suffix hp).length_le
          simp only []
          split
          · exact .rfl _
          · split
            · exact (decode_agree t t.zero ts d' (by omega) (by omega)).map _
            · exact .rfl _
      · exact (decode_agree t t.zero ts d h h').map _
  | .byteArr n, _, _, d, h, h' => by simp only [decodeAt, decode]; exact .rfl _
  | .arr n t, prev, _, d, h, h' => by
    simp only [decodeAt, decode]
    have := decLoop_agree (N := min max maxInt) (fun p d r => decode_suffix noLimit t {} p d r)
      (fun p d hd => decode_agree (max := max) t p {} d (by omega) (by omega)) prev.val d (by omega)
    revert this
    generalize decLoop (fun p d => decodeAt max t p {} d) prev.val d = x
    generalize decLoop (fun p d => decode noLimit t p {} d) prev.val d = y
    intro this
    cases this
    · exact .ok _ _
    · exact .err _ _ _
    · exact .panic
  | .str, _, ts, d, h, h' => by
    simp only [decodeAt, decode]
    rcases readLen_cases ts h h' with e | ⟨u, d', hu, ⟨e, e'⟩ | ⟨e, e'⟩⟩
    · rw [e]; exact .rfl _
    · rw [e, e']; simp only [pop_eq_none hu]; exact .err _ _ _
    · rw [e, e']; simp only [pop_eq_none hu]; exact .err _ _ _
  | .byteSlice, _, ts, d, h, h' => by
    simp only [decodeAt, decode, noLimit, if_true]
    rcases readLen_cases ts h h' with e | ⟨u, d', hu, ⟨e, e'⟩ | ⟨e, e'⟩⟩
    · rw [e]; exact .rfl _
    · rw [e, e']; simp only [pop_eq_none hu]; exact .err _ _ _
    · rw [e, e']; simp only [pop_eq_none hu]; exact .err _ _ _
  | .slice t, _, ts, d, h, h' => by
    have hlim : ∀ u : Nat, noLimit u = true := fun _ => rfl
    simp only [decodeAt, decode, hlim, if_true]
    have same : ∀ (u : Nat) (d' : Bytes), d'.length ≤ d.length →
        Agree (if u > d'.length then .err .tooLargeAlloc d'
          else (decLoop (fun p d => decodeAt max t p {} d) (List.replicate u t.zero) d').map (·.val))
        (if u > d'.length then .err .tooLargeAlloc d'
          else (decLoop (fun p d => decode noLimit t p {} d) (List.replicate u t.zero) d').map (·.val)) := by
      intro u d' hd
      split
      · exact .rfl _
      · exact (decLoop_agree (N := min max maxInt) (fun p d r => decode_suffix noLimit t {} p d r)
          (fun p d hd => decode_agree (max := max) t p {} d (by omega) (by omega)) _ d' (by omega)).map _
    rcases readLen_cases ts h h' with e | ⟨u, d', hu, ⟨e, e'⟩ | ⟨e, e'⟩⟩
    · rw [e]
      cases hr : readLen ts d with
      | ok u d' =>
        have hs := (readLen_suffix (ts := ts) (d := d) (r := d') (by rw [hr]; rfl)).length_le
        exact same u d' hs
      | err e d' => exact .rfl _
      | panic => exact .rfl _
    · rw [e, e']; simp only [gt_iff_lt, if_pos hu]; exact .err _ _ _
    · rw [e, e']; simp only [gt_iff_lt, if_pos hu]; exact .err _ _ _
  | .struct fs, prev, _, d, h, h' => by simp only [decodeAt, decode]; exact decodeFields_agree fs prev d h h'
  | .bool, _, _, d, h, h' => by simp only [decodeAt, decode]; exact .rfl _
  | .num k, _, _, d, h, h' => by simp only [decodeAt, decode]; exact .rfl _
  | .unsupported _ _, _, _, d, h, h' => by simp only [decodeAt, decode]; exact .rfl _
theorem decodeFields_agree {max : Nat} : ∀ (fs : Fields) (prev : fs.Val) (d : Bytes), d.length ≤ max → d.length ≤ maxInt →
    Agree (decodeFieldsAt max fs prev d) (decodeFields noLimit fs prev d)
  | .nil, prev, d, h, h' => by simp only [decodeFieldsAt, decodeFields]; exact .rfl _
  | .cons tag t fs, prev, d, h, h' => by
    simp only [decodeFieldsAt, decodeFields]
    cases fieldTags tag with
    | none => exact .panic
    | some ts =>
      simp only []
      have h1 := decode_agree t prev.1 ts d h h'
      have h2 := decode_suffix noLimit t ts prev.1 d
      revert h1 h2
      generalize decodeAt max t prev.1 ts d = x
      generalize decode noLimit t prev.1 ts d = y
      intro h1 h2
      cases h1 with
      | ok v r =>
        have := (h2 r rfl).length_le
        exact (decodeFields_agree fs prev.2 r (by omega) (by omega)).map _
      | err e e' r => exact .err _ _ _
      | panic => exact .panic
end

theorem Agree.symm {α} {r r' : Res α} (h : Agree r r') : Agree r' r := by
  cases h
  · exact .ok _ _
  · exact .err _ _ _
  · exact .panic

theorem Agree.trans {α} {r r' r'' : Res α} (h : Agree r r') (h' : Agree r' r'') : Agree r r'' := by
  cases h
  · exact h'
  · cases h'; exact .err _ _ _
  · exact h'

theorem Agree.rest {α} {r r' : Res α} (h : Agree r r') (data : Bytes) : bytesRead data r = bytesRead data r' := by
  cases h <;> rfl

/-- The 64-bit platform of the definition is the one of the model. -/
theorem readLenAt_maxInt (ts : Tags) (d : Bytes) : readLenAt maxInt ts d = readLen ts d := Eq.refl _

/-! ## Types with short lengths -/

/-- The length of a slice is given by `uint8` or `uint16`. -/
def shortTag (ts : Tags) : Bool :=
  match ts.lenTag with
  | none | some .u8 | some .u16 => true
  | some .u32 | some .u64 => false

mutual
/-- No slice or string in the type has a `uint32` or `uint64` length. Types with custom decoders count as one. -/
def Short : Ty → Bool
  | .num _ | .bool | .str | .byteArr _ | .byteSlice | .custom _ | .unsupported _ _ => true
  | .arr _ t | .slice t | .ptr t => Short t
  | .struct fs => ShortFields fs
def ShortFields : Fields → Bool
  | .nil => true
  | .cons tag t fs => ((fieldTags tag).map shortTag).getD true && Short t && ShortFields fs
end

theorem readLen_short {max : Nat} (h : 65535 ≤ max) {ts : Tags} (hs : shortTag ts = true) (d : Bytes) :
    readLenAt max ts d = readLen ts d := by
  unfold readLenAt readLen
  have key : ∀ k : LenKind, k.size ≤ 2 → (match pop k.size d with
      | none => Res.err .eof d
      | some (b, d) => if getBE b > max then .err .badLen d else .ok (getBE b) d) =
      match pop k.size d with
      | none => Res.err .eof d
      | some (b, d) => if getBE b > maxInt then .err .badLen d else .ok (getBE b) d := by
    intro k hk
    cases hp : pop k.size d with
    | none => rfl
    | some r =>
      obtain ⟨b, d'⟩ := r
      have hb := getBE_lt b
      rw [(pop_some hp).1] at hb
      have h1 : (256 : Nat) ^ k.size ≤ 256 ^ 2 := Nat.pow_le_pow_right (by omega) hk
      have h2 : (256 : Nat) ^ 2 = 65536 := rfl
      have h3 : maxInt = 9223372036854775807 := rfl
      simp only []
      rw [if_neg (by omega), if_neg (by omega)]
  unfold shortTag at hs
  cases hk : ts.lenTag with
  | none => rfl
  | some k =>
    rw [hk] at hs
    cases k with
    | u8 => exact key .u8 (by decide)
    | u16 => exact key .u16 (by decide)
    | u32 => cases hs
    | u64 => cases hs

mutual
theorem decode_short {max : Nat} (h : 65535 ≤ max) : ∀ (t : Ty) (prev : t.Val) (ts : Tags) (d : Bytes), shortTag ts = true →
    Short t = true → decodeAt max t prev ts d = decode noLimit t prev ts d
  | .custom c, prev, _, d, _, _ => by simp only [decodeAt, decode] <;> rfl
  | .ptr t, prev, ts, d, hs, ht => by
    simp only [Short] at ht
    have ih := fun d => decode_short h t t.zero ts d hs ht
    simp only [decodeAt, decode, ih]; rfl
  | .byteArr n, _, _, d, _, _ => by simp only [decodeAt, decode] <;> rfl
  | .arr n t, prev, _, d, _, ht => by
    simp only [Short] at ht
    have ih : (fun (p : t.Val) d => decodeAt max t p {} d) = fun p d => decode noLimit t p {} d := by
      funext p d; exact decode_short h t p {} d rfl ht
    simp only [decodeAt, decode, ih]; rfl
  | .str, _, ts, d, hs, _ => by simp only [decodeAt, decode, readLen_short h hs]; rfl
  | .byteSlice, _, ts, d, hs, _ => by simp only [decodeAt, decode, readLen_short h hs, noLimit, if_true]; rfl
  | .slice t, _, ts, d, hs, ht => by
    simp only [Short] at ht
    have ih : (fun (p : t.Val) d => decodeAt max t p {} d) = fun p d => decode noLimit t p {} d := by
      funext p d; exact decode_short h t p {} d rfl ht
    have hlim : ∀ u : Nat, noLimit u = true := fun _ => rfl
    simp only [decodeAt, decode, readLen_short h hs, ih, hlim, if_true]; rfl
  | .struct fs, prev, _, d, _, ht => by
    simp only [Short] at ht
    simp only [decodeAt, decode]; exact decodeFields_short h fs prev d ht
  | .bool, _, _, d, _, _ => by simp only [decodeAt, decode] <;> rfl
  | .num k, _, _, d, _, _ => by simp only [decodeAt, decode] <;> rfl
  | .unsupported _ _, _, _, d, _, _ => by simp only [decodeAt, decode] <;> rfl
theorem decodeFields_short {max : Nat} (h : 65535 ≤ max) : ∀ (fs : Fields) (prev : fs.Val) (d : Bytes),
    ShortFields fs = true → decodeFieldsAt max fs prev d = decodeFields noLimit fs prev d
  | .nil, prev, d, _ => by simp only [decodeFieldsAt, decodeFields]
  | .cons tag t fs, prev, d, ht => by
    simp only [ShortFields, Bool.and_eq_true] at ht
    obtain ⟨⟨h1, h2⟩, h3⟩ := ht
    have ih2 := fun d => decodeFields_short h fs prev.2 d h3
    simp only [decodeFieldsAt, decodeFields]
    cases hf : fieldTags tag with
    | none => rfl
    | some ts =>
      rw [hf] at h1
      simp only [decode_short h t prev.1 ts d h1 h2, ih2]; rfl
end

/-- The largest `int` on 32-bit platforms. -/
def maxInt32 : Nat := 2 ^ 31 - 1

/-- C142, all types and inputs that fit into the memory of both platforms: the same value and the same number of bytes read, or
an error on both, or a panic on both. -/
theorem C142_same_outcome (t : Ty) (prev : t.Val) (data : Bytes) (h : data.length ≤ maxInt32) :
    (∀ v rest, UnmarshalAt maxInt32 t prev data = .ok v rest ↔ Unmarshal t prev data = .ok v rest) ∧
    ((∃ e rest, UnmarshalAt maxInt32 t prev data = .err e rest) ↔ ∃ e rest, Unmarshal t prev data = .err e rest) ∧
    (UnmarshalAt maxInt32 t prev data = .panic ↔ Unmarshal t prev data = .panic) ∧
    bytesRead data (UnmarshalAt maxInt32 t prev data) = bytesRead data (Unmarshal t prev data) := by
  have h1 : maxInt32 = 2147483647 := rfl
  have h2 : maxInt = 9223372036854775807 := rfl
  have A : Agree (UnmarshalAt maxInt32 t prev data) (Unmarshal t prev data) := decode_agree t prev {} data h (by omega)
  refine ⟨fun v rest => ?_, ?_, ?_, A.rest data⟩
  all_goals
    revert A
    generalize UnmarshalAt maxInt32 t prev data = x
    generalize Unmarshal t prev data = y
    intro A
    cases A <;> simp

/-- C142, the types whose lengths have at most two bytes, as all in the repository: the same outcome, errors included, for any
input of any length. -/
theorem C142_short_same (t : Ty) (ht : Short t = true) (prev : t.Val) (data : Bytes) :
    UnmarshalAt maxInt32 t prev data = Unmarshal t prev data :=
  decode_short (by decide) t prev {} data rfl ht

/-- A list with four bytes of length. -/
def longTy : Ty := .struct (.cons (some (sLenTag ++ sUint32)) .byteSlice .nil)

/-- C142 is false of the kind of error: a length of 2^31 without data ends the input on 64-bit platforms, and is an invalid
length on 32-bit ones. -/
theorem C142_error_violated : Unmarshal longTy longTy.zero [0x80, 0, 0, 0] = .err .eof [] ∧
    UnmarshalAt maxInt32 longTy longTy.zero [0x80, 0, 0, 0] = .err .badLen [] := by
  constructor <;> rfl

/-- A value that both platforms decode. -/
example : UnmarshalAt maxInt32 longTy longTy.zero [0, 0, 0, 2, 7, 8, 9] = .ok ([7, 8], ()) [9] ∧
    Unmarshal longTy longTy.zero [0, 0, 0, 2, 7, 8, 9] = .ok ([7, 8], ()) [9] := by constructor <;> rfl

end Nimiq.Beserial
