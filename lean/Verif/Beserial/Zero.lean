import Verif.Beserial.Props
/-!
# Zero values (C99)

The encoding of a fresh variable (`var x T`) consists of zero bytes.
-/
namespace Nimiq.Beserial.Spec
open Beserial

mutual
/-- Custom encoders append zero bytes for their zero value (or fail). -/
def ZeroOk : Ty → Prop
  | .custom c => ∀ b b', c.enc c.zero b = .ok b' → ∃ n, b' = b ++ List.replicate n 0
  | .arr _ t => ZeroOk t
  | .struct fs => ZeroOkFields fs
  | _ => True
def ZeroOkFields : Fields → Prop
  | .nil => True
  | .cons _ t fs => ZeroOk t ∧ ZeroOkFields fs
end

end Nimiq.Beserial.Spec

namespace Nimiq.Beserial
open Spec

theorem putBE_zero : ∀ n, putBE n 0 = List.replicate n 0
  | 0 => rfl
  | n + 1 => by simp [putBE, putBE_zero n, List.replicate_succ]

theorem putNum_zero (k : NumKind) : putNum k k.zero = List.replicate k.size 0 := by
  cases k <;> simp [putNum, NumKind.zero, NumKind.size, putBE_zero]

theorem foldlM_zero {α} {f : Bytes → α → Out Bytes} {x : α}
    (hf : ∀ b b', f b x = .ok b' → ∃ n, b' = b ++ List.replicate n (0 : UInt8)) :
    ∀ (k : Nat) (b b' : Bytes), (List.replicate k x).foldlM f b = .ok b' → ∃ n, b' = b ++ List.replicate n (0 : UInt8)
  | 0, b, b', h => by
    simp only [List.replicate_zero, List.foldlM_nil] at h
    cases h
    exact ⟨0, by simp⟩
  | k + 1, b, b', h => by
    rw [List.replicate_succ, List.foldlM_cons] at h
    cases h1 : f b x with
    | ok b1 =>
      rw [h1] at h
      obtain ⟨n, rfl⟩ := hf b b1 h1
      obtain ⟨m, rfl⟩ := foldlM_zero hf k _ b' h
      exact ⟨n + m, by rw [List.append_assoc, List.replicate_append_replicate]⟩
    | err e => rw [h1] at h; cases h
    | panic => rw [h1] at h; cases h

mutual
theorem marshal_zero : ∀ (t : Ty) (ts : Tags) (b b' : Bytes), ZeroOk t → marshal t t.zero b ts = .ok b' →
    ∃ n, b' = b ++ List.replicate n 0
  | .custom c, ts, b, b', hz, h => by
    simp only [marshal, Ty.zero] at h; exact hz b b' h
  | .ptr t, ts, b, b', hz, h => by
    simp only [marshal, Ty.zero] at h
    cases hc : t.customEnc with
    | some f => rw [hc] at h; cases h
    | none =>
      rw [hc] at h
      simp only at h
      split at h
      · cases h; exact ⟨1, rfl⟩
      · cases h
  | .byteArr n, ts, b, b', hz, h => by
    simp only [marshal, Ty.zero] at h
    cases h; exact ⟨n, by simp [BArr.zero]⟩
  | .arr n t, ts, b, b', hz, h => by
    simp only [marshal, Ty.zero] at h
    exact foldlM_zero (f := fun b x => marshal t x b {}) (x := t.zero) (fun b b' => marshal_zero t {} b b' hz) n b b' h
  | .str, ts, b, b', hz, h => by
    simp only [marshal, Ty.zero] at h
    cases hk : ts.lenTag with
    | none => rw [hk] at h; cases h
    | some k =>
      rw [hk] at h
      simp only [List.append_nil, List.length_nil, putLen, putBE_zero] at h
      cases h; exact ⟨_, rfl⟩
  | .byteSlice, ts, b, b', hz, h => by
    simp only [marshal, Ty.zero] at h
    cases hk : ts.lenTag with
    | none => rw [hk] at h; cases h
    | some k =>
      rw [hk] at h
      simp only [List.append_nil, List.length_nil, putLen, putBE_zero] at h
      cases h; exact ⟨_, rfl⟩
  | .slice t, ts, b, b', hz, h => by
    simp only [marshal, Ty.zero] at h
    cases hk : ts.lenTag with
    | none => rw [hk] at h; cases h
    | some k =>
      rw [hk] at h
      simp only [List.foldlM_nil, List.length_nil, putLen, putBE_zero] at h
      cases h; exact ⟨_, rfl⟩
  | .struct fs, ts, b, b', hz, h => by
    simp only [marshal, Ty.zero] at h
    exact marshalFields_zero fs b b' hz h
  | .bool, ts, b, b', hz, h => by
    simp only [marshal, Ty.zero] at h
    cases h; exact ⟨1, rfl⟩
  | .num k, ts, b, b', hz, h => by
    simp only [marshal, Ty.zero, putNum_zero] at h
    cases h; exact ⟨_, rfl⟩
  | .unsupported _ _, ts, b, b', hz, h => by
    simp only [marshal] at h; cases h
theorem marshalFields_zero : ∀ (fs : Fields) (b b' : Bytes), ZeroOkFields fs → marshalFields fs fs.zero b = .ok b' →
    ∃ n, b' = b ++ List.replicate n 0
  | .nil, b, b', hz, h => by simp only [marshalFields] at h; cases h; exact ⟨0, by simp⟩
  | .cons tag t fs, b, b', hz, h => by
    simp only [marshalFields, Fields.zero] at h
    cases ht : fieldTags tag with
    | none => rw [ht] at h; cases h
    | some ts =>
      rw [ht] at h
      simp only at h
      cases h1 : marshal t t.zero b ts with
      | ok b1 =>
        rw [h1] at h
        obtain ⟨n, rfl⟩ := marshal_zero t ts b b1 hz.1 h1
        obtain ⟨m, rfl⟩ := marshalFields_zero fs _ b' hz.2 h
        exact ⟨n + m, by rw [List.append_assoc, List.replicate_append_replicate]⟩
      | err e => rw [h1] at h; cases h
      | panic => rw [h1] at h; cases h
end

/-- C99. If a fresh variable can be encoded at all, its encoding consists of zero bytes. -/
theorem C99_zero_bytes (t : Ty) (hz : ZeroOk t) (b b' : Bytes) (h : Marshal b t t.zero = .ok b') :
    ∃ n, b' = b ++ List.replicate n 0 := marshal_zero t {} b b' hz h

example : ∃ n, ([9, 0, 0, 0] : Bytes) = [9] ++ List.replicate n 0 :=
  C99_zero_bytes (.struct (.cons none (.num .u16) (.cons none .bool .nil))) (by simp [ZeroOk, ZeroOkFields]) _ _ rfl

/-- C99, the way back: that many zero bytes, whatever follows and whatever the variable held, decode to the zero value. -/
theorem C99_decodes_to_zero (t : Ty) (hg : Good t) (hz : ZeroOk t) (he : (enc t {} t.zero).isSome) : ∃ n,
    Marshal [] t t.zero = .ok (List.replicate n 0) ∧
    ∀ prev rest, Unmarshal t prev (List.replicate n 0 ++ rest) = .ok t.zero rest := by
  obtain ⟨bs, hbs⟩ := Option.isSome_iff_exists.mp he
  obtain ⟨h1, _, h3⟩ := C29_round_trip t hg t.zero bs hbs
  obtain ⟨n, hn⟩ := C99_zero_bytes t hz [] bs h1
  rw [List.nil_append] at hn
  subst hn
  exact ⟨n, h1, fun prev rest => (h3 prev rest).1⟩

example : Good (.struct (.cons none (.num .u16) (.cons none .bool .nil))) ∧
    ZeroOk (.struct (.cons none (.num .u16) (.cons none .bool .nil))) ∧
    (enc (.struct (.cons none (.num .u16) (.cons none .bool .nil))) {} (Ty.zero _)).isSome :=
  ⟨by simp [Good, GoodFields, fieldTags], by simp [ZeroOk, ZeroOkFields], rfl⟩

end Nimiq.Beserial
