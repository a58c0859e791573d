import Verif.Beserial.Alloc
/-!
# C119: the time `Unmarshal` takes is linear in the length of the input

`work` (AllocModel.lean) counts the calls of `decodeState.value` and the bytes copied.  `fixedWork t` and `workRate t` are the
coefficients, read off the type.
-/
namespace Nimiq.Beserial
open Spec

mutual
/-- Steps a value of the type may take whatever its input is. -/
def fixedWork : Ty → Nat
  | .custom c => 1 + c.mem.workBase
  | .ptr t => 1 + fixedWork t
  | .arr n t => 1 + n * fixedWork t
  | .struct fs => 1 + fixedWorkFields fs
  | .num _ | .bool | .str | .byteArr _ | .byteSlice | .slice _ | .unsupported _ _ => 1
def fixedWorkFields : Fields → Nat
  | .nil => 0
  | .cons _ t fs => fixedWork t + fixedWorkFields fs
end

mutual
/-- Steps a value of the type may take for each byte of its input. -/
def workRate : Ty → Nat
  | .custom c => c.mem.workRate
  | .str | .byteSlice | .byteArr _ => 1
  | .ptr t => workRate t
  | .arr _ t => workRate t
  | .slice t => fixedWork t + workRate t
  | .struct fs => workRateFields fs
  | .num _ | .bool | .unsupported _ _ => 0
def workRateFields : Fields → Nat
  | .nil => 0
  | .cons _ t fs => max (workRate t) (workRateFields fs)
end

/-- A custom decoder keeps the bounds on its steps that it declares: on every input, and in the bytes it reads if it
succeeds. -/
def Quick (c : Codec) : Prop :=
  ∀ d, c.mem.work d ≤ c.mem.workBase + c.mem.workRate * d.length ∧
    ∀ prev n v, c.dec prev d = .ok (n, v) → n ≤ d.length → c.mem.work d ≤ c.mem.workBase + c.mem.workRate * n

mutual
/-- All custom decoders of a type are quick. -/
def Swift : Ty → Prop
  | .custom c => Quick c
  | .ptr t => Swift t
  | .arr _ t => Swift t
  | .slice t => Swift t
  | .struct fs => SwiftFields fs
  | .num _ | .bool | .str | .byteArr _ | .byteSlice | .unsupported _ _ => True
def SwiftFields : Fields → Prop
  | .nil => True
  | .cons _ t fs => Swift t ∧ SwiftFields fs
end

mutual
theorem work_le : ∀ (t : Ty) (prev : t.Val) (ts : Tags) (d : Bytes), Thrifty t → Swift t →
    work t prev ts d ≤ fixedWork t + workRate t * d.length ∧
    ∀ v r, decode (fun _ => true) t prev ts d = .ok v r →
      work t prev ts d + workRate t * r.length ≤ fixedWork t + workRate t * d.length
  | .custom c, prev, ts, d, _, hq => by
    have hc := hq d
    rw [work, fixedWork, workRate, decode]
    refine ⟨by have := hc.1; omega, ?_⟩
    intro v r h
    rw [runCustom] at h
    cases hd : c.dec prev d with
    | ok nv =>
      obtain ⟨n, w⟩ := nv
      rw [hd] at h
      dsimp only at h
      split at h
      · simp at h
      · simp only [Res.ok.injEq] at h
        obtain ⟨_, rfl⟩ := h
        have h1 := hc.2 prev n w hd (by omega)
        rw [List.length_drop]
        obtain ⟨k, hk⟩ := Nat.exists_eq_add_of_le (show n ≤ d.length by omega)
        rw [hk, Nat.mul_add, show n + k - n = k by omega]
        omega
    | err e => rw [hd] at h; simp at h
    | panic => rw [hd] at h; simp at h
  | .ptr t, prev, ts, d, hc, hq => by
    have ht : t.customDec = none := customDec_none hc.2
    have ih := fun d => work_le t t.zero ts d hc.1 hq
    rw [work, fixedWork, workRate, decode, ht]
    dsimp only
    cases ho : ts.optional with
    | true =>
      simp only [if_true]
      cases hp : pop 1 d with
      | none =>
        dsimp only
        exact ⟨by omega, fun v r h => by simp at h⟩
      | some fr =>
        obtain ⟨flag, d'⟩ := fr
        dsimp only
        have hl := (pop_suffix hp).length_le
        have hm : workRate t * d'.length ≤ workRate t * d.length := Nat.mul_le_mul_left _ hl
        have hi := ih d'
        by_cases h0 : flag = [0x00]
        · have h01 : ¬ flag = [0x01] := by rw [h0]; decide
          rw [if_neg h01, if_pos h0]
          refine ⟨by omega, ?_⟩
          intro v r h
          simp only [Res.ok.injEq] at h
          obtain ⟨_, rfl⟩ := h
          omega
        · rw [if_neg h0]
          by_cases h1 : flag = [0x01]
          · rw [if_pos h1, if_pos h1]
            refine ⟨by have := hi.1; omega, ?_⟩
            intro v r h
            obtain ⟨w, hw, _⟩ := Res.map_ok h
            have := hi.2 _ _ hw
            omega
          · rw [if_neg h1, if_neg h1]
            exact ⟨by omega, fun v r h => by simp at h⟩
    | false =>
      simp only [Bool.false_eq_true, if_false]
      have hi := ih d
      refine ⟨by have := hi.1; omega, ?_⟩
      intro v r h
      obtain ⟨w, hw, _⟩ := Res.map_ok h
      have := hi.2 _ _ hw
      omega
  | .byteArr n, prev, ts, d, _, _ => by
    rw [work, fixedWork, workRate, decode]
    cases hp : pop n d with
    | none => exact ⟨by dsimp only; omega, fun v r h => by simp at h⟩
    | some br =>
      obtain ⟨b, r'⟩ := br
      obtain ⟨h1, h2⟩ := pop_some hp
      have h3 := congrArg List.length h2
      rw [List.length_append] at h3
      dsimp only
      refine ⟨by omega, ?_⟩
      intro v r h
      simp only [Res.ok.injEq] at h
      obtain ⟨_, rfl⟩ := h
      omega
  | .arr n t, prev, ts, d, hc, hq => by
    have ih := fun p d => work_le t p {} d hc hq
    have hL := allocLoop_le' (fun p d v r h => decode_ok_len t {} p v d r h) (fun p d => (ih p d).1)
      (fun p d v r h => (ih p d).2 v r h) prev.val n prev.property d
    rw [work, fixedWork, workRate, decode]
    generalize hA : allocLoop (fun p d => decode (fun _ => true) t p {} d) (fun p d => work t p {} d) prev.val d = A
    have hL1 : A ≤ n * fixedWork t + workRate t * d.length := by rw [← hA]; exact hL.1
    refine ⟨by omega, ?_⟩
    intro v r h
    cases hl : decLoop (fun p d => decode (fun _ => true) t p {} d) prev.val d with
    | ok l r' =>
      rw [hl] at h
      simp only [Res.ok.injEq] at h
      obtain ⟨_, rfl⟩ := h
      have h1 : A + workRate t * r'.length ≤ n * fixedWork t + workRate t * d.length := by rw [← hA]; exact hL.2 _ _ hl
      omega
    | err e r' => rw [hl] at h; simp at h
    | panic => rw [hl] at h; simp at h
  | .str, prev, ts, d, _, _ => by
    rw [work, fixedWork, workRate, decode]
    cases hr : readLen ts d with
    | ok u d' =>
      have hl := (readLen_suffix (ts := ts) (d := d) (r := d') (by rw [hr]; rfl)).length_le
      dsimp only
      cases hp : pop u d' with
      | none => exact ⟨by dsimp only; omega, fun v r h => by simp at h⟩
      | some br =>
        obtain ⟨b, r'⟩ := br
        obtain ⟨h1, h2⟩ := pop_some hp
        have h3 := congrArg List.length h2
        rw [List.length_append] at h3
        dsimp only
        refine ⟨by omega, ?_⟩
        intro v r h
        simp only [Res.ok.injEq] at h
        obtain ⟨_, rfl⟩ := h
        omega
    | err e d' => exact ⟨by dsimp only; omega, fun v r h => by simp at h⟩
    | panic => exact ⟨by dsimp only; omega, fun v r h => by simp at h⟩
  | .byteSlice, prev, ts, d, _, _ => by
    rw [work, fixedWork, workRate, decode]
    cases hr : readLen ts d with
    | ok u d' =>
      have hl := (readLen_suffix (ts := ts) (d := d) (r := d') (by rw [hr]; rfl)).length_le
      dsimp only
      cases hp : pop u d' with
      | none => exact ⟨by dsimp only; omega, fun v r h => by simp at h⟩
      | some br =>
        obtain ⟨b, r'⟩ := br
        obtain ⟨h1, h2⟩ := pop_some hp
        have h3 := congrArg List.length h2
        rw [List.length_append] at h3
        simp only [if_true]
        refine ⟨by omega, ?_⟩
        intro v r h
        simp only [Res.ok.injEq] at h
        obtain ⟨_, rfl⟩ := h
        omega
    | err e d' => exact ⟨by dsimp only; omega, fun v r h => by simp at h⟩
    | panic => exact ⟨by dsimp only; omega, fun v r h => by simp at h⟩
  | .slice t, prev, ts, d, hc, hq => by
    have ih := fun p d => work_le t p {} d hc.1 hq
    rw [work, fixedWork, workRate, decode]
    cases hr : readLen ts d with
    | ok u d' =>
      have hl := (readLen_suffix (ts := ts) (d := d) (r := d') (by rw [hr]; rfl)).length_le
      dsimp only
      by_cases hu : u > d'.length
      · rw [if_pos hu, if_pos hu]
        exact ⟨by omega, fun v r h => by simp at h⟩
      · rw [if_neg hu, if_neg hu]
        simp only [if_true]
        have hL := allocLoop_le' (fun p d v r h => decode_ok_len t {} p v d r h) (fun p d => (ih p d).1)
          (fun p d v r h => (ih p d).2 v r h) (List.replicate u t.zero) u List.length_replicate d'
        have hm : (fixedWork t + workRate t) * d'.length ≤ (fixedWork t + workRate t) * d.length :=
          Nat.mul_le_mul_left _ hl
        have hs : u * fixedWork t ≤ fixedWork t * d'.length := by
          rw [Nat.mul_comm]; exact Nat.mul_le_mul_left _ (by omega)
        rw [Nat.add_mul _ _ d'.length] at hm
        generalize hA : allocLoop (fun p d => decode (fun _ => true) t p {} d) (fun p d => work t p {} d)
          (List.replicate u t.zero) d' = A
        have hL1 : A ≤ u * fixedWork t + workRate t * d'.length := by rw [← hA]; exact hL.1
        refine ⟨by omega, ?_⟩
        intro v r h
        obtain ⟨w, hw, _⟩ := Res.map_ok h
        have h1 : A + workRate t * r.length ≤ u * fixedWork t + workRate t * d'.length := by rw [← hA]; exact hL.2 _ _ hw
        have h2 := decLoop_ok_len 1 (fun p d v r h => by
          have := decode_reads t {} p v d r hc.1 h
          have := hc.2
          omega) _ _ _ _ hw
        rw [List.length_replicate, Nat.mul_one] at h2
        have h3 : fixedWork t * r.length + u * fixedWork t ≤ fixedWork t * d'.length := by
          rw [Nat.mul_comm u, ← Nat.mul_add]; exact Nat.mul_le_mul_left _ h2
        rw [Nat.add_mul _ _ r.length]
        omega
    | err e d' => exact ⟨by dsimp only; omega, fun v r h => by simp at h⟩
    | panic => exact ⟨by dsimp only; omega, fun v r h => by simp at h⟩
  | .struct fs, prev, ts, d, hc, hq => by
    have ih := workFields_le fs prev d hc hq
    rw [work, fixedWork, workRate, decode]
    exact ⟨by have := ih.1; omega, fun v r h => by have := ih.2 v r h; omega⟩
  | .bool, prev, ts, d, _, _ => by
    rw [work]; simp [fixedWork, workRate]
  | .num k, prev, ts, d, _, _ => by rw [work]; simp [fixedWork, workRate]
  | .unsupported _ _, prev, ts, d, _, _ => by rw [work]; simp [fixedWork, workRate]
theorem workFields_le : ∀ (fs : Fields) (prev : fs.Val) (d : Bytes), ThriftyFields fs → SwiftFields fs →
    workFields fs prev d ≤ fixedWorkFields fs + workRateFields fs * d.length ∧
    ∀ v r, decodeFields (fun _ => true) fs prev d = .ok v r →
      workFields fs prev d + workRateFields fs * r.length ≤ fixedWorkFields fs + workRateFields fs * d.length
  | .nil, prev, d, _, _ => by
    rw [workFields]
    simp [fixedWorkFields, workRateFields]
  | .cons tag t fs, prev, d, hc, hq => by
    rw [workFields, fixedWorkFields, workRateFields, decodeFields]
    cases htag : fieldTags tag with
    | none => exact ⟨Nat.zero_le _, fun v r h => by simp at h⟩
    | some ts =>
      have ih := work_le t prev.1 ts d hc.1 hq.1
      dsimp only
      have h1 := bound_mono (a := work t prev.1 ts d) (r := 0) (Nat.zero_le d.length)
        (Nat.le_max_left (workRate t) (workRateFields fs)) (by have := ih.1; simpa using this)
      rw [Nat.mul_zero, Nat.add_zero] at h1
      cases hd : decode (fun _ => true) t prev.1 ts d with
      | ok w d' =>
        have hl := decode_ok_len t ts prev.1 w d d' hd
        have h2 := bound_mono hl (Nat.le_max_left (workRate t) (workRateFields fs)) (ih.2 _ _ hd)
        have ih2 := workFields_le fs prev.2 d' hc.2 hq.2
        have h3 := bound_mono (a := workFields fs prev.2 d') (r := 0) (Nat.zero_le d'.length)
          (Nat.le_max_right (workRate t) (workRateFields fs)) (by have := ih2.1; simpa using this)
        rw [Nat.mul_zero, Nat.add_zero] at h3
        dsimp only
        refine ⟨by omega, ?_⟩
        intro v r h
        obtain ⟨vs, hvs, _⟩ := Res.map_ok h
        have hl' : r.length ≤ d'.length := (decodeFields_suffix _ fs prev.2 d' r (by rw [hvs]; rfl)).length_le
        have h4 := bound_mono hl' (Nat.le_max_right (workRate t) (workRateFields fs)) (ih2.2 _ _ hvs)
        omega
      | err e d' => exact ⟨by dsimp only; omega, fun v r h => by simp at h⟩
      | panic => exact ⟨by dsimp only; omega, fun v r h => by simp at h⟩
end

/-- **C119.** Whatever the input is and whether `Unmarshal` succeeds or not, the number of its steps is bounded by a linear
function of the length of the input whose coefficients depend on the type only (for types whose slice elements take at
least a byte). -/
theorem C119_linear (t : Ty) (ht : Thrifty t) (hq : Swift t) (prev : t.Val) (data : Bytes) :
    unmarshalWork t prev data ≤ fixedWork t + workRate t * data.length :=
  (work_le t prev {} data ht hq).1

/-- On success only the bytes read count: what follows the value in the input is not looked at. -/
theorem C119_linear_in_read (t : Ty) (ht : Thrifty t) (hq : Swift t) (prev v : t.Val) (data rest : Bytes)
    (h : Unmarshal t prev data = .ok v rest) :
    unmarshalWork t prev data ≤ fixedWork t + workRate t * (data.length - rest.length) := by
  have h1 := (work_le t prev {} data ht hq).2 v rest h
  have h2 := decode_ok_len t {} prev v data rest h
  obtain ⟨k, hk⟩ := Nat.exists_eq_add_of_le h2
  rw [unmarshalWork]
  rw [hk, Nat.mul_add] at h1
  rw [hk, show rest.length + k - rest.length = k by omega]
  omega

/-- Not vacuous: the type of the examples of C29 is covered, and its example takes 14 steps. -/
example : Thrifty exTy ∧ Swift exTy := by
  refine ⟨?_, ?_⟩
  · simp [exTy, exInner, Thrifty, ThriftyFields, minSize, isCustom, numBytes]
  · simp [exTy, exInner, Swift, SwiftFields]
/-- A length that is not backed by data buys nothing. -/
example : unmarshalWork exTy exTy.zero exBytes = 14 := rfl
example : unmarshalWork exTy exTy.zero [0, 0, 255, 1, 2, 3] < 14 := by decide

end Nimiq.Beserial
