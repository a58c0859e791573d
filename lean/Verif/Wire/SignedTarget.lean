import Verif.Wire.Compact
/-!
# Compact targets of any `big.Int` (C115)

`big.Int` is signed and unbounded.  `Wire/Model.lean` has the functions of utils.go for natural numbers; here are all integers.
-/
namespace Nimiq.Wire

/-- utils.go:10-27 `TargetToCompact` of any integer: the sign is only visible in `big.Int.Bytes`, which returns the bytes of
the absolute value -/
def targetToCompactZ (target : Int) : Option UInt32 := targetToCompact target.natAbs

/-- utils.go:35-38 `DifficultyToTarget` of any integer: `big.Int.Div` is Euclidean division, as is Lean's `/` on `Int`;
`none` is the division by zero panic -/
def difficultyToTargetZ (difficulty : Int) : Option Int :=
  if difficulty = 0 then none else some ((blockTargetMax : Int) / difficulty)

/-- utils.go:30-32 `DifficultyToCompact` -/
def difficultyToCompactZ (difficulty : Int) : Option UInt32 :=
  match difficultyToTargetZ difficulty with
  | none => none
  | some t => targetToCompactZ t

/-! ## Specification -/

/-- The largest number the format can hold: 255 bytes, the first of which is below `0x80`. -/
def compactMax : Nat := 2 ^ 7 * 256 ^ 254

/-! ## Lemmas -/

theorem bigBytes_length_le (t n : Nat) (ht : t < 256 ^ n) : (bigBytes t).length ≤ n := by
  obtain ⟨h1, h2, h3⟩ := bigBytes_spec t
  cases hb : bigBytes t with
  | nil => simp
  | cons b0 r =>
    have := h3 b0 r hb
    rw [hb, value_cons] at h1
    have h4 : 1 * 256 ^ r.length ≤ b0 * 256 ^ r.length := Nat.mul_le_mul_right _ (by omega)
    have h5 : 256 ^ r.length < 256 ^ n := by omega
    have := (Nat.pow_lt_pow_iff_right (by omega : 1 < 256)).mp h5
    simp only [List.length_cons]; omega

theorem bigBytes_scale (t k : Nat) (h : t ≠ 0) : bigBytes (t * 256 ^ k) = bigBytes t ++ List.replicate k 0 := by
  induction k with
  | zero => simp
  | succ k ih =>
    have hp : 0 < 256 ^ k := Nat.pow_pos (by omega)
    have hne : t * 256 ^ (k + 1) ≠ 0 := by
      apply Nat.mul_ne_zero h; exact Nat.ne_of_gt (Nat.pow_pos (by omega))
    have e : t * 256 ^ (k + 1) = (t * 256 ^ k) * 256 := by rw [Nat.pow_succ, Nat.mul_assoc]
    rw [bigBytes, dif_neg hne, e, Nat.mul_div_cancel _ (by omega), Nat.mul_mod_left, ih, List.append_assoc,
      List.replicate_succ', ]

theorem shift_wrap (n : Nat) : UInt32.ofNat (n + 256) <<< 24 = UInt32.ofNat n <<< 24 := by
  apply UInt32.toNat_inj.mp
  rw [UInt32.toNat_shiftLeft, UInt32.toNat_shiftLeft, UInt32.toNat_ofNat', UInt32.toNat_ofNat']
  have h24 : (24 : UInt32).toNat % 32 = 24 := by decide
  rw [h24, Nat.shiftLeft_eq, Nat.shiftLeft_eq]
  omega

theorem scale_wrap (t : Nat) (h : 65536 ≤ t) (k : Nat) (hk : k = 256) :
    targetToCompactZ ((t * 256 ^ k : Nat) : Int) = targetToCompactZ t := by
  simp only [targetToCompactZ, Int.natAbs_natCast]
  have hn : targetToCompact t ≠ none := by rw [Ne, C53_panics_iff]; omega
  unfold targetToCompact
  rw [bigBytes_scale t k (by omega)]
  generalize hz : List.replicate k 0 = z
  have hzl : z.length = 256 := by rw [← hz, List.length_replicate, hk]
  rcases hb : bigBytes t with _ | ⟨b0, _ | ⟨b1, _ | ⟨b2, r⟩⟩⟩
  · simp [targetToCompact, hb] at hn
  · simp [targetToCompact, hb] at hn
  · simp [targetToCompact, hb] at hn
  · simp only [List.cons_append, List.length_cons, List.length_append, hzl]
    have e : r.length + 256 + 1 + 1 + 1 = (r.length + 1 + 1 + 1) + 256 := by omega
    have e' : r.length + 256 + 1 + 1 + 1 + 1 = (r.length + 1 + 1 + 1 + 1) + 256 := by omega
    by_cases hc : b0 ≥ 0x80
    · rw [if_pos ⟨hc, by omega⟩, if_pos ⟨hc, by omega⟩, e', shift_wrap]
    · rw [if_neg (fun h => hc h.1), if_neg (fun h => hc h.1), e, shift_wrap]

theorem mantissa_or (e m : Nat) (hm : m < 2 ^ 24) : mantissa ((UInt32.ofNat e <<< 24) ||| UInt32.ofNat m) = m := by
  have h : ∃ e', e' < 256 ∧ UInt32.ofNat e <<< 24 = UInt32.ofNat e' <<< 24 := by
    refine ⟨e % 256, Nat.mod_lt _ (by omega), ?_⟩
    apply UInt32.toNat_inj.mp
    rw [UInt32.toNat_shiftLeft, UInt32.toNat_shiftLeft, UInt32.toNat_ofNat', UInt32.toNat_ofNat']
    have h24 : (24 : UInt32).toNat % 32 = 24 := by decide
    rw [h24, Nat.shiftLeft_eq, Nat.shiftLeft_eq]
    omega
  obtain ⟨e', he, heq⟩ := h
  rw [heq]
  exact (split_exp e' m he hm _ (or_eq_add e' m he hm)).2

theorem mantissa_lt (t : Nat) (c : UInt32) (h : targetToCompact t = some c) : mantissa c < 2 ^ 23 := by
  obtain ⟨-, h2, -⟩ := bigBytes_spec t
  unfold targetToCompact at h
  rcases hb : bigBytes t with _ | ⟨b0, _ | ⟨b1, _ | ⟨b2, r⟩⟩⟩
  · simp [hb] at h
  · simp [hb] at h
  · simp [hb] at h
  · rw [hb] at h h2
    have l0 := h2 b0 (by simp)
    have l1 := h2 b1 (by simp)
    have l2 := h2 b2 (by simp)
    simp only at h
    by_cases hc : b0 ≥ 0x80
    · rw [if_pos ⟨hc, by simp⟩, UInt32.or_assoc, or_bytes b0 b1 l0 l1] at h
      cases h
      rw [mantissa_or _ _ (by omega)]; omega
    · rw [if_neg (fun h => hc h.1), UInt32.or_assoc, UInt32.or_assoc, ← UInt32.or_assoc (UInt32.ofNat b0 <<< 16),
        or_bytes3 b0 b1 b2 l0 l1 l2] at h
      cases h
      rw [mantissa_or _ _ (by omega)]; omega

/-! ## C115 -/

/-- C115. `TargetToCompact` panics exactly if the absolute value is below 65536. -/
theorem C115_panics_iff (t : Int) : targetToCompactZ t = none ↔ -65536 < t ∧ t < 65536 := by
  rw [targetToCompactZ, C53_panics_iff]; omega

/-- C115. Within the range of the format a non-negative target is represented with the largest error the mantissa allows. -/
theorem C115_range_partial (t : Int) (h : 65536 ≤ t) (ht : t < compactMax) : ∃ c, targetToCompactZ t = some c ∧
    2 ^ 15 ≤ mantissa c ∧ mantissa c < 2 ^ 23 ∧ 3 ≤ exponent c ∧
    (expand c : Int) ≤ t ∧ t < expand c + 256 ^ (exponent c - 3) := by
  obtain ⟨n, rfl⟩ : ∃ n : Nat, t = n := ⟨t.natAbs, by omega⟩
  obtain ⟨c, h0, h1, h2, h3, h4, h5⟩ := C53_value n (by omega) (Int.ofNat_lt.mp ht)
  refine ⟨c, h0, h1, h2, h3, by omega, ?_⟩
  have := Int.ofNat_lt.mpr h5
  rwa [Int.natCast_add, Int.natCast_pow] at this

/-- C115, violated: the sign is lost. A negative target has the compact form of its absolute value. -/
theorem C115_target_sign_violated (t : Int) : targetToCompactZ (-t) = targetToCompactZ t := by
  rw [targetToCompactZ, Int.natAbs_neg, targetToCompactZ]

/-- C115, violated: a negative difficulty has the target of opposite sign, and so the compact form of its absolute value. -/
theorem C115_difficulty_sign_violated (d : Int) : difficultyToCompactZ (-d) = difficultyToCompactZ d ∧
    ∀ t, difficultyToTargetZ d = some t → difficultyToTargetZ (-d) = some (-t) := by
  unfold difficultyToCompactZ difficultyToTargetZ
  by_cases h : d = 0
  · simp [h]
  · have h' : -d ≠ 0 := by omega
    rw [if_neg h, if_neg h']
    refine ⟨?_, ?_⟩
    · simp only [Int.ediv_neg]
      exact C115_target_sign_violated _
    · intro t ht
      cases ht
      rw [Int.ediv_neg]

/-- C115, violated: beyond the range the exponent wraps around, so that a target and the one `256 ^ 256` times as large have
the same compact form. -/
theorem C115_overflow_violated (t : Nat) (h : 65536 ≤ t) : targetToCompactZ ((t * 256 ^ 256 : Nat) : Int) = targetToCompactZ t :=
  scale_wrap t h 256 rfl

/-- For non-negative arguments these are the functions of C53. -/
theorem C115_nonneg (n : Nat) : targetToCompactZ n = targetToCompact n ∧ difficultyToCompactZ n = difficultyToCompact n := by
  refine ⟨rfl, ?_⟩
  unfold difficultyToCompactZ difficultyToTargetZ difficultyToCompact difficultyToTarget
  by_cases h : n = 0
  · simp [h]
  · have h' : (n : Int) ≠ 0 := by omega
    rw [if_neg h, if_neg h']
    simp only
    rw [← Int.natCast_ediv]; rfl

/-- C115, violated, and exactly there: a target that is not negative is recovered up to the precision of the mantissa if and
only if it is in the range of the format. -/
theorem C115_range_iff_partial (t : Nat) (h : 65536 ≤ t) : (∃ c, targetToCompactZ t = some c ∧ 3 ≤ exponent c ∧
    expand c ≤ t ∧ t < expand c + 256 ^ (exponent c - 3)) ↔ t < compactMax := by
  constructor
  · rintro ⟨c, hc, _, _, hlt⟩
    have hm : mantissa c + 1 ≤ 2 ^ 23 := mantissa_lt t c hc
    have hx : exponent c - 3 ≤ 252 := by unfold exponent; have := c.toNat_lt; omega
    have h1 : expand c + 256 ^ (exponent c - 3) = (mantissa c + 1) * 256 ^ (exponent c - 3) := by
      rw [expand, Nat.add_mul, Nat.one_mul]
    have h2 := Nat.mul_le_mul hm (Nat.pow_le_pow_right (by omega : 256 > 0) hx)
    have e : compactMax = 2 ^ 23 * 256 ^ 252 := by
      rw [compactMax, show 254 = 2 + 252 from rfl, Nat.pow_add, ← Nat.mul_assoc]
    rw [e]
    rw [h1] at hlt
    exact Nat.lt_of_lt_of_le hlt h2
  · intro ht
    obtain ⟨c, h0, h1, h2, h3, h4, h5⟩ := C53_value t h ht
    exact ⟨c, h0, h3, h4, h5⟩

example : ∃ c, targetToCompactZ ((2 ^ 240 : Nat) : Int) = some c ∧ 3 ≤ exponent c := by
  obtain ⟨c, h0, h3, _⟩ := (C115_range_iff_partial (2 ^ 240) (by decide)).mpr (by decide)
  exact ⟨c, h0, h3⟩
example : targetToCompactZ (-0x123456) = some 0x03123456 := by
  have h : bigBytes 0x123456 = [0x12, 0x34, 0x56] := by
    rw [bigBytes, dif_neg (by decide), bigBytes, dif_neg (by decide), bigBytes, dif_neg (by decide), bigBytes]; rfl
  have e : targetToCompactZ (-0x123456) = targetToCompact 0x123456 := rfl
  rw [e]
  unfold targetToCompact; rw [h]; decide

end Nimiq.Wire
