import Verif.Accounts.Contract
/-!
# The amount a vesting account has unlocked (account.go:254-265): facts about the floating point computation
-/
namespace Nimiq.Accounts
open Beserial Wire Float64

variable {E : Env}

/-- `progress * stepAmount` in `float64`, for a difference of `d` blocks. -/
def rawUnlocked (c : VestingAccount) (d : Nat) : ℚ :=
  fl (fl (fl d / fl c.vestingStepBlocks.toNat) * fl c.vestingStepAmount.toNat)

theorem amountUnlocked_eq {c : VestingAccount} {h : UInt32} (hs : c.vestingStart < h) (hb : c.vestingStepBlocks ≠ 0)
    (ha : c.vestingStepAmount ≠ 0) : amountUnlocked E c h =
      if rawUnlocked c (h.toNat - c.vestingStart.toNat) < 2 ^ 64 then
        UInt64.ofNat ⌊rawUnlocked c (h.toNat - c.vestingStart.toNat)⌋.toNat
      else E.conv (rawUnlocked c (h.toNat - c.vestingStart.toNat)) := by
  have hd : (h - c.vestingStart).toNat = h.toNat - c.vestingStart.toNat :=
    UInt32.toNat_sub_of_le _ _ (by rw [UInt32.le_iff_toNat_le]; rw [UInt32.lt_iff_toNat_lt] at hs; omega)
  unfold amountUnlocked
  rw [if_neg (UInt32.not_le.mpr hs), if_neg (by simp [hb, ha])]
  simp only [hd]
  rfl

theorem rawUnlocked_nonneg (c : VestingAccount) (d : Nat) : 0 ≤ rawUnlocked c d := by
  unfold rawUnlocked
  apply fl_nonneg
  apply mul_nonneg
  · apply fl_nonneg
    exact div_nonneg (fl_nonneg (by positivity)) (fl_nonneg (by positivity))
  · exact fl_nonneg (by positivity)

theorem rawUnlocked_mono (c : VestingAccount) {d d' : Nat} (h : d ≤ d') : rawUnlocked c d ≤ rawUnlocked c d' := by
  unfold rawUnlocked
  have hb : (0 : ℚ) ≤ fl c.vestingStepBlocks.toNat := fl_nonneg (by positivity)
  have ha : (0 : ℚ) ≤ fl c.vestingStepAmount.toNat := fl_nonneg (by positivity)
  have hd : (0 : ℚ) ≤ fl d := fl_nonneg (by positivity)
  apply fl_mono (mul_nonneg (fl_nonneg (div_nonneg hd hb)) ha)
  apply mul_le_mul_of_nonneg_right _ ha
  apply fl_mono (div_nonneg hd hb)
  apply div_le_div_of_nonneg_right _ hb
  exact fl_mono (by positivity) (by exact_mod_cast h)

theorem fl_upper {x : ℚ} (h : 0 ≤ x) : fl x ≤ x * (1 + 1 / 2 ^ 53) := by
  rcases h.eq_or_lt with rfl | h
  · rw [fl_zero]; simp
  · have := (abs_le.mp (fl_error h)).2
    linarith

theorem fl_lower {x : ℚ} (h : 0 ≤ x) : x * (1 - 1 / 2 ^ 53) ≤ fl x := by
  rcases h.eq_or_lt with rfl | h
  · rw [fl_zero]; simp
  · have := (abs_le.mp (fl_error h)).1
    linarith

theorem fl_u32 (x : UInt32) : fl x.toNat = x.toNat := fl_nat (by have := x.toNat_lt; omega)

/-- The computed amount is the exact one up to a relative error of three roundings. -/
theorem rawUnlocked_error (c : VestingAccount) {d : Nat} (hd : d < 2 ^ 32) :
    (d : ℚ) / c.vestingStepBlocks.toNat * c.vestingStepAmount.toNat * (1 - 1 / 2 ^ 53) ^ 3 ≤ rawUnlocked c d ∧
    rawUnlocked c d ≤ (d : ℚ) / c.vestingStepBlocks.toNat * c.vestingStepAmount.toNat * (1 + 1 / 2 ^ 53) ^ 3 := by
  unfold rawUnlocked
  rw [fl_u32, fl_nat (n := d) (by omega)]
  set q : ℚ := (d : ℚ) / c.vestingStepBlocks.toNat with hq
  set s : ℚ := (c.vestingStepAmount.toNat : ℚ) with hs
  have q0 : 0 ≤ q := by rw [hq]; positivity
  have s0 : 0 ≤ s := by rw [hs]; positivity
  have a1 := fl_upper q0
  have a2 := fl_upper s0
  have b1 := fl_lower q0
  have b2 := fl_lower s0
  have f1 := fl_nonneg q0
  have f2 := fl_nonneg s0
  have m0 : 0 ≤ fl q * fl s := mul_nonneg f1 f2
  have a3 := fl_upper m0
  have b3 := fl_lower m0
  have k : (0 : ℚ) ≤ 1 - 1 / 2 ^ 53 := by norm_num
  constructor
  · refine le_trans ?_ b3
    have : q * (1 - 1 / 2 ^ 53) * (s * (1 - 1 / 2 ^ 53)) ≤ fl q * fl s :=
      mul_le_mul b1 b2 (mul_nonneg s0 k) f1
    calc q * s * (1 - 1 / 2 ^ 53) ^ 3 = q * (1 - 1 / 2 ^ 53) * (s * (1 - 1 / 2 ^ 53)) * (1 - 1 / 2 ^ 53) := by ring
      _ ≤ fl q * fl s * (1 - 1 / 2 ^ 53) := mul_le_mul_of_nonneg_right this k
  · refine le_trans a3 ?_
    have : fl q * fl s ≤ q * (1 + 1 / 2 ^ 53) * (s * (1 + 1 / 2 ^ 53)) :=
      mul_le_mul a1 a2 f2 (mul_nonneg q0 (by norm_num))
    calc fl q * fl s * (1 + 1 / 2 ^ 53) ≤ q * (1 + 1 / 2 ^ 53) * (s * (1 + 1 / 2 ^ 53)) * (1 + 1 / 2 ^ 53) :=
        mul_le_mul_of_nonneg_right this (by norm_num)
      _ = q * s * (1 + 1 / 2 ^ 53) ^ 3 := by ring

/-- Below half of the range of `uint64` the conversion back is well-defined. -/
theorem rawUnlocked_lt (c : VestingAccount) {d : Nat} (hd : d < 2 ^ 32)
    (hlt : d * c.vestingStepAmount.toNat < 2 ^ 63 * c.vestingStepBlocks.toNat) : rawUnlocked c d < 2 ^ 64 := by
  have hb : 0 < c.vestingStepBlocks.toNat := by
    rcases Nat.eq_zero_or_pos c.vestingStepBlocks.toNat with h | h
    · rw [h] at hlt; omega
    · exact h
  have hb' : (0 : ℚ) < c.vestingStepBlocks.toNat := by exact_mod_cast hb
  have h1 := (rawUnlocked_error c hd).2
  have h2 : (d : ℚ) / c.vestingStepBlocks.toNat * c.vestingStepAmount.toNat < 2 ^ 63 := by
    rw [div_mul_eq_mul_div, div_lt_iff₀ hb']
    exact_mod_cast hlt
  have h3 : (1 + 1 / 2 ^ 53 : ℚ) ^ 3 < 2 := by norm_num
  calc rawUnlocked c d ≤ _ := h1
    _ ≤ 2 ^ 63 * (1 + 1 / 2 ^ 53 : ℚ) ^ 3 := mul_le_mul_of_nonneg_right h2.le (by positivity)
    _ < 2 ^ 64 := by linarith

theorem ofNat_floor {x : ℚ} (h0 : 0 ≤ x) (h : x < 2 ^ 64) : (UInt64.ofNat ⌊x⌋.toNat).toNat = ⌊x⌋.toNat := by
  rw [UInt64.toNat_ofNat']
  apply Nat.mod_eq_of_lt
  have h1 : ⌊x⌋ < 2 ^ 64 := by rw [Int.floor_lt]; exact_mod_cast h
  have h2 : 0 ≤ ⌊x⌋ := Int.floor_nonneg.mpr h0
  omega

end Nimiq.Accounts
