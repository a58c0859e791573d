import Mathlib.Data.Int.Log
import Mathlib.Data.Rat.Floor
import Mathlib.Tactic.Linarith
import Mathlib.Tactic.Ring
import Mathlib.Tactic.FieldSimp
import Mathlib.Tactic.Positivity
/-!
# IEEE 754 `float64` arithmetic on non-negative numbers

The only floating point code is account.go:262-263: two conversions from integers, a division, a multiplication and a
conversion back.  All values there are 0 or between `2^-32` and `2^97`, so neither overflow nor subnormal numbers occur,
and a `float64` is modelled as the rational number it denotes.  `fl` is rounding to the nearest number with a 53 bit
significand, ties to even; every operation is the exact operation followed by `fl`, as IEEE 754 and the Go specification
require (there is no multiply-add here that could be fused).
-/
namespace Nimiq.Float64

/-- Round to the nearest integer, ties to even. -/
def roundEven (q : ℚ) : ℤ :=
  if q - ⌊q⌋ < 1 / 2 then ⌊q⌋
  else if q - ⌊q⌋ > 1 / 2 then ⌊q⌋ + 1
  else if ⌊q⌋ % 2 = 0 then ⌊q⌋ else ⌊q⌋ + 1

/-- The distance between neighbouring `float64`s in the binade of `x > 0`: `2^(e-52)` where `2^e ≤ x < 2^(e+1)`. -/
def ulp (x : ℚ) : ℚ := (2 : ℚ) ^ (Int.log 2 x - 52)

/-- The `float64` nearest to `x ≥ 0`, ties to even. -/
def fl (x : ℚ) : ℚ := roundEven (x / ulp x) * ulp x

/-! ## Facts -/

theorem roundEven_floor_le (q : ℚ) : ⌊q⌋ ≤ roundEven q := by
  unfold roundEven; split <;> (try split) <;> (try split) <;> omega

theorem roundEven_le_floor (q : ℚ) : roundEven q ≤ ⌊q⌋ + 1 := by
  unfold roundEven; split <;> (try split) <;> (try split) <;> omega

@[simp] theorem roundEven_int (n : ℤ) : roundEven (n : ℚ) = n := by
  unfold roundEven; rw [Int.floor_intCast]; simp

theorem roundEven_mono {q r : ℚ} (h : q ≤ r) : roundEven q ≤ roundEven r := by
  have hf : ⌊q⌋ ≤ ⌊r⌋ := Int.floor_mono h
  rcases Int.lt_or_eq_of_le hf with hlt | heq
  · exact le_trans (roundEven_le_floor q) (le_trans (by omega) (roundEven_floor_le r))
  · unfold roundEven
    rw [heq]
    have h' : q - ⌊r⌋ ≤ r - ⌊r⌋ := by linarith
    split
    · split <;> (try split) <;> (try split) <;> omega
    · rename_i h1
      split
      · rename_i h2
        rw [if_neg (by linarith), if_pos (by linarith)]
      · have hr : ¬ (r - ⌊r⌋ < 1 / 2) := by intro h3; linarith
        simp only [hr, if_false]
        split <;> split <;> (try split) <;> omega

theorem ulp_pos (x : ℚ) : 0 < ulp x := zpow_pos (by norm_num) _

theorem fl_zero : fl 0 = 0 := by
  unfold fl; rw [zero_div]
  have := roundEven_int 0
  simp only [Int.cast_zero] at this
  rw [this]; simp

theorem fl_nonneg {x : ℚ} (h : 0 ≤ x) : 0 ≤ fl x := by
  unfold fl
  have h1 : (0 : ℚ) ≤ x / ulp x := div_nonneg h (ulp_pos x).le
  have h2 : roundEven ((0 : ℤ) : ℚ) ≤ roundEven (x / ulp x) := roundEven_mono (by simpa using h1)
  rw [roundEven_int] at h2
  exact mul_nonneg (by exact_mod_cast h2) (ulp_pos x).le

/-- A multiple of the unit in the last place is representable. -/
theorem fl_mul_ulp {x : ℚ} (n : ℤ) (h : x = n * ulp x) : fl x = x := by
  unfold fl
  have : x / ulp x = n := by rw [div_eq_iff (ulp_pos x).ne']; exact h
  rw [this, roundEven_int, ← h]

theorem zpow_split (a b : ℤ) : (2 : ℚ) ^ (a + b) = 2 ^ a * 2 ^ b := zpow_add₀ (by norm_num) a b

/-- Rounding stays within the binade (both powers of two included). -/
theorem fl_binade {x : ℚ} (h : 0 < x) : (2 : ℚ) ^ Int.log 2 x ≤ fl x ∧ fl x ≤ (2 : ℚ) ^ (Int.log 2 x + 1) := by
  have lo : (2 : ℚ) ^ Int.log 2 x ≤ x := by exact_mod_cast Int.zpow_log_le_self (b := 2) (by norm_num) h
  have hi : x < (2 : ℚ) ^ (Int.log 2 x + 1) := by exact_mod_cast Int.lt_zpow_succ_log_self (b := 2) (by norm_num) x
  have e1 : (2 : ℚ) ^ Int.log 2 x = ((2 ^ 52 : ℤ) : ℚ) * ulp x := by
    unfold ulp
    rw [sub_eq_add_neg, zpow_split, mul_comm ((2 ^ 52 : ℤ) : ℚ), mul_assoc]
    rw [show (2 : ℚ) ^ (-52 : ℤ) * ((2 ^ 52 : ℤ) : ℚ) = 1 by norm_num, mul_one]
  have e2 : (2 : ℚ) ^ (Int.log 2 x + 1) = ((2 ^ 53 : ℤ) : ℚ) * ulp x := by
    rw [zpow_split, e1]; push_cast; ring
  constructor
  · rw [e1]
    unfold fl
    apply mul_le_mul_of_nonneg_right _ (ulp_pos x).le
    have : roundEven (((2 ^ 52 : ℤ)) : ℚ) ≤ roundEven (x / ulp x) := by
      apply roundEven_mono
      rw [le_div_iff₀ (ulp_pos x), ← e1]; exact lo
    rw [roundEven_int] at this
    exact_mod_cast this
  · rw [e2]
    unfold fl
    apply mul_le_mul_of_nonneg_right _ (ulp_pos x).le
    have : roundEven (x / ulp x) ≤ roundEven (((2 ^ 53 : ℤ)) : ℚ) := by
      apply roundEven_mono
      rw [div_le_iff₀ (ulp_pos x), ← e2]; exact hi.le
    rw [roundEven_int] at this
    exact_mod_cast this

theorem fl_mono {x y : ℚ} (hx : 0 ≤ x) (h : x ≤ y) : fl x ≤ fl y := by
  rcases hx.eq_or_lt with rfl | hx
  · rw [fl_zero]; exact fl_nonneg h
  have hlog : Int.log 2 x ≤ Int.log 2 y := Int.log_mono_right hx h
  rcases hlog.lt_or_eq with hlt | heq
  · refine le_trans (fl_binade hx).2 (le_trans ?_ (fl_binade (lt_of_lt_of_le hx h)).1)
    exact zpow_le_zpow_right₀ (by norm_num) (by omega)
  · have hu : ulp x = ulp y := by unfold ulp; rw [heq]
    unfold fl
    rw [hu]
    apply mul_le_mul_of_nonneg_right _ (ulp_pos y).le
    have : roundEven (x / ulp y) ≤ roundEven (y / ulp y) := roundEven_mono (by
      apply div_le_div_of_nonneg_right h (ulp_pos y).le)
    exact_mod_cast this

/-- Integers below `2^53` are representable. -/
theorem fl_nat {n : ℕ} (h : n < 2 ^ 53) : fl (n : ℚ) = n := by
  rcases Nat.eq_zero_or_pos n with rfl | hn
  · simpa using fl_zero
  have hn' : (0 : ℚ) < n := by exact_mod_cast hn
  have hlog : Int.log 2 (n : ℚ) = (Nat.log 2 n : ℤ) := Int.log_natCast 2 n
  have hlt : Nat.log 2 n < 53 := Nat.log_lt_of_lt_pow (by omega) h
  apply fl_mul_ulp ((n * 2 ^ (52 - Nat.log 2 n) : ℕ) : ℤ)
  unfold ulp
  rw [hlog]
  have : ((Nat.log 2 n : ℤ) - 52) = -((52 - Nat.log 2 n : ℕ) : ℤ) := by omega
  rw [this, zpow_neg, zpow_natCast]
  push_cast
  field_simp

/-- Powers of two times a representable number etc. are not needed; the relative error is. -/
theorem fl_error {x : ℚ} (h : 0 < x) : |fl x - x| ≤ x * (1 / 2 ^ 53) := by
  have lo : (2 : ℚ) ^ Int.log 2 x ≤ x := by exact_mod_cast Int.zpow_log_le_self (b := 2) (by norm_num) h
  have e1 : (2 : ℚ) ^ Int.log 2 x = 2 ^ 52 * ulp x := by
    unfold ulp
    rw [sub_eq_add_neg, zpow_split, mul_comm (2 ^ 52 : ℚ), mul_assoc]
    rw [show (2 : ℚ) ^ (-52 : ℤ) * (2 ^ 52 : ℚ) = 1 by norm_num, mul_one]
  have hu := ulp_pos x
  have hr : ∀ q : ℚ, |(roundEven q : ℚ) - q| ≤ 1 / 2 := by
    intro q
    have h0 := Int.floor_le q
    have h1 := Int.lt_floor_add_one q
    unfold roundEven
    rw [abs_le]
    split
    · constructor <;> linarith
    · split
      · push_cast; constructor <;> linarith
      · split
        · constructor <;> linarith
        · push_cast; constructor <;> linarith
  have := hr (x / ulp x)
  have e : fl x - x = ((roundEven (x / ulp x) : ℚ) - x / ulp x) * ulp x := by
    unfold fl; field_simp
  rw [e, abs_mul, abs_of_pos hu]
  calc _ ≤ 1 / 2 * ulp x := mul_le_mul_of_nonneg_right this hu.le
    _ ≤ x * (1 / 2 ^ 53) := by
      have : 2 ^ 52 * ulp x ≤ x := e1 ▸ lo
      linarith

end Nimiq.Float64
