import Verif.Policy.Proofs
/-! # Bounds on the emission curve by certified repeated squaring

`rem h` Luna are left after block `h`.  Before the tail, `rem (h+1) = rem h - rem h / 2^22`, so `rem` shrinks by at
least the factor `1-2^-22` (lower bound) and `rem - (2^22-1)` by at most that factor (upper bound).  Powers of the factor
are bounded in fixed point arithmetic with 96 fractional bits. -/
namespace Nimiq.Policy
open Spec

def rem (h : Nat) : Nat := cap - Spec.supply h

theorem rem_succ_pre (h : Nat) (hh : h + 1 < tailStart) : rem (h+1) = rem h - rem h / 2^22 := by
  have h1 := spec_supply_le_cap h
  have hr : Spec.reward (Spec.supply h) (h+1) = rem h / 2^22 := by
    unfold Spec.reward rem; rw [if_neg (by omega)]
  simp only [rem, Spec.supply] at *
  rw [hr]; omega

theorem reward_pre (h : Nat) (hh : h + 1 < tailStart) : Spec.reward (Spec.supply h) (h+1) = rem h / 2^22 := by
  unfold Spec.reward rem; rw [if_neg (by omega)]

theorem reward_tail (h : Nat) (hh : tailStart ≤ h + 1) :
    Spec.reward (Spec.supply h) (h+1) = if 4000 ≤ rem h then 4000 else 0 := by
  unfold Spec.reward
  by_cases h4 : 4000 ≤ rem h
  · rw [if_pos ⟨hh, h4⟩, if_pos h4]; rfl
  · rw [if_neg (by intro hx; exact h4 hx.2), if_neg h4]
    exact Nat.div_eq_of_lt (by unfold rem at h4; omega)

theorem rem_succ (h : Nat) : rem (h+1) + Spec.reward (Spec.supply h) (h+1) = rem h := by
  have h1 := spec_supply_le_cap h
  have h2 := spec_reward_le (Spec.supply h) (h+1)
  simp only [rem, Spec.supply]; omega

theorem rem_anti {a b : Nat} (h : a ≤ b) : rem b ≤ rem a := by
  have := spec_supply_mono h
  unfold rem; omega

/-! ## Lower bound -/

def Lo (n a : Nat) : Prop := ∀ h, h + n < tailStart → a * rem h ≤ rem (h+n) * 2^96

theorem Lo.comp {n m a b : Nat} (hn : Lo n a) (hm : Lo m b) : Lo (n+m) (a*b / 2^96) := by
  intro h hh
  have h1 := hn h (by omega)
  have h2 := hm (h+n) (by omega)
  rw [Nat.add_assoc] at h2
  have h3 : a * b / 2^96 * 2^96 ≤ a * b := Nat.div_mul_le_self _ _
  have h4 : (a * b / 2^96 * rem h) * 2^96 ≤ (rem (h + (n+m)) * 2^96) * 2^96 := by
    calc (a * b / 2^96 * rem h) * 2^96 = (a * b / 2^96 * 2^96) * rem h := by
            rw [Nat.mul_assoc, Nat.mul_comm (rem h), ← Nat.mul_assoc]
      _ ≤ (a * b) * rem h := Nat.mul_le_mul_right _ h3
      _ = b * (a * rem h) := by rw [Nat.mul_comm a b, Nat.mul_assoc]
      _ ≤ b * (rem (h+n) * 2^96) := Nat.mul_le_mul_left _ h1
      _ = (b * rem (h+n)) * 2^96 := by rw [Nat.mul_assoc]
      _ ≤ (rem (h + (n+m)) * 2^96) * 2^96 := Nat.mul_le_mul_right _ h2
  exact Nat.le_of_mul_le_mul_right h4 (by decide)

/-- `2^96·(1-2^-22)` -/
def base : Nat := 2^96 - 2^74

theorem Lo.one : Lo 1 base := by
  intro h hh
  rw [rem_succ_pre h hh]
  have h1 := Nat.div_mul_le_self (rem h) (2^22)
  have h2 : rem h / 2^22 ≤ rem h := Nat.div_le_self _ _
  unfold base
  generalize rem h / 2^22 = q at *
  generalize rem h = r at *
  rw [Nat.sub_mul, Nat.sub_mul]
  have : q * 2^96 ≤ 2^74 * r := by
    have : q * 2^96 = (q * 2^22) * 2^74 := by omega
    rw [this, Nat.mul_comm (2^74)]
    exact Nat.mul_le_mul_right _ h1
  omega

theorem Lo.zero : Lo 0 (2^96) := by
  intro h _; simp only [Nat.add_zero]; rw [Nat.mul_comm]; exact Nat.le_refl _

/-- Square-and-multiply, most significant bit first, rounding down. -/
def loPow : List Bool → Nat × Nat → Nat × Nat
  | [], s => s
  | b :: bs, (n, a) =>
    let s := (n + n, a * a / 2^96)
    loPow bs (if b then (s.1 + 1, s.2 * base / 2^96) else s)

theorem loPow_sound (bs : List Bool) (s : Nat × Nat) (hs : Lo s.1 s.2) : Lo (loPow bs s).1 (loPow bs s).2 := by
  induction bs generalizing s with
  | nil => exact hs
  | cons b bs ih =>
    obtain ⟨n, a⟩ := s
    simp only [loPow]
    apply ih
    have h2 := Lo.comp hs hs
    split
    · exact Lo.comp h2 Lo.one
    · exact h2

def bits : Nat → Nat → List Bool
  | 0, _ => []
  | k+1, n => n.testBit k :: bits k n

theorem rem_low : 4000 * 2^22 ≤ rem 48692958 := by
  have h := loPow_sound (bits 26 48692958) (0, 2^96) Lo.zero
  have e1 : (loPow (bits 26 48692958) (0, 2^96)).1 = 48692958 := by decide +kernel
  have e2 : 4000 * 2^22 * 2^96 ≤ (loPow (bits 26 48692958) (0, 2^96)).2 * 1848000000000000 := by decide +kernel
  rw [e1] at h
  have := h 0 (by decide)
  rw [Nat.zero_add, show rem 0 = 1848000000000000 from rfl] at this
  exact Nat.le_of_mul_le_mul_right (Nat.le_trans e2 this) (by decide)

/-! ## Upper bound -/

def ex (h : Nat) : Nat := rem h - (2^22 - 1)

def Up (n a : Nat) : Prop := ∀ h, h + n < tailStart → ex (h+n) * 2^96 ≤ a * ex h

theorem Up.comp {n m a b : Nat} (hn : Up n a) (hm : Up m b) : Up (n+m) (a*b / 2^96 + 1) := by
  intro h hh
  have h1 := hn h (by omega)
  have h2 := hm (h+n) (by omega)
  rw [Nat.add_assoc] at h2
  have h3 : a * b ≤ (a * b / 2^96 + 1) * 2^96 := by
    have := Nat.div_add_mod (a*b) (2^96)
    have := Nat.mod_lt (a*b) (show 2^96 > 0 by decide)
    omega
  have h4 : (ex (h + (n+m)) * 2^96) * 2^96 ≤ ((a * b / 2^96 + 1) * ex h) * 2^96 := by
    calc (ex (h + (n+m)) * 2^96) * 2^96 ≤ (b * ex (h+n)) * 2^96 := Nat.mul_le_mul_right _ h2
      _ = b * (ex (h+n) * 2^96) := by rw [Nat.mul_assoc]
      _ ≤ b * (a * ex h) := Nat.mul_le_mul_left _ h1
      _ = (a * b) * ex h := by rw [Nat.mul_comm a b, Nat.mul_assoc]
      _ ≤ ((a * b / 2^96 + 1) * 2^96) * ex h := Nat.mul_le_mul_right _ h3
      _ = ((a * b / 2^96 + 1) * ex h) * 2^96 := by
            rw [Nat.mul_assoc, Nat.mul_comm (2^96), ← Nat.mul_assoc]
  exact Nat.le_of_mul_le_mul_right h4 (by decide)

theorem Up.one : Up 1 base := by
  intro h hh
  have hr : 4000 * 2^22 ≤ rem h := Nat.le_trans rem_low (rem_anti (by simp only [tailStart] at hh; omega))
  unfold ex base
  rw [rem_succ_pre h hh]
  have h0 := Nat.div_add_mod (rem h) (2^22)
  have h1 := Nat.mod_lt (rem h) (show 2^22 > 0 by decide)
  clear hh
  generalize rem h / 2^22 = q at *
  generalize rem h % 2^22 = m at *
  generalize rem h = r at *
  have e : r - q - (2^22 - 1) = (r - (2^22-1)) - q := by omega
  rw [e, Nat.sub_mul, Nat.sub_mul]
  have : 2^74 * (r - (2^22-1)) ≤ q * 2^96 := by
    have : q * 2^96 = 2^74 * (2^22 * q) := by omega
    rw [this]
    exact Nat.mul_le_mul_left _ (by omega)
  omega

theorem Up.zero : Up 0 (2^96) := by
  intro h _; simp only [Nat.add_zero]; rw [Nat.mul_comm]; exact Nat.le_refl _

def upPow : List Bool → Nat × Nat → Nat × Nat
  | [], s => s
  | b :: bs, (n, a) =>
    let s := (n + n, a * a / 2^96 + 1)
    upPow bs (if b then (s.1 + 1, s.2 * base / 2^96 + 1) else s)

theorem upPow_sound (bs : List Bool) (s : Nat × Nat) (hs : Up s.1 s.2) : Up (upPow bs s).1 (upPow bs s).2 := by
  induction bs generalizing s with
  | nil => exact hs
  | cons b bs ih =>
    obtain ⟨n, a⟩ := s
    simp only [upPow]
    apply ih
    have h2 := Up.comp hs hs
    split
    · exact Up.comp h2 Up.one
    · exact h2

/-- At most this much is left when the tail starts. -/
def tailRem : Nat := 16788194000

theorem cancel_aux (r A B K t m : Nat) (hK : 0 < K) (h8 : m ≤ t) (h7 : (r - m) * K ≤ A * B)
    (e2 : A * B ≤ (t - m) * K) : r ≤ t :=
  (Nat.sub_le_sub_iff_right h8).mp (Nat.le_of_mul_le_mul_right (Nat.le_trans h7 e2) hK)

theorem upPow_val : (upPow (bits 26 48692959) (0, 2^96)).1 = 48692959 ∧
    (upPow (bits 26 48692959) (0, 2^96)).2 * (1848000000000000 - (2^22-1)) ≤ (tailRem - (2^22-1)) * 2^96 := by
  decide +kernel

/-- (The height is a variable so that the kernel never tries to evaluate `rem` at a literal.) -/
theorem rem_high_aux (H : Nat) (hH : H = 48692959) : rem H ≤ tailRem := by
  have h := upPow_sound (bits 26 48692959) (0, 2^96) Up.zero
  obtain ⟨e1, e2⟩ := upPow_val
  rw [e1] at h
  clear e1
  generalize (upPow (bits 26 48692959) (0, 2^96)).2 = A at *
  rw [← hH] at h
  have h7 := h 0 (by rw [hH]; decide)
  clear h
  rw [Nat.zero_add] at h7
  unfold ex at h7
  rw [show rem 0 = 1848000000000000 from rfl] at h7
  generalize rem H = r at *
  exact cancel_aux r A (1848000000000000 - (2^22-1)) (2^96) tailRem (2^22-1) (by decide) (by unfold tailRem; omega) h7 e2

theorem rem_high : ∀ H, 48692959 ≤ H → rem H ≤ tailRem := by
  intro H h
  have h1 := rem_anti h
  exact Nat.le_trans h1 (rem_high_aux _ rfl)

theorem rem_tail (n H : Nat) (hH : H = 48692959) : rem (H+n) < 4000 ∨ rem (H+n) + 4000 * n = rem H := by
  induction n with
  | zero => right; rfl
  | succ n ih =>
    have h1 := rem_succ (H+n)
    rw [reward_tail (H+n) (by rw [hH]; unfold tailStart; omega)] at h1
    rw [← Nat.add_assoc]
    generalize rem (H+n+1) = x at *
    generalize rem (H+n) = y at *
    split at h1 <;> omega

/-- From this height on nothing is ever minted any more. -/
def endOfEmission : Nat := 52890010

theorem rem_end (h : Nat) (hh : endOfEmission ≤ h) : rem h < 4000 := by
  have h1 := rem_high_aux 48692959 rfl
  have h2 := rem_tail (h - 48692959) 48692959 rfl
  rw [Nat.add_sub_cancel' (by unfold endOfEmission at hh; omega)] at h2
  generalize rem 48692959 = r at *
  unfold tailRem at h1; unfold endOfEmission at hh
  omega

theorem supply_end (h : Nat) (hh : endOfEmission ≤ h) : Spec.supply h = Spec.supply endOfEmission := by
  obtain ⟨d, rfl⟩ := Nat.exists_eq_add_of_le hh
  clear hh
  have : ∀ H, H = endOfEmission → Spec.supply (H+d) = Spec.supply H := by
    intro H hH
    induction d with
    | zero => rfl
    | succ d ih =>
      rw [← ih, ← Nat.add_assoc]
      show Spec.supply (H+d) + Spec.reward (Spec.supply (H+d)) (H+d+1) = _
      rw [reward_tail (H+d) (by rw [hH]; unfold tailStart endOfEmission; omega)]
      rw [if_neg (by have := rem_end (H+d) (by omega); omega)]; rfl
  exact this _ rfl

end Nimiq.Policy
