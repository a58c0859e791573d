import Verif.Policy.Chunks
import Verif.Policy.Props
/-! # The exact end of the emission -/
namespace Nimiq.Policy
open Spec

theorem shrink_rem (u : Nat) : u + 4194303 - (u + 4194303) / 2 ^ 22 = shrink u + 4194303 := by
  unfold shrink
  rw [show (2 : Nat) ^ 22 = 4194304 by norm_num]
  omega

/-- Before the tail the curve is `shrink`, iterated. -/
theorem rem_iter (n : Nat) (hn : n < tailStart) : rem n = shrink^[n] 1847999995805697 + 4194303 := by
  induction n with
  | zero => rfl
  | succ n ih =>
    have ih := ih (by omega)
    rw [rem_succ_pre n hn, ih, shrink_rem, Function.iterate_succ_apply']

theorem rem_tailStart (H : Nat) (hH : H = 48692959) : rem H = 16784100000 := by
  have h1 := rem_iter H (by rw [hH]; decide)
  have h2 := curve_end
  rw [← hH] at h2
  rw [h1, h2]

theorem tail_arith (x y n : Nat) (h1 : x + 4000 = y) (h2 : y + 4000 * n = 16784100000) :
    x + 4000 * (n + 1) = 16784100000 := by
  rw [← h2, ← h1, Nat.mul_succ, Nat.add_assoc, Nat.add_comm 4000]

/-- The tail: 4000 Luna per block until nothing is left. -/
theorem rem_tail_exact (H n : Nat) (hH : H = 48692959) (hn : n ≤ 4196025) : rem (H + n) + 4000 * n = 16784100000 := by
  have h0 := rem_tailStart H hH
  induction n with
  | zero => exact h0
  | succ n ih =>
    have ih := ih (by omega)
    have h1 := rem_succ (H + n)
    rw [reward_tail (H + n) (by rw [hH]; unfold tailStart; omega), if_pos (by omega)] at h1
    rw [← Nat.add_assoc]
    exact tail_arith _ _ n h1 ih

/-- Block 52,888,984 mints the last Luna. -/
theorem rem_zero (E h : Nat) (hE : E = 52888984) (hh : E ≤ h) : rem h = 0 := by
  obtain ⟨H, hH⟩ : ∃ H, H = 48692959 := ⟨_, rfl⟩
  have h1 := rem_tail_exact H 4196025 hH (Nat.le_refl _)
  have h2 : rem h ≤ rem (H + 4196025) := rem_anti (by omega)
  generalize rem (H + 4196025) = x at *
  generalize rem h = y at *
  omega

theorem rem_pos (h : Nat) (hh : h < 52888984) : 4000 ≤ rem h := by
  obtain ⟨H, hH⟩ : ∃ H, H = 48692959 := ⟨_, rfl⟩
  have h1 := rem_tail_exact H 4196024 hH (by omega)
  have h2 : rem (H + 4196024) ≤ rem h := rem_anti (by omega)
  generalize rem (H + 4196024) = x at *
  generalize rem h = y at *
  omega

/-- **C81**: the supply equals the cap from block 52,888,984 on and is below it before; in the tail it is exactly 4000 Luna
per block short. -/
theorem C81_cap_reached {c} (hc : Reachable c) (h : UInt32) :
    ∃ s c', supplyAfter c h = .ok (s, c') ∧ (s = totalSupply ↔ 52888984 ≤ h) ∧
      (48692959 ≤ h → h ≤ 52888984 → s.toNat + 4000 * (52888984 - h.toNat) = totalSupply.toNat) := by
  obtain ⟨s, c', h1, h2⟩ := C24_cache_invisible hc h
  have h3 := spec_supply_le_cap h.toNat
  have h4 : rem h.toNat = cap - s.toNat := by unfold rem; rw [h2]
  rw [← h2] at h3
  have hT : totalSupply.toNat = cap := rfl
  refine ⟨s, c', h1, ?_, ?_⟩
  · rw [UInt32.le_iff_toNat_le, ← UInt64.toNat_inj, hT, show (52888984 : UInt32).toNat = 52888984 from rfl]
    constructor
    · intro h5
      by_contra h6
      have h7 := rem_pos h.toNat (by omega)
      omega
    · intro h5
      have h6 := rem_zero _ h.toNat rfl h5
      omega
  · intro h5 h6
    rw [UInt32.le_iff_toNat_le] at h5 h6
    rw [show (52888984 : UInt32).toNat = 52888984 from rfl] at h6
    rw [show (48692959 : UInt32).toNat = 48692959 from rfl] at h5
    obtain ⟨H, hH⟩ : ∃ H, H = 48692959 := ⟨_, rfl⟩
    have h7 := rem_tail_exact H (h.toNat - H) hH (by omega)
    rw [show H + (h.toNat - H) = h.toNat by omega] at h7
    rw [hT]
    omega

/-- **C81**: every block up to 52,888,984 is rewarded, with at least 4000 Luna, and no later one. -/
theorem C81_last_reward {c} (hc : Reachable c) (h : UInt32) (h0 : h ≠ 0) :
    ∃ r c', blockReward c h = .ok (r, c') ∧ (h ≤ 52888984 → 4000 ≤ r) ∧ (52888984 < h → r = 0) := by
  obtain ⟨r, c', h1, _, h2⟩ := blockReward_eq c hc.good h h0
  obtain ⟨k, hk⟩ : ∃ k, h.toNat = k + 1 := by
    have : h.toNat ≠ 0 := fun hx => h0 (UInt32.toNat_inj.mp hx)
    exact ⟨h.toNat - 1, by omega⟩
  rw [hk, show k + 1 - 1 = k by omega] at h2
  refine ⟨r, c', h1, ?_, ?_⟩
  · intro h3
    rw [UInt32.le_iff_toNat_le, show (52888984 : UInt32).toNat = 52888984 from rfl] at h3
    rw [UInt64.le_iff_toNat_le, h2, show (4000 : UInt64).toNat = 4000 from rfl]
    have h4 := rem_pos k (by omega)
    by_cases ht : k + 1 < tailStart
    · rw [reward_pre k ht, Nat.le_div_iff_mul_le (by decide)]
      exact Nat.le_trans rem_low (rem_anti (by unfold tailStart at ht; omega))
    · rw [reward_tail k (by omega), if_pos h4]
  · intro h3
    rw [UInt32.lt_iff_toNat_lt, show (52888984 : UInt32).toNat = 52888984 from rfl] at h3
    have h4 := rem_zero _ k rfl (by omega)
    rw [reward_tail k (by unfold tailStart; omega), if_neg (by omega)] at h2
    exact UInt64.toNat_inj.mp h2

/-- The hypotheses hold for the cache of a fresh process and the last rewarded block. -/
example : Reachable initCache ∧ (52888984 : UInt32) ≠ 0 := ⟨.init, by decide⟩

end Nimiq.Policy
