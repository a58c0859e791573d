import Verif.Policy.Model
import Verif.Policy.Spec
/-! # Refinement of the uint arithmetic and of the cache to the specification -/
namespace Nimiq.Policy
open Spec

theorem spec_reward_le (s h : Nat) : Spec.reward s h ≤ cap - s := by
  unfold Spec.reward
  split
  · rename_i h1; exact h1.2
  · exact Nat.div_le_self _ _

theorem spec_supply_le_cap (h : Nat) : Spec.supply h ≤ cap := by
  induction h with
  | zero => decide
  | succ h ih =>
    have := spec_reward_le (Spec.supply h) (h+1)
    simp only [Spec.supply]; omega

theorem spec_supply_mono_succ (h : Nat) : Spec.supply h ≤ Spec.supply (h+1) := by
  simp only [Spec.supply]; omega

theorem spec_supply_mono {a b : Nat} (hab : a ≤ b) : Spec.supply a ≤ Spec.supply b := by
  induction b with
  | zero => have : a = 0 := by omega
            subst this; exact Nat.le_refl _
  | succ b ih =>
    by_cases h : a = b + 1
    · subst h; exact Nat.le_refl _
    · exact Nat.le_trans (ih (by omega)) (spec_supply_mono_succ b)

theorem reward_toNat (s : UInt64) (h : UInt32) (hs : s.toNat ≤ cap) :
    (blockRewardBySupply s h).toNat = if h = 0 then 0 else Spec.reward s.toNat h.toNat := by
  have hle : s ≤ totalSupply := by
    rw [UInt64.le_iff_toNat_le]; exact hs
  have hsub : (totalSupply - s).toNat = cap - s.toNat := by
    rw [UInt64.toNat_sub_of_le _ _ hle]; rfl
  unfold blockRewardBySupply Spec.reward
  by_cases h0 : h = 0
  · simp [h0]
  · simp only [h0, if_false]
    have c1 : (h ≥ emissionTailStart) ↔ h.toNat ≥ tailStart := by
      rw [ge_iff_le, UInt32.le_iff_toNat_le]; exact Iff.rfl
    have c2 : (totalSupply - s ≥ emissionTailReward) ↔ cap - s.toNat ≥ tailReward := by
      rw [ge_iff_le, UInt64.le_iff_toNat_le, hsub]; exact Iff.rfl
    simp only [c1, c2]
    split
    · rfl
    · have hm : (totalSupply - s) % emissionSpeed ≤ totalSupply - s := by
        rw [UInt64.le_iff_toNat_le, UInt64.toNat_mod]; exact Nat.mod_le _ _
      rw [UInt64.toNat_div, UInt64.toNat_sub_of_le _ _ hm, UInt64.toNat_mod, hsub]
      have : emissionSpeed.toNat = 2^22 := rfl
      rw [this]
      have := Nat.div_add_mod (cap - s.toNat) (2^22)
      have := Nat.mod_lt (cap - s.toNat) (show 2^22 > 0 by decide)
      omega

/-- State of the loop counter: the supply *before* the reward of block `i`. -/
def before : Nat → Nat
  | 0 => genesisSupply
  | i+1 => Spec.supply i

theorem before_succ (i : Nat) (h : UInt32) (hi : h.toNat = i) (s : UInt64) (hs : s.toNat = before i) :
    (s + blockRewardBySupply s h).toNat = before (i+1) := by
  have hcap : s.toNat ≤ cap := by
    rw [hs]; cases i with
    | zero => decide
    | succ i => exact spec_supply_le_cap i
  have hr := reward_toNat s h hcap
  have hle := spec_reward_le s.toNat h.toNat
  have : cap < 2^64 := by decide
  rw [UInt64.toNat_add]
  by_cases h0 : h = 0
  · subst h0
    have : i = 0 := by rw [← hi]; rfl
    subst this
    rw [hr, hs]; decide
  · simp only [h0, if_false] at hr
    rw [hr, Nat.mod_eq_of_lt (by omega)]
    have : i ≠ 0 := by
      intro h1; apply h0; apply UInt32.toNat_inj.mp; rw [hi, h1]; rfl
    obtain ⟨j, rfl⟩ := Nat.exists_eq_succ_of_ne_zero this
    simp only [before, Spec.supply, hs, hi]

theorem supplyLoop_toNat (n : Nat) (i : UInt32) (s : UInt64) (hs : s.toNat = before i.toNat)
    (hn : i.toNat + n < 2^32 ∨ (n = 0)) : (supplyLoop n i s).toNat = before (i.toNat + n) := by
  induction n generalizing i s with
  | zero => simpa [supplyLoop] using hs
  | succ n ih =>
    have hn' : i.toNat + (n+1) < 2^32 := by rcases hn with h | h <;> omega
    have hi1 : (i+1).toNat = i.toNat + 1 := by
      rw [UInt32.toNat_add]
      have : (1 : UInt32).toNat = 1 := rfl
      rw [this]; exact Nat.mod_eq_of_lt (by omega)
    simp only [supplyLoop]
    rw [ih (i+1) _ (by rw [hi1]; exact before_succ _ _ rfl _ hs) (by rw [hi1]; omega), hi1]
    congr 1; omega

theorem supplyBetween_toNat (s : UInt64) (a b : UInt32) (hs : s.toNat = before a.toNat) (hab : a.toNat ≤ b.toNat) :
    (supplyBetween s a b).toNat = before b.toNat := by
  unfold supplyBetween
  have := b.toNat_lt
  rw [supplyLoop_toNat _ _ _ hs (by omega)]
  congr 1; omega

/-- A cache is good when slot `k` holds the supply before block `5000·k`, and it is not too long for uint32. -/
def GoodCache (c : List UInt64) : Prop :=
  0 < c.length ∧ c.length ≤ 858994 ∧ ∀ k (hk : k < c.length), (c[k]).toNat = before (5000 * k)

theorem goodCache_init : GoodCache initCache := by
  refine ⟨by decide, by decide, ?_⟩
  intro k hk
  have : k = 0 := by simp [initCache] at hk; exact hk
  subst this; rfl

theorem mulInterval (i : UInt32) (hi : i.toNat ≤ 858993) : (i * supplyCacheInterval).toNat = 5000 * i.toNat := by
  rw [UInt32.toNat_mul]
  have : supplyCacheInterval.toNat = 5000 := rfl
  rw [this, Nat.mod_eq_of_lt (by omega)]; omega

theorem interval_end (i : UInt32) (hi : i.toNat + 1 ≤ 858993) :
    (i * supplyCacheInterval + supplyCacheInterval).toNat = 5000 * (i.toNat + 1) := by
  rw [UInt32.toNat_add, mulInterval i (by omega)]
  have : supplyCacheInterval.toNat = 5000 := rfl
  rw [this, Nat.mod_eq_of_lt (by omega)]; omega

theorem divInterval (h : UInt32) : (h / supplyCacheInterval).toNat = h.toNat / 5000 := by
  rw [UInt32.toNat_div]; rfl

theorem divInterval_le (h : UInt32) : (h / supplyCacheInterval).toNat ≤ 858993 := by
  rw [divInterval]; have := h.toNat_lt; omega

theorem succ_toNat (i : UInt32) (hi : i.toNat + 1 < 2^32) : (i+1).toNat = i.toNat + 1 := by
  rw [UInt32.toNat_add]
  have : (1 : UInt32).toNat = 1 := rfl
  rw [this]; exact Nat.mod_eq_of_lt (by omega)

theorem goodCache_append {c : List UInt64} (hc : GoodCache c) (s : UInt64) (hs : s.toNat = before (5000 * c.length))
    (hl : c.length + 1 ≤ 858994) : GoodCache (c ++ [s]) := by
  refine ⟨by simp, by simpa using hl, ?_⟩
  intro k hk
  simp only [List.length_append, List.length_cons, List.length_nil] at hk
  by_cases h : k < c.length
  · rw [List.getElem_append_left h]; exact hc.2.2 k h
  · have : k = c.length := by omega
    subst this
    simpa using hs

/-- One turn of the filling loop. -/
theorem fill_step (s : UInt64) (i : UInt32) (hi : i.toNat + 1 ≤ 858993) (hs : s.toNat = before (5000 * i.toNat)) :
    (supplyBetween s (i * supplyCacheInterval) (i * supplyCacheInterval + supplyCacheInterval)).toNat
      = before (5000 * (i.toNat + 1)) := by
  rw [supplyBetween_toNat, interval_end i hi]
  · rw [mulInterval i (by omega)]; exact hs
  · rw [mulInterval i (by omega), interval_end i hi]; omega

theorem fillLoop_good (n : Nat) (i : UInt32) (s : UInt64) (c : List UInt64) (hc : GoodCache c)
    (hs : s.toNat = before (5000 * i.toNat)) (hl : n ≠ 0 → c.length = i.toNat + 1) (hn : i.toNat + n ≤ 858993) :
    (fillLoop n i s c).1.toNat = before (5000 * (i.toNat + n)) ∧ GoodCache (fillLoop n i s c).2 := by
  induction n generalizing i s c with
  | zero => exact ⟨by simpa [fillLoop] using hs, hc⟩
  | succ n ih =>
    have hlen := hl (by omega)
    have hst := fill_step s i (by omega) hs
    have hi1 := succ_toNat i (by omega)
    have hc' := goodCache_append hc _ (by rw [hlen]; exact hst) (by omega)
    have := ih (i+1) _ _ hc' (by rw [hi1]; exact hst) (by intro _; simp [hi1, hlen]) (by omega)
    simp only [fillLoop]
    rw [hi1] at this
    have e : i.toNat + (n + 1) = i.toNat + 1 + n := by omega
    rw [e]; exact this

theorem startIndex_spec (c : List UInt64) (hc : GoodCache c) (endI : UInt32) :
    (startIndex c endI).toNat < c.length ∧ (startIndex c endI).toNat ≤ endI.toNat ∧
    ((startIndex c endI).toNat < endI.toNat → c.length = (startIndex c endI).toNat + 1) := by
  obtain ⟨h0, h1, _⟩ := hc
  have hof : (UInt32.ofNat (c.length - 1)).toNat = c.length - 1 := by
    rw [UInt32.toNat_ofNat', Nat.mod_eq_of_lt (by omega)]
  unfold startIndex
  rw [if_neg (by omega)]
  split
  · rename_i h; rw [UInt32.lt_iff_toNat_lt, hof] at h
    rw [hof]; omega
  · rename_i h; rw [UInt32.lt_iff_toNat_lt, hof] at h
    omega

theorem final_step (h : UInt32) (hh : h.toNat + 1 < 2^32) (s : UInt64)
    (hs : s.toNat = before (5000 * (h / supplyCacheInterval).toNat)) :
    (supplyBetween s ((h / supplyCacheInterval) * supplyCacheInterval) (h + 1)).toNat = Spec.supply h.toNat := by
  have h1 := divInterval_le h
  have h2 := divInterval h
  have h3 := succ_toNat h hh
  rw [supplyBetween_toNat, h3]
  · rfl
  · rw [mulInterval _ h1]; exact hs
  · rw [mulInterval _ h1, h3, h2]; omega

/-- `SupplyAfter` from any good cache (all heights but the last `uint32`). -/
theorem supplyAfter_good (c : List UInt64) (hc : GoodCache c) (h : UInt32) :
    ∃ r c', supplyAfter c h = .ok (r, c') ∧ GoodCache c' ∧
      (h.toNat + 1 < 2^32 → r.toNat = Spec.supply h.toNat) ∧
      (h.toNat + 1 = 2^32 → r.toNat = Spec.supply 4294964999) := by
  obtain ⟨hs1, hs2, hs3⟩ := startIndex_spec c hc (h / supplyCacheInterval)
  have hd := divInterval_le h
  have hget : c[(startIndex c (h / supplyCacheInterval)).toNat]? = some (c[(startIndex c (h / supplyCacheInterval)).toNat]) :=
    List.getElem?_eq_getElem hs1
  have hfl := fillLoop_good ((h / supplyCacheInterval).toNat - (startIndex c (h / supplyCacheInterval)).toNat)
    (startIndex c (h / supplyCacheInterval)) (c[(startIndex c (h / supplyCacheInterval)).toNat]) c hc
    (hc.2.2 _ hs1) (by intro hne; exact hs3 (by omega)) (by omega)
  have e : (startIndex c (h / supplyCacheInterval)).toNat +
      ((h / supplyCacheInterval).toNat - (startIndex c (h / supplyCacheInterval)).toNat)
      = (h / supplyCacheInterval).toNat := by omega
  rw [e] at hfl
  unfold supplyAfter
  simp only [hget]
  refine ⟨_, _, rfl, hfl.2, ?_, ?_⟩
  · intro hh; exact final_step h hh _ hfl.1
  · intro hh
    have hmax : h = 4294967295 := by
      apply UInt32.toNat_inj.mp
      have : (4294967295 : UInt32).toNat = 4294967295 := rfl
      omega
    subst hmax
    exact hfl.1

end Nimiq.Policy
